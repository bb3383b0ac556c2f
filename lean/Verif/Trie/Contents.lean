import Verif.Trie.History

/-!
All keys and values of a table in the order of its layers, leaves and slots; this is the
order in which a scan meets them.
-/
namespace Verif.Trie
open Verif.Permuter (Word size used)
open Verif.Key (Bytes slice compareKeys LexLt)
open Verif.Tree
variable {V : Type}

/-- The eight bytes of a slice, most significant first. -/
def ikeyBytes (ikey : Nat) : Bytes := Key.store64 (Key.bswap (BitVec.ofNat 64 ikey))

mutual
/-- Keys (relative to the layer) and values, in tree order. -/
def contents : T V → List (Bytes × V)
  | .null => []
  | .leaf perm slots => (used perm).flatMap fun p => (slotsC slots).getD p []
  | .inode _ _ kids => contentsL kids
def contentsL : List (Node (LV V)) → List (Bytes × V)
  | [] => []
  | c :: cs => contents c ++ contentsL cs
def slotsC : List (Slot (LV V)) → List (List (Bytes × V))
  | [] => []
  | s :: r => slotC s :: slotsC r
/-- Keys and values of one slot. -/
def slotC : Slot (LV V) → List (Bytes × V)
  | ⟨ikey, klx, suf, lv⟩ => optC ikey klx suf lv
def optC (ikey klx : Nat) (suf : Bytes) : Option (LV V) → List (Bytes × V)
  | none => []
  | some x => lvC ikey klx suf x
def lvC (ikey klx : Nat) (suf : Bytes) : LV V → List (Bytes × V)
  | .val v => [(if klx ≤ 8 then (ikeyBytes ikey).take klx else ikeyBytes ikey ++ suf, v)]
  | .layer n => (contents n).map fun e => (ikeyBytes ikey ++ e.1, e.2)
end

theorem slotC_val {s : Slot (LV V)} {v : V} (h : s.lv = some (.val v)) :
    slotC s = [(if s.klx ≤ 8 then (ikeyBytes s.ikey).take s.klx else ikeyBytes s.ikey ++ s.suf, v)] := by
  obtain ⟨ikey, klx, suf, lv⟩ := s
  simp only at h
  subst h
  simp [slotC, optC, lvC]

theorem slotC_layer {s : Slot (LV V)} {n : T V} (h : s.lv = some (.layer n)) :
    slotC s = (contents n).map fun e => (ikeyBytes s.ikey ++ e.1, e.2) := by
  obtain ⟨ikey, klx, suf, lv⟩ := s
  simp only at h
  subst h
  simp [slotC, optC, lvC]

theorem slotsC_getD (slots : List (Slot (LV V))) (p : Nat) :
    (slotsC slots).getD p [] = slotC (slotAt slots p) := by
  induction slots generalizing p with
  | nil => simp [slotsC, slotAt, slotC, optC, default]
  | cons s r ih =>
    cases p with
    | zero => simp [slotsC, slotAt]
    | succ p => simpa [slotsC, slotAt] using ih p

/-- The contents are those of the slots in use, in order. -/
theorem contents_eq (t : T V) : contents t = (entries t).flatMap slotC := by
  induction t using Node.ind with
  | h0 => simp [contents, entries]
  | h1 p s =>
    simp only [contents, entries, leafEntries, List.flatMap_map]
    congr 1
    funext q
    exact slotsC_getD s q
  | h2 ht keys kids ih =>
    simp only [contents, entries]
    induction kids with
    | nil => simp [contentsL, entriesL]
    | cons c cs ihc =>
      simp only [contentsL, entriesL, List.flatMap_append]
      rw [ih c (by simp), ihc (fun d hd => ih d (by simp [hd]))]

/-! ### Slices and their bytes -/

theorem ikeyBytes_length (x : Nat) : (ikeyBytes x).length = 8 := by
  unfold ikeyBytes; exact Key.store64_length _

theorem ikeyBytes_slice (b : Bytes) : ikeyBytes (slice b) = Key.pad8 b := by
  unfold ikeyBytes slice
  have h : BitVec.ofNat 64 (Key.beNat (Key.pad8 b)) = BitVec.ofNat 64 (Key.leNat (Key.pad8 b).reverse) := rfl
  rw [h, Key.bswap_of_leNat (by rw [List.length_reverse, Key.pad8_length])]
  unfold Key.beNat
  rw [List.reverse_reverse, Key.store64_of_leNat (Key.pad8_length b)]

theorem pad8_take {b : Bytes} (h : b.length ≤ 8) : (Key.pad8 b).take b.length = b := by
  unfold Key.pad8
  rw [List.take_of_length_le (l := b) h, List.take_left]

theorem pad8_full {b : Bytes} (h : 8 ≤ b.length) : Key.pad8 b = b.take 8 := by
  unfold Key.pad8
  rw [Nat.sub_eq_zero_of_le h]; simp

theorem slice_append {a b : Bytes} (h : a.length = 8) : slice (a ++ b) = slice a := by
  rw [← Key.slice_take8 (a ++ b), List.take_left' h]

theorem slice_ikeyBytes (b : Bytes) : slice (ikeyBytes (slice b)) = slice b := by
  rw [ikeyBytes_slice]
  unfold slice
  rw [pad8_full (Nat.le_of_eq (Key.pad8_length b).symm), List.take_of_length_le (Nat.le_of_eq (Key.pad8_length b))]

/-! ### Keys of a slot -/

theorem Deep.empty {r : Nat} {ne : Bool} : Deep r ne (empty : T V) := by
  apply Deep.of_slots
  unfold Trie.empty
  rw [(Tree.emptyLayer_inv (hi := top)).2]; simp

/-- Every key stored under a slot has the slot's key in this layer. -/
theorem slotC_key {r : Nat} {ne : Bool} {s : Slot (LV V)} (hok : SlotOk s) (hd : SlotDeep r ne s)
    (hsub : ∀ n, s.lv = some (.layer n) → ∀ e ∈ contents n, e.1 ≠ []) {e : Bytes × V} (he : e ∈ slotC s) :
    (lkey e.1).key = s.key := by
  have _ := hd
  rcases hok with ⟨h1, ⟨b, h2, h3⟩, v, h4⟩ | ⟨h1, ⟨b, h2, h3⟩, h4, v, h5⟩ | ⟨h1, ⟨b, h2, h3⟩, n, h4⟩
  · rw [slotC_val h4, if_pos h1, ← h3, ikeyBytes_slice, ← h2, pad8_take (by omega)] at he
    simp only [List.mem_singleton] at he
    subst he
    simp only [lkey, LKey.key, Slot.key, h2, h3]
  · rw [slotC_val h5, if_neg (by omega), ← h3, ikeyBytes_slice, pad8_full (by omega),
      List.take_of_length_le (by omega)] at he
    simp only [List.mem_singleton] at he
    subst he
    have := List.length_pos_iff.mpr h4
    simp only [lkey, LKey.key, Slot.key, Prod.mk.injEq, List.length_append]
    rw [slice_append h2, h3]
    exact ⟨rfl, by omega⟩
  · rw [slotC_layer h4, ← h3, ikeyBytes_slice, pad8_full (by omega),
      List.take_of_length_le (by omega)] at he
    obtain ⟨e', he', rfl⟩ := List.mem_map.mp he
    have := List.length_pos_iff.mpr (hsub n h4 e' he')
    simp only [lkey, LKey.key, Slot.key, Prod.mk.injEq, List.length_append]
    rw [slice_append h2, h3]
    exact ⟨rfl, by omega⟩

theorem contents_nonempty {r : Nat} {t : T V} (hw : WF t) (hd : Deep r true t) :
    ∀ e ∈ contents t, e.1 ≠ [] := by
  intro e he h0
  rw [contents_eq, List.mem_flatMap] at he
  obtain ⟨s, hs, he⟩ := he
  have hne := hd.nonempty rfl s hs
  rcases hw.ok s hs with ⟨h1, ⟨b, h2, h3⟩, v, h4⟩ | ⟨h1, ⟨b, h2, h3⟩, h4, v, h5⟩ | ⟨h1, ⟨b, h2, h3⟩, n, h4⟩
  · rw [slotC_val h4, if_pos h1, ← h3, ikeyBytes_slice, ← h2, pad8_take (by omega)] at he
    simp only [List.mem_singleton] at he
    subst he
    simp only at h0
    subst h0
    simp at h2; omega
  · rw [slotC_val h5, if_neg (by omega)] at he
    simp only [List.mem_singleton] at he
    subst he
    simp only [List.append_eq_nil_iff] at h0
    exact h4 h0.2
  · rw [slotC_layer h4] at he
    obtain ⟨e', he', rfl⟩ := List.mem_map.mp he
    have := congrArg List.length h0
    simp [ikeyBytes_length] at this

theorem slotC_key' {r : Nat} {ne : Bool} {t : T V} (hw : WF t) (hd : Deep r ne t) {s : Slot (LV V)}
    (hs : s ∈ entries t) {e : Bytes × V} (he : e ∈ slotC s) : (lkey e.1).key = s.key :=
  slotC_key (hw.ok s hs) (hd.slot hs)
    (fun n hn => contents_nonempty (hw.sub s hs n hn) (hd.sub s hs n hn).2) he

/-! ### Contents and lookups -/

theorem matching_self {t : T V} (hw : WF t) {s : Slot (LV V)} (hs : s ∈ entries t) {k : Bytes}
    (hk : (lkey k).key = s.key) : matching (lkey k) (entries t) = [s] := by
  have hmem : s ∈ matching (lkey k) (entries t) := by
    unfold matching; rw [List.mem_filter]; exact ⟨hs, by simpa using hk.symm⟩
  rcases matching_le_one (x := lkey k) hw.inv.sorted_range.1 with h | ⟨s', h⟩
  · rw [h] at hmem; simp at hmem
  · rw [h] at hmem ⊢; simp at hmem; rw [hmem]

/-- The contents are exactly what lookups find. -/
theorem mem_contents {r : Nat} {ne : Bool} {t : T V} (hw : WF t) (hd : Deep r ne t) (k : Bytes) (v : V) :
    (k, v) ∈ contents t ↔ get k t = some (some v) := by
  induction hw generalizing r ne k v with
  | mk t inv ok sub ih =>
    have hw : WF t := ⟨_, inv, ok, sub⟩
    constructor
    · intro h
      rw [contents_eq, List.mem_flatMap] at h
      obtain ⟨s, hs, he⟩ := h
      have hkey := slotC_key' hw hd hs he
      have hm := matching_self hw hs hkey
      rw [get_eq hw.inv, hm]
      simp only [List.head?_cons]
      rcases ok s hs with ⟨h1, ⟨b, h2, h3⟩, v', h4⟩ | ⟨h1, ⟨b, h2, h3⟩, h4, v', h5⟩ | ⟨h1, ⟨b, h2, h3⟩, n, h4⟩
      · rw [slotC_val h4] at he
        simp only [List.mem_singleton, Prod.mk.injEq] at he
        rw [resolve_val h1 h4, he.2]
      · rw [slotC_val h5, if_neg (by omega)] at he
        simp only [List.mem_singleton, Prod.mk.injEq] at he
        rw [resolve_suf h1 h5, he.2, he.1, List.drop_left' (ikeyBytes_length _)]
        simp
      · rw [slotC_layer h4] at he
        obtain ⟨e', he', heq⟩ := List.mem_map.mp he
        simp only [Prod.mk.injEq] at heq
        obtain ⟨rfl, rfl⟩ := heq
        obtain ⟨d1, d2⟩ := hd.sub s hs n h4
        have hne := List.length_pos_iff.mpr (contents_nonempty (sub s hs n h4) d2 e' he')
        rw [resolve_layer h1 (by simp [ikeyBytes_length]; omega) h4, List.drop_left' (ikeyBytes_length _)]
        exact (ih s hs n h4 d2 e'.1 e'.2).mp he'
    · intro h
      rcases matching_le_one (x := lkey k) hw.inv.sorted_range.1 with hm | ⟨s, hm⟩
      · rw [get_eq hw.inv, hm] at h; simp [resolve] at h
      · obtain ⟨hmem, hkey, hc⟩ := slot_cases hw hm
        rw [contents_eq, List.mem_flatMap]
        refine ⟨s, hmem, ?_⟩
        rw [get_eq hw.inv, hm] at h
        simp only [List.head?_cons] at h
        simp only [Slot.key, lkey, LKey.key, Prod.mk.injEq] at hkey
        rcases hc with ⟨h1, h2, v', h3⟩ | ⟨h1, h2, v', h3⟩ | ⟨h1, h2, n, h3, h4⟩
        · rw [resolve_val h1 h3] at h
          simp only [Option.some.injEq] at h
          rw [slotC_val h3, if_pos h1, hkey.1, ikeyBytes_slice, show s.klx = k.length by omega,
            pad8_take h2, h]
          simp
        · rw [resolve_suf h1 h3] at h
          split at h
          · next c =>
            simp only [Option.some.injEq] at h
            rw [slotC_val h3, if_neg (by omega), hkey.1, ikeyBytes_slice, pad8_full (by omega), c,
              List.take_append_drop, h]
            simp
          · simp at h
        · rw [resolve_layer h1 h2 h3] at h
          obtain ⟨d1, d2⟩ := hd.sub s hmem n h3
          rw [slotC_layer h3, List.mem_map]
          refine ⟨(k.drop 8, v), (ih s hmem n h3 d2 _ _).mpr h, ?_⟩
          rw [hkey.1, ikeyBytes_slice, pad8_full (by omega), List.take_append_drop]

/-- Keys with different layer keys compare the way these do. -/
theorem lexLt_of_klt {a b : Bytes} (h : KLt (lkey a).key (lkey b).key) : LexLt a b := by
  apply (Props.C05.layer_order a b).1
  rw [Props.C05.compareKeys_neg]
  simp only [lkey, LKey.key, KLt] at h
  omega

/-- The contents are in strictly increasing byte-lexicographic order. -/
theorem contents_sorted {r : Nat} {ne : Bool} {t : T V} (hw : WF t) (hd : Deep r ne t) :
    (contents t).Pairwise fun a b => LexLt a.1 b.1 := by
  induction hw generalizing r ne with
  | mk t inv ok sub ih =>
    have hw : WF t := ⟨_, inv, ok, sub⟩
    rw [contents_eq, List.pairwise_flatMap]
    constructor
    · intro s hs
      rcases ok s hs with ⟨h1, ⟨b, h2, h3⟩, v', h4⟩ | ⟨h1, ⟨b, h2, h3⟩, h4, v', h5⟩ | ⟨h1, ⟨b, h2, h3⟩, n, h4⟩
      · rw [slotC_val h4]; simp
      · rw [slotC_val h5]; simp
      · rw [slotC_layer h4, List.pairwise_map]
        refine (ih s hs n h4 (hd.sub s hs n h4).2).imp ?_
        intro a b hab
        exact (Key.lexLt_append_left _ _ _).mpr hab
    · have hso := inv.sorted_range.1
      refine List.Pairwise.imp_of_mem ?_ hso
      intro s s' hs hs' hlt e he e' he'
      apply lexLt_of_klt
      rw [slotC_key' hw hd hs he, slotC_key' hw hd hs' he']
      exact hlt

/-! ### Histories with bounded keys -/

/-- All keys of the operation have at most `L` bytes. -/
def Op.Le (L : Nat) : Op V → Prop
  | .put k _ => k.length ≤ L
  | .update _ _ k => k.length ≤ L
  | _ => True

theorem step_deep {L : Nat} {t : T V} (hw : WF t) (hd : Deep L false t) (o : Op V) (ho : o.Valid)
    (hl : o.Le L) {b : Option Bool} {t' : T V} (h : step o t = some (b, t')) : Deep L false t' := by
  cases o with
  | put k v =>
    simp only [step] at h
    cases hu : upsert true (fun _ => v) k t with
    | none => rw [hu] at h; simp at h
    | some r =>
      rw [hu] at h
      simp only [Option.map_some, Option.some.injEq, Prod.mk.injEq] at h
      rw [← h.2]
      exact upsert_deep _ _ k t hw hd hl (by simp) (b := r.1) (by rw [hu])
  | update c f k =>
    simp only [step] at h
    cases hu : upsert c f k t with
    | none => rw [hu] at h; simp at h
    | some r =>
      rw [hu] at h
      simp only [Option.map_some, Option.some.injEq, Prod.mk.injEq] at h
      rw [← h.2]
      exact upsert_deep _ _ k t hw hd hl (by simp) (b := r.1) (by rw [hu])
  | remove k =>
    simp only [step] at h
    cases hu : remove k t with
    | none => rw [hu] at h; simp at h
    | some r =>
      rw [hu] at h
      simp only [Option.map_some, Option.some.injEq, Prod.mk.injEq] at h
      rw [← h.2]
      exact remove_deep k t hw hd (b := r.1) (gc := r.2.2) (by rw [hu])
  | gc k =>
    obtain ⟨t2, h1, _, _, h4⟩ := gcLayer_spec k t hw ho.1 ho.2
    simp only [step, h1, Option.map_some, Option.some.injEq, Prod.mk.injEq] at h
    rw [← h.2]
    exact h4 _ _ hd

/-- Tables that some history over keys of at most `L` bytes produces. -/
def ReachableLe (L : Nat) (t : T V) : Prop :=
  ∃ ops : List (Op V), (∀ o ∈ ops, o.Valid ∧ o.Le L) ∧ ∃ outs, run ops empty = some (outs, t)

theorem run_deep {L : Nat} (ops : List (Op V)) : ∀ {t : T V}, WF t → Deep L false t →
    (∀ o ∈ ops, o.Valid ∧ o.Le L) → ∀ {outs : List (Option Bool)} {t' : T V}, run ops t = some (outs, t') →
    Deep L false t' := by
  induction ops with
  | nil => intro t _ hd _ outs t' h; simp [run] at h; exact h.2 ▸ hd
  | cons o os ih =>
    intro t hw hd ho outs t' h
    rw [run] at h
    cases hs : step o t with
    | none => rw [hs] at h; simp at h
    | some r =>
      obtain ⟨b, t1⟩ := r
      rw [hs] at h
      dsimp only at h
      have hw1 : WF t1 := by
        have hg : ∃ m, Repr t m := by
          have := fun k => get_total hw k
          exact ⟨fun k => (this k).choose, hw, fun k => (this k).choose_spec⟩
        obtain ⟨m, hm⟩ := hg
        obtain ⟨t2, h1, h2⟩ := step_spec hm o (ho o (by simp)).1
        rw [hs] at h1
        simp only [Option.some.injEq, Prod.mk.injEq] at h1
        exact h1.2 ▸ h2.1
      have hd1 := step_deep hw hd o (ho o (by simp)).1 (ho o (by simp)).2 hs
      cases hr : run os t1 with
      | none => rw [hr] at h; simp at h
      | some r2 =>
        rw [hr] at h
        simp only [Option.map_some, Option.some.injEq, Prod.mk.injEq] at h
        rw [← h.2]
        exact ih hw1 hd1 (fun o' h' => ho o' (by simp [h'])) (outs := r2.1) (by rw [hr])

theorem ReachableLe.deep {L : Nat} {t : T V} (h : ReachableLe L t) : Deep L false t := by
  obtain ⟨ops, h1, outs, h2⟩ := h
  exact run_deep ops empty_wf Deep.empty h1 h2

theorem ReachableLe.reachable {L : Nat} {t : T V} (h : ReachableLe L t) : Reachable t := by
  obtain ⟨ops, h1, outs, h2⟩ := h
  exact ⟨ops, fun o ho => (h1 o ho).1, outs, h2⟩

/-- Every history has some bound on its keys. -/
theorem Reachable.le {t : T V} (h : Reachable t) : ∃ L, ReachableLe L t := by
  obtain ⟨ops, h1, outs, h2⟩ := h
  suffices H : ∃ L, ∀ o ∈ ops, o.Le L by
    obtain ⟨L, hL⟩ := H
    exact ⟨L, ops, fun o ho => ⟨h1 o ho, hL o ho⟩, outs, h2⟩
  clear h1 h2
  induction ops with
  | nil => exact ⟨0, by simp⟩
  | cons o os ih =>
    obtain ⟨L, hL⟩ := ih
    have mono : ∀ {o : Op V} {a b : Nat}, a ≤ b → o.Le a → o.Le b := by
      intro o a b hab h
      cases o <;> simp only [Op.Le] at h ⊢ <;> omega
    obtain ⟨M, hM⟩ : ∃ M, o.Le M := by
      cases o with
      | put k v => exact ⟨k.length, Nat.le_refl _⟩
      | update c f k => exact ⟨k.length, Nat.le_refl _⟩
      | remove k => exact ⟨0, trivial⟩
      | gc k => exact ⟨0, trivial⟩
    refine ⟨max L M, ?_⟩
    intro o' ho'
    rcases List.mem_cons.mp ho' with rfl | ho'
    · exact mono (by omega) hM
    · exact mono (by omega) (hL o' ho')

end Verif.Trie
