import Verif.Trie.Ops

/-!
Two facts about nested layers that hold because of how keys get there: only the top layer
can hold the empty key, and the depth of the trie is bounded by the lengths of the keys.
-/
namespace Verif.Trie
open Verif.Permuter (Word size used)
open Verif.Key (Bytes slice compareKeys)
open Verif.Tree
variable {V : Type}

/-- Every key in the layer has at most `r` bytes; with `ne`, none is empty; nested layers
hold no empty keys. -/
inductive Deep : Nat → Bool → T V → Prop
  | mk (r : Nat) (ne : Bool) (t : T V)
      (len : ∀ s ∈ entries t, s.klx ≤ 8 → s.klx ≤ r)
      (nonempty : ne = true → ∀ s ∈ entries t, s.klx ≠ 0)
      (suf : ∀ s ∈ entries t, s.klx = 64 → 8 + s.suf.length ≤ r)
      (room : ∀ s ∈ entries t, ∀ n, s.lv = some (.layer n) → 8 < r)
      (sub : ∀ s ∈ entries t, ∀ n, s.lv = some (.layer n) → Deep (r - 8) true n) : Deep r ne t

theorem Deep.len {r : Nat} {ne : Bool} {t : T V} (h : Deep r ne t) : ∀ s ∈ entries t, s.klx ≤ 8 → s.klx ≤ r := by
  cases h; assumption
theorem Deep.nonempty {r : Nat} {ne : Bool} {t : T V} (h : Deep r ne t) : ne = true → ∀ s ∈ entries t, s.klx ≠ 0 := by
  cases h; assumption
theorem Deep.suf {r : Nat} {ne : Bool} {t : T V} (h : Deep r ne t) : ∀ s ∈ entries t, s.klx = 64 → 8 + s.suf.length ≤ r := by
  cases h; assumption
theorem Deep.sub {r : Nat} {ne : Bool} {t : T V} (h : Deep r ne t) :
    ∀ s ∈ entries t, ∀ n, s.lv = some (.layer n) → 8 < r ∧ Deep (r - 8) true n := by
  cases h with
  | mk _ _ _ _ _ _ h1 h2 => exact fun s hs n hn => ⟨h1 s hs n hn, h2 s hs n hn⟩

/-- What `Deep` demands of one slot. -/
structure SlotDeep (r : Nat) (ne : Bool) (s : Slot (LV V)) : Prop where
  len : s.klx ≤ 8 → s.klx ≤ r
  nonempty : ne = true → s.klx ≠ 0
  suf : s.klx = 64 → 8 + s.suf.length ≤ r
  sub : ∀ n, s.lv = some (.layer n) → 8 < r ∧ Deep (r - 8) true n

theorem Deep.slot {r : Nat} {ne : Bool} {t : T V} (h : Deep r ne t) {s : Slot (LV V)} (hs : s ∈ entries t) :
    SlotDeep r ne s := ⟨h.len s hs, fun e => h.nonempty e s hs, h.suf s hs, h.sub s hs⟩

theorem Deep.of_slots {r : Nat} {ne : Bool} {t : T V} (h : ∀ s ∈ entries t, SlotDeep r ne s) : Deep r ne t :=
  ⟨_, _, _, fun s hs => (h s hs).len, fun e s hs => (h s hs).nonempty e, fun s hs => (h s hs).suf,
    fun s hs n hn => ((h s hs).sub n hn).1, fun s hs n hn => ((h s hs).sub n hn).2⟩

theorem Deep.edit {r : Nat} {ne : Bool} {t t' : T V} (h : Deep r ne t) {x : LKey} {ls : List (Slot (LV V))}
    (he : entries t' = replaceKey x ls (entries t)) (hls : ∀ s ∈ ls, SlotDeep r ne s) : Deep r ne t' := by
  apply Deep.of_slots
  intro s hs
  rw [he] at hs
  rcases mem_replace hs with hs | hs
  · exact hls s hs
  · exact h.slot hs

theorem slotDeep_mkSlot {r : Nat} {ne : Bool} {k : Bytes} {v : V} (hk : k.length ≤ r) (hne : ne = true → k ≠ []) :
    SlotDeep r ne (mkSlot k (some (.val v))) := by
  constructor
  · unfold mkSlot; dsimp only; split <;> omega
  · intro h
    have := List.length_pos_iff.mpr (hne h)
    unfold mkSlot; dsimp only; split <;> omega
  · unfold mkSlot; dsimp only
    split
    · intro _; simp; omega
    · next c => intro h; omega
  · intro n hn; simp [mkSlot] at hn

/-- The entries of the leaf a twig ends in. -/
theorem mkTwig_deep (commit : Bool) {v w : V} {nlv : Option (LV V)} (hn : commit = true → nlv = some (.val w))
    (oka ka : Bytes) : ∀ (r : Nat) (n : T V), mkTwig commit oka ka (some (.val v)) nlv = some n →
    oka.length ≤ r → ka.length ≤ r → oka ≠ [] → ka ≠ [] → Deep r true n := by
  fun_induction mkTwig commit oka ka (some (.val v)) nlv with
  | case1 => intro r n h h1 h2 h3 h4; simp at h
  | case2 oka ka c h0 hlen n' hr ih =>
    intro r n h h1 h2 h3 h4
    have hc : compareKeys oka ka = 0 := h0
    simp only [Option.some.injEq] at h
    subst h
    have hkey := Props.C05.compareKeys_zero.mp hc
    have hka : 8 < ka.length := by omega
    have := ih (r - 8) n' hr (by simp; omega) (by simp; omega)
      (by intro h0; have := congrArg List.length h0; simp at this; omega)
      (by intro h0; have := congrArg List.length h0; simp at this; omega)
    apply Deep.of_slots
    intro s hs
    have he : entries (Node.leaf (Permuter.makeSorted 1)
        (freshSlots [({ ikey := slice oka, klx := 128, suf := [], lv := some (.layer n') } : Slot (LV V))]))
        = [{ ikey := slice oka, klx := 128, suf := [], lv := some (.layer n') }] := by
      simp only [entries, leafEntries, used_sorted1]; rfl
    rw [he] at hs
    simp only [List.mem_singleton] at hs
    subst hs
    refine ⟨by simp, by simp, by simp, ?_⟩
    intro n2 hn2
    simp only [Option.some.injEq, LV.layer.injEq] at hn2
    subst hn2
    exact ⟨by omega, this⟩
  | case3 => intro r n h h1 h2 h3 h4; simp at h
  | case4 oka ka c h0 =>
    intro r n h h1 h2 h3 h4
    simp only [Option.some.injEq] at h
    subst h
    apply Deep.of_slots
    intro s hs
    cases commit with
    | false =>
      have hu : used (finishPerm false (Permuter.makeSorted 1) 1) = [0] := by decide
      simp only [entries, leafEntries, hu, List.map_cons, List.map_nil, List.mem_singleton] at hs
      subst hs
      exact slotDeep_mkSlot h1 (fun _ => h3)
    | true =>
      have hu : used (finishPerm true (Permuter.makeSorted 1) 1) = [0, 1] := by decide
      simp only [entries, leafEntries, hu, List.map_cons, List.map_nil, List.mem_cons,
        List.not_mem_nil, or_false] at hs
      rw [hn rfl] at hs
      rcases hs with rfl | rfl
      · exact slotDeep_mkSlot h1 (fun _ => h3)
      · exact slotDeep_mkSlot h2 (fun _ => h4)
  | case5 oka ka c h0 =>
    intro r n h h1 h2 h3 h4
    simp only [Option.some.injEq] at h
    subst h
    apply Deep.of_slots
    intro s hs
    cases commit with
    | false =>
      have hu : used (finishPerm false (Permuter.removeToBack (Permuter.makeSorted 2) 0) 0) = [1] := by decide
      simp only [entries, leafEntries, hu, List.map_cons, List.map_nil, List.mem_singleton] at hs
      subst hs
      exact slotDeep_mkSlot h1 (fun _ => h3)
    | true =>
      have hu : used (finishPerm true (Permuter.removeToBack (Permuter.makeSorted 2) 0) 0) = [0, 1] := by decide
      simp only [entries, leafEntries, hu, List.map_cons, List.map_nil, List.mem_cons,
        List.not_mem_nil, or_false] at hs
      rw [hn rfl] at hs
      rcases hs with rfl | rfl
      · exact slotDeep_mkSlot h2 (fun _ => h4)
      · exact slotDeep_mkSlot h1 (fun _ => h3)

theorem drop8_ne {k : Bytes} (h : 8 < k.length) : k.drop 8 ≠ [] := by
  intro h0; have := congrArg List.length h0; simp at this; omega

/-- Replacing a slot's layer. -/
theorem setLayer_deep {r : Nat} {ne : Bool} {t t' : T V} (h : WF t) (hd : Deep r ne t) {k : Bytes}
    {s : Slot (LV V)} {n' : T V} (hm : matching (lkey k) (entries t) = [s]) (hk : 8 < k.length)
    (hr : 8 < r) (hn : Deep (r - 8) true n') (g : Slot (LV V) → Slot (LV V))
    (hg : g s = { s with klx := 128, lv := some (.layer n') }) (ht : modify (lkey k) g t = some t') :
    Deep r ne t' := by
  obtain ⟨hmem, hkey, hc⟩ := slot_cases h hm
  have hkey' := hkey
  simp only [Slot.key, lkey, LKey.key, Prod.mk.injEq] at hkey'
  have hgk : (g s).key = s.key := by
    rw [hg]; simp only [Slot.key, Prod.mk.injEq, true_and]; omega
  obtain ⟨t2, h1, h2, h3⟩ := modify_spec (lkey k) g h.inv (lkey_top k) hm hgk
  rw [ht] at h1
  simp only [Option.some.injEq] at h1
  subst h1
  refine hd.edit h3 ?_
  simp only [List.mem_singleton]
  rintro _ rfl
  rw [hg]
  refine ⟨by simp, by simp, by simp, ?_⟩
  intro n hn'
  simp only [Option.some.injEq, LV.layer.injEq] at hn'
  exact hn' ▸ ⟨hr, hn⟩

theorem setVal_deep {r : Nat} {ne : Bool} {t t' : T V} (h : WF t) (hd : Deep r ne t) {k : Bytes}
    {s : Slot (LV V)} {w : V} (hm : matching (lkey k) (entries t) = [s])
    (ht : setVal (lkey k) w t = some t') : Deep r ne t' := by
  obtain ⟨t2, h1, h2, h3⟩ := modify_spec (lkey k) (fun s => { s with lv := some (.val w) }) h.inv (lkey_top k) hm rfl
  obtain ⟨hmem, hkey, hc⟩ := slot_cases h hm
  unfold setVal at ht
  rw [ht] at h1
  simp only [Option.some.injEq] at h1
  subst h1
  refine hd.edit h3 ?_
  simp only [List.mem_singleton]
  rintro _ rfl
  have := hd.slot hmem
  exact ⟨this.len, this.nonempty, this.suf, by simp⟩

theorem upsert_deep (commit : Bool) (f : Option V → V) (k : Bytes) (t : T V) (h : WF t) {r : Nat} {ne : Bool}
    (hd : Deep r ne t) (hk : k.length ≤ r) (hne : ne = true → k ≠ []) {b : Bool} {t' : T V}
    (hu : upsert commit f k t = some (b, t')) : Deep r ne t' := by
  induction hl : k.length using Nat.strongRecOn generalizing k t r ne b t' with
  | _ len ih =>
    rw [upsert] at hu
    rcases matching_le_one (x := lkey k) h.inv.sorted_range.1 with hm | ⟨s, hm⟩
    · have hf : find (lkey k) t = some none := by rw [find_spec _ h.inv, hm]; rfl
      obtain ⟨t2, h1, h2, h3⟩ := insert_spec (lkey k) commit
        (mkSlot k (if commit then some (.val (f none)) else none)) h.inv (lkey_top k) (mkSlot_key _ _) hm
      simp only [hf, h1, Option.map_some, Option.some.injEq, Prod.mk.injEq] at hu
      obtain ⟨_, rfl⟩ := hu
      refine hd.edit h3 ?_
      cases commit with
      | false => simp
      | true =>
        simp only [if_true, List.mem_singleton]
        rintro _ rfl; exact slotDeep_mkSlot hk hne
    · have hf : find (lkey k) t = some (some s) := by rw [find_spec _ h.inv, hm]; rfl
      have found : ∀ v, (if commit then (setVal (lkey k) (f (some v)) t).map fun t' => (true, t')
            else some (true, t)) = some (b, t') → Deep r ne t' := by
        intro v hu
        cases commit with
        | false => simp at hu; rw [← hu.2]; exact hd
        | true =>
          simp only [if_true] at hu
          cases hv : setVal (lkey k) (f (some v)) t with
          | none => rw [hv] at hu; simp at hu
          | some t2 =>
            rw [hv] at hu
            simp only [Option.map_some, Option.some.injEq, Prod.mk.injEq] at hu
            rw [← hu.2]
            exact setVal_deep h hd hm hv
      simp only [hf] at hu
      obtain ⟨hmem, hkey, ⟨h1, h2, v, h3⟩ | ⟨h1, h2, v, h3⟩ | ⟨h1, h2, n, h3, h4⟩⟩ := slot_cases h hm
      · rw [if_pos (by omega)] at hu
        simp only [h3] at hu
        exact found v hu
      · rw [if_neg (by omega), if_neg (by omega)] at hu
        by_cases c : s.suf = k.drop 8
        · rw [if_pos c] at hu
          simp only [h3] at hu
          exact found v hu
        · rw [if_neg c, h3] at hu
          obtain ⟨n, q1, q2, q3⟩ := mkTwig_spec commit v (f none)
            (if commit then some (.val (f none)) else none) (by rintro rfl; rfl) s.suf (k.drop 8) c
          simp only [q1] at hu
          have hsuf := hd.suf s hmem h1
          have hs0 : s.suf ≠ [] := by
            rcases h.ok s hmem with ⟨a, _⟩ | ⟨_, _, a, _⟩ | ⟨a, _⟩
            · omega
            · exact a
            · omega
          cases hmod : modify (lkey k) (fun s => { s with klx := 128, lv := some (.layer n) }) t with
          | none => rw [hmod] at hu; simp at hu
          | some t2 =>
            rw [hmod] at hu
            simp only [Option.map_some, Option.some.injEq, Prod.mk.injEq] at hu
            rw [← hu.2]
            refine setLayer_deep h hd hm h2 (by omega) ?_ _ rfl hmod
            exact mkTwig_deep commit (w := f none) (by rintro rfl; rfl) _ _ _ _ q1 (by omega)
              (by simp; omega) hs0 (drop8_ne h2)
      · rw [if_neg (by omega), if_pos h1, dif_pos h2] at hu
        simp only [h3] at hu
        cases hup : upsert commit f (k.drop 8) n with
        | none => rw [hup] at hu; simp at hu
        | some r2 =>
          obtain ⟨b2, n'⟩ := r2
          rw [hup] at hu
          simp only at hu
          cases hmod : modify (lkey k) (fun s => { s with lv := some (.layer n') }) t with
          | none => rw [hmod] at hu; simp at hu
          | some t2 =>
            rw [hmod] at hu
            simp only [Option.map_some, Option.some.injEq, Prod.mk.injEq] at hu
            rw [← hu.2]
            obtain ⟨g1, g2⟩ := hd.sub s hmem n h3
            refine setLayer_deep h hd hm h2 g1 ?_ _ (by rw [← h1]) hmod
            exact ih (k.drop 8).length (by simp; omega) (k.drop 8) n h4 g2 (by simp; omega)
              (fun _ => drop8_ne h2) hup rfl

theorem remove_deep (k : Bytes) (t : T V) (h : WF t) {r : Nat} {ne : Bool} (hd : Deep r ne t) {b : Bool}
    {t' : T V} {gc : Option Bytes} (hu : remove k t = some (b, t', gc)) : Deep r ne t' := by
  induction hl : k.length using Nat.strongRecOn generalizing k t r ne b t' gc with
  | _ len ih =>
    rw [remove] at hu
    rcases matching_le_one (x := lkey k) h.inv.sorted_range.1 with hm | ⟨s, hm⟩
    · have hf : find (lkey k) t = some none := by rw [find_spec _ h.inv, hm]; rfl
      simp only [hf, Option.some.injEq, Prod.mk.injEq] at hu
      rw [← hu.2.1]; exact hd
    · have hf : find (lkey k) t = some (some s) := by rw [find_spec _ h.inv, hm]; rfl
      have found : ((Tree.remove (lkey k) t).map fun r => (true, r.1, if r.2 then some ([] : Bytes) else none))
          = some (b, t', gc) → Deep r ne t' := by
        intro hu
        obtain ⟨t2, gc2, r1, r2, r3⟩ := Tree.remove_spec (lkey k) h.inv (lkey_top k) hm
        rw [r1] at hu
        simp only [Option.map_some, Option.some.injEq, Prod.mk.injEq] at hu
        rw [← hu.2.1]
        exact hd.edit r3 (by simp)
      simp only [hf] at hu
      obtain ⟨hmem, hkey, ⟨h1, h2, v, h3⟩ | ⟨h1, h2, v, h3⟩ | ⟨h1, h2, n, h3, h4⟩⟩ := slot_cases h hm
      · rw [if_pos (by omega)] at hu
        exact found hu
      · rw [if_neg (by omega), if_neg (by omega)] at hu
        by_cases c : s.suf = k.drop 8
        · rw [if_pos c] at hu; exact found hu
        · rw [if_neg c] at hu
          simp only [Option.some.injEq, Prod.mk.injEq] at hu
          rw [← hu.2.1]; exact hd
      · rw [if_neg (by omega), if_pos h1, dif_pos h2] at hu
        simp only [h3] at hu
        cases hup : remove (k.drop 8) n with
        | none => rw [hup] at hu; simp at hu
        | some r2 =>
          obtain ⟨b2, n', gc2⟩ := r2
          rw [hup] at hu
          simp only at hu
          cases hmod : modify (lkey k) (fun s => { s with lv := some (.layer n') }) t with
          | none => rw [hmod] at hu; simp at hu
          | some t2 =>
            rw [hmod] at hu
            simp only [Option.map_some, Option.some.injEq, Prod.mk.injEq] at hu
            rw [← hu.2.1]
            obtain ⟨g1, g2⟩ := hd.sub s hmem n h3
            refine setLayer_deep h hd hm h2 g1 ?_ _ (by rw [← h1]) hmod
            exact ih (k.drop 8).length (by simp; omega) (k.drop 8) n h4 g2 hup rfl

theorem Deep.of_entries {r : Nat} {ne : Bool} {t t' : T V} (h : Deep r ne t) (he : entries t' = entries t) : Deep r ne t' :=
  Deep.of_slots fun _ hs => h.slot (he ▸ hs)

end Verif.Trie
