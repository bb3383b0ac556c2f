import Verif.Props.C02
/-
C06: shape of the tree after any history.  The definitions below speak about nodes, separators
and slots only; they do not mention the invariants used in the proofs.
-/
namespace Verif.Props.C06
open Verif.Key (Bytes slice)
open Verif.Trie
open Verif.Tree (Node Slot slotAt)
open Verif.Permuter (Word)
variable {V : Type} {α : Type}

mutual
/-- The leaves of a layer from left to right. -/
def leaves : Node α → List (Word × List (Slot α))
  | .null => []
  | .leaf perm slots => [(perm, slots)]
  | .inode _ _ kids => leavesL kids
def leavesL : List (Node α) → List (Word × List (Slot α))
  | [] => []
  | c :: cs => leaves c ++ leavesL cs
end

/-- `s` is a live entry of the leaf: it sits in the slot of some position below the size. -/
def EntryOf (s : Slot α) (l : Word × List (Slot α)) : Prop :=
  ∃ i, i < Permuter.size l.1 ∧ s = slotAt l.2 (Permuter.get l.1 i)

/-- `s` is a live entry somewhere below node `n`. -/
def Below (s : Slot α) (n : Node α) : Prop := ∃ l ∈ leaves n, EntryOf s l

/-- `n'` is `n` or a descendant of it within the layer. -/
inductive Desc : Node α → Node α → Prop where
  | refl (n) : Desc n n
  | kid {ht keys kids c n} : c ∈ kids → Desc c n → Desc (.inode ht keys kids) n

/-- `n` is the root of the top layer `t` or of a nested layer. -/
inductive IsLayer : T V → T V → Prop where
  | top (t) : IsLayer t t
  | sub {t n s m} : Below s t → s.lv = some (.layer n) → IsLayer n m → IsLayer t m

/-- What the property demands of one node. -/
def GoodNode : Node α → Prop
  | .null => True
  | .leaf perm slots =>
    -- the ordering word is a permutation with a size, and the entries are strictly sorted by
    -- (slice, length class)
    slots.length = 15 ∧ Permuter.size perm ≤ 15 ∧
    (∀ i j, i < j → j < 15 → Permuter.get perm i ≠ Permuter.get perm j) ∧
    (∀ i, i < 15 → Permuter.get perm i < 15) ∧
    ∀ i j, i < j → j < Permuter.size perm →
      let a := slotAt slots (Permuter.get perm i)
      let b := slotAt slots (Permuter.get perm j)
      a.ikey < b.ikey ∨ (a.ikey = b.ikey ∧ min a.klx 9 < min b.klx 9)
  | .inode _ keys kids =>
    -- one more child than separators, at most fifteen separators, in increasing order, and
    -- each entry lies between the separators around its child
    keys.length ≤ 15 ∧ kids.length = keys.length + 1 ∧ keys.Pairwise (· < ·) ∧
    ∀ (i : Nat) (c : Node α), kids[i]? = some c → ∀ s, Below s c →
      (∀ (j k : Nat), keys[j]? = some k → j < i → k ≤ s.ikey) ∧
      (∀ (j k : Nat), keys[j]? = some k → i ≤ j → s.ikey < k)

/-! ### Connection to the invariant -/

mutual
theorem entries_leaves (n : Node α) : Tree.entries n = (leaves n).flatMap fun l => Tree.leafEntries l.1 l.2 := by
  match n with
  | .null => simp [Tree.entries, leaves]
  | .leaf p s => simp [Tree.entries, leaves]
  | .inode ht ks cs => simp only [Tree.entries, leaves]; exact entriesL_leaves cs
theorem entriesL_leaves (cs : List (Node α)) :
    Tree.entriesL cs = (leavesL cs).flatMap fun l => Tree.leafEntries l.1 l.2 := by
  match cs with
  | [] => simp [Tree.entriesL, leavesL]
  | c :: cs =>
    simp only [Tree.entriesL, leavesL, List.flatMap_append]
    rw [entries_leaves c, entriesL_leaves cs]
end

theorem entryOf_iff {s : Slot α} {l : Word × List (Slot α)} : EntryOf s l ↔ s ∈ Tree.leafEntries l.1 l.2 := by
  constructor
  · rintro ⟨i, h1, rfl⟩
    rw [← Tree.leafEntries_get l.1 l.2 i (by rw [Tree.leafEntries_length]; exact h1)]
    exact List.getElem_mem _
  · intro h
    obtain ⟨i, hi, rfl⟩ := List.getElem_of_mem h
    exact ⟨i, by rwa [Tree.leafEntries_length] at hi, Tree.leafEntries_get _ _ _ hi⟩

theorem below_iff {s : Slot α} {n : Node α} : Below s n ↔ s ∈ Tree.entries n := by
  rw [entries_leaves, List.mem_flatMap]
  unfold Below
  constructor
  · rintro ⟨l, h1, h2⟩; exact ⟨l, h1, entryOf_iff.mp h2⟩
  · rintro ⟨l, h1, h2⟩; exact ⟨l, h1, entryOf_iff.mpr h2⟩

theorem leavesL_mem {cs : List (Node α)} {l : Word × List (Slot α)} (h : l ∈ leavesL cs) :
    ∃ (i : Nat) (c : Node α), cs[i]? = some c ∧ l ∈ leaves c := by
  induction cs with
  | nil => simp [leavesL] at h
  | cons a as ih =>
    simp only [leavesL, List.mem_append] at h
    rcases h with h | h
    · exact ⟨0, a, by simp, h⟩
    · obtain ⟨i, c', h1, h2⟩ := ih h
      exact ⟨i + 1, c', by simpa using h1, h2⟩

theorem isLayer_wf {t m : T V} (h : IsLayer t m) (hw : WF t) : WF m := by
  induction h with
  | top t => exact hw
  | sub h1 h2 _ ih => exact ih (hw.sub _ (below_iff.mp h1) _ h2)

theorem chain_mem {hi : Option Nat} {ht : Nat} : ∀ {keys : List Nat} {kids : List (Node α)} {b : Bool}
    {lo : Option Nat}, Tree.Chain b lo hi ht keys kids → ∀ c ∈ kids, c = .null ∨ ∃ lo' hi', Tree.Inv lo' hi' c
  | [], [c], b, lo, h, c', hc' => by
    simp only [List.mem_singleton] at hc'; subst hc'
    simp only [Tree.Chain] at h
    exact .inr ⟨_, _, h.1⟩
  | [], [], b, lo, h, c', hc' => by simp at hc'
  | [], _ :: _ :: _, b, lo, h, c', hc' => by simp [Tree.Chain] at h
  | k :: ks, [], b, lo, h, c', hc' => by simp at hc'
  | k :: ks, c :: cs, b, lo, h, c', hc' => by
    simp only [Tree.Chain] at h
    rcases List.mem_cons.mp hc' with rfl | hc'
    · rcases h.1 with h1 | h1
      · exact .inl h1.1
      · exact .inr ⟨_, _, h1.1⟩
    · exact chain_mem h.2.2 c' hc'

theorem chain_sep {hi : Option Nat} {ht : Nat} : ∀ {keys : List Nat} {kids : List (Node α)} {b : Bool}
    {lo : Option Nat}, Tree.Chain b lo hi ht keys kids → ∀ (i : Nat) (c : Node α), kids[i]? = some c →
    ∀ s ∈ Tree.entries c, (∀ (j k : Nat), keys[j]? = some k → j < i → k ≤ s.ikey) ∧
      (∀ (j k : Nat), keys[j]? = some k → i ≤ j → s.ikey < k)
  | [], kids, b, lo, h, i, c, hc, s, hs => by simp
  | k :: ks, [], b, lo, h, i, c, hc, s, hs => by simp at hc
  | k :: ks, c0 :: cs, b, lo, h, i, c, hc, s, hs => by
    have hks := h.keys_sorted
    simp only [Tree.Chain] at h
    cases i with
    | zero =>
      simp only [List.getElem?_cons_zero, Option.some.injEq] at hc
      subst hc
      refine ⟨by omega, ?_⟩
      intro j k' hk' _
      have hlt : s.ikey < k := by
        rcases h.1 with h1 | h1
        · rw [h1.1] at hs; simp [Tree.entries] at hs
        · exact (h1.1.sorted_range.2 s hs).2
      cases j with
      | zero => simp at hk'; omega
      | succ j =>
        simp only [List.getElem?_cons_succ] at hk'
        have := (List.pairwise_cons.mp hks.1).1 k' (List.mem_of_getElem? hk')
        omega
    | succ i =>
      simp only [List.getElem?_cons_succ] at hc
      obtain ⟨h1, h2⟩ := chain_sep h.2.2 i c hc s hs
      constructor
      · intro j k' hk' hj
        cases j with
        | zero =>
          simp at hk'; subst hk'
          have := Tree.Chain.range h.2.2 s (by
            have : c ∈ cs := List.mem_of_getElem? hc
            clear hc h1 h2 h hks
            induction cs with
            | nil => simp at this
            | cons a cs ih =>
              simp only [Tree.entriesL, List.mem_append]
              rcases List.mem_cons.mp this with rfl | this
              · exact .inl hs
              · exact .inr (ih this))
          simpa [Tree.inR] using this.1
        | succ j => exact h1 j k' (by simpa using hk') (by omega)
      · intro j k' hk' hj
        cases j with
        | zero => omega
        | succ j => exact h2 j k' (by simpa using hk') (by omega)

theorem good_of_inv {lo hi : Option Nat} {n : Node α} (h : Tree.Inv lo hi n) : GoodNode n := by
  match n with
  | .null => trivial
  | .leaf perm slots =>
    simp only [Tree.Inv] at h
    refine ⟨h.len, Permuter.size_le _, ?_, fun i hi => Tree.get_lt h.ord i hi, ?_⟩
    · intro i j hij hj he
      have := Tree.get_inj h.ord (by omega) hj he
      omega
    · intro i j hij hj
      have h1 := List.pairwise_iff_getElem.mp h.sorted i j (by rw [Tree.leafEntries_length]; omega)
        (by rw [Tree.leafEntries_length]; omega) hij
      rw [Tree.leafEntries_get, Tree.leafEntries_get] at h1
      exact h1
  | .inode ht keys kids =>
    simp only [Tree.Inv] at h
    refine ⟨h.1, h.2.length, h.2.keys_sorted.1, ?_⟩
    intro i c hc s hs
    exact chain_sep h.2 i c hc s (below_iff.mp hs)

theorem desc_inv {n n' : Node α} (h : Desc n n') : ∀ {lo hi : Option Nat}, Tree.Inv lo hi n →
    n' = .null ∨ ∃ lo' hi', Tree.Inv lo' hi' n' := by
  induction h with
  | refl n => intro lo hi h; exact .inr ⟨_, _, h⟩
  | kid hc hd ih =>
    intro lo hi h
    simp only [Tree.Inv] at h
    rcases chain_mem h.2 _ hc with rfl | ⟨lo', hi', hi⟩
    · cases hd; exact .inl rfl
    · exact ih hi

/-! ### The property -/

/-- Every node of every layer of every reachable table is well formed: capacities, sorted
separators and entries, and all entries within the range their separators delimit. -/
theorem nodes_good {t m : T V} (ht : Reachable t) (hm : IsLayer t m) {n : T V} (hn : Desc m n) :
    GoodNode n := by
  rcases desc_inv hn (isLayer_wf hm ht.wf).inv with rfl | ⟨_, _, h⟩
  · trivial
  · exact good_of_inv h

/-- Entries of different leaves of a layer are strictly ordered by slice; in particular two
entries with the same slice are never in different leaves. -/
theorem leaves_ordered {t m : T V} (ht : Reachable t) (hm : IsLayer t m) {i j : Nat} (hij : i < j)
    {l l' : Word × List (Slot (LV V))} (hl : (leaves m)[i]? = some l) (hl' : (leaves m)[j]? = some l')
    {s s' : Slot (LV V)} (hs : EntryOf s l) (hs' : EntryOf s' l') : s.ikey < s'.ikey := by
  have hw := isLayer_wf hm ht.wf
  have hinv := hw.inv
  suffices H : ∀ (n : T V) (lo hi : Option Nat), Tree.Inv lo hi n → (leaves n).Pairwise fun l l' =>
      ∀ s s', EntryOf s l → EntryOf s' l' → s.ikey < s'.ikey by
    have hp := List.pairwise_iff_getElem.mp (H m none top hinv)
    obtain ⟨hi', rfl⟩ := List.getElem?_eq_some_iff.mp hl
    obtain ⟨hj', rfl⟩ := List.getElem?_eq_some_iff.mp hl'
    exact hp i j hi' hj' hij s s' hs hs'
  intro n
  induction n using Tree.Node.ind with
  | h0 => intro lo hi h; simp [Tree.Inv] at h
  | h1 p s => intro lo hi h; simp [leaves]
  | h2 ht keys kids ih =>
    intro lo hi h
    simp only [Tree.Inv] at h
    have hsep := chain_sep h.2
    have hlen : kids.length = keys.length + 1 := h.2.length
    have hmem := chain_mem h.2
    simp only [leaves]
    have key : ∀ (cs : List (T V)) (base : Nat), (∀ c ∈ cs, c ∈ kids) →
        (∀ i c, cs[i]? = some c → kids[base + i]? = some c) → (leavesL cs).Pairwise fun l l' =>
        ∀ s s', EntryOf s l → EntryOf s' l' → s.ikey < s'.ikey := by
      intro cs
      induction cs with
      | nil => intro _ _ _; simp [leavesL]
      | cons c cs ihc =>
        intro base hsub hidx
        simp only [leavesL]
        rw [List.pairwise_append]
        refine ⟨?_, ihc (base + 1) (fun c' hc' => hsub c' (by simp [hc'])) (fun i c' hc' => by
          have := hidx (i + 1) c' (by simpa using hc')
          rw [show base + 1 + i = base + (i + 1) by omega]; exact this), ?_⟩
        · have hck := hsub c (by simp)
          rcases hmem c hck with rfl | ⟨lo', hi', hi2⟩
          · simp [leaves]
          · exact ih c hck lo' hi' hi2
        · intro l hl l' hl' s s' hs hs'
          have hc0 := hidx 0 c (by simp)
          have hb : s ∈ Tree.entries c := below_iff.mp ⟨l, hl, hs⟩
          -- `l'` is in some later child
          obtain ⟨i, c', hc', hl2⟩ := leavesL_mem hl'
          have hc1 := hidx (i + 1) c' (by simpa using hc')
          have hb' : s' ∈ Tree.entries c' := below_iff.mp ⟨l', hl2, hs'⟩
          have hlt : base + (i + 1) < kids.length := (List.getElem?_eq_some_iff.mp hc1).1
          have hk : keys[base]? = some keys[base] := List.getElem?_eq_getElem (by omega)
          have h1 := (hsep (base + 0) c hc0 s hb).2 base _ hk (by omega)
          have h2 := (hsep (base + (i + 1)) c' hc1 s' hb').1 base _ hk (by omega)
          omega
    exact key kids 0 (fun _ h => h) (fun i c h => by simpa using h)

/-- Descending from a layer's root by the separators ends, for every slice, in a leaf of that
layer that contains every entry of the layer with this slice. -/
theorem descent_reaches {t m : T V} (ht : Reachable t) (hm : IsLayer t m) (x : Nat) :
    ∃ l, Tree.reach x m = some l ∧ l ∈ leaves m ∧ ∀ s, Below s m → s.ikey = x → EntryOf s l := by
  have hinv := (isLayer_wf hm ht.wf).inv.mono_hi (hi' := none) (by simp)
  have hmem : ∀ (n : T V) l, Tree.reach x n = some l → l ∈ leaves n := by
    intro n
    induction n using Tree.Node.ind with
    | h0 => intro l h; simp [Tree.reach] at h
    | h1 p s => intro l h; simp [Tree.reach] at h; simp [leaves, h]
    | h2 ht keys kids ih =>
      intro l h
      simp only [Tree.reach] at h
      rw [Tree.reachNth_eq] at h
      simp only [leaves]
      cases hc : kids[Tree.inodeUpper keys x]? with
      | none => rw [hc] at h; simp at h
      | some c =>
        rw [hc] at h
        have hck : c ∈ kids := List.mem_of_getElem? hc
        have := ih c hck l h
        clear ih hc h
        induction kids with
        | nil => simp at hck
        | cons a as ih2 =>
          simp only [leavesL, List.mem_append]
          rcases List.mem_cons.mp hck with rfl | hck
          · exact .inl this
          · exact .inr (ih2 hck)
  obtain ⟨lo', hi', perm, slots, A, B, h1, h2, h3, h4, h5, h6⟩ :=
    Tree.reach_spec (⟨x, 0⟩ : Tree.LKey) m none none hinv (by simp [Tree.inR])
  refine ⟨(perm, slots), h1, hmem m _ h1, ?_⟩
  intro s hs hx
  rw [entryOf_iff]
  have hs' := below_iff.mp hs
  -- an entry with this slice cannot be in the parts below or above the leaf
  obtain ⟨lo9, hi9, perm9, slots9, A9, B9, g1, g2, g3, g4, g5, g6⟩ :=
    Tree.reach_spec (⟨x, s.klx⟩ : Tree.LKey) m none none hinv (by simp [Tree.inR])
  have e : (perm9, slots9) = (perm, slots) := by
    have : Tree.reach x m = some (perm9, slots9) := g1
    have h1' : Tree.reach x m = some (perm, slots) := h1
    rw [h1'] at this; simpa using this.symm
  simp only [Prod.mk.injEq] at e
  obtain ⟨rfl, rfl⟩ := e
  have hkey : s.key = (⟨x, s.klx⟩ : Tree.LKey).key := by simp [Slot.key, Tree.LKey.key, hx]
  rw [g4] at hs'
  simp only [List.mem_append] at hs'
  rcases hs' with (h | h) | h
  · exact absurd (hkey ▸ g5 s h) (Tree.KLt.irrefl _)
  · exact h
  · exact absurd (hkey ▸ g6 s h) (Tree.KLt.irrefl _)

/-- Two stored keys that agree on their first eight bytes and go on force a nested layer, and
that layer holds the remainders. -/
theorem shared_slice_layer {t : T V} (ht : Reachable t) {k k' : Bytes} {v v' : V} (hne : k ≠ k')
    (h8 : 8 < k.length) (h8' : 8 < k'.length) (htake : k.take 8 = k'.take 8)
    (hk : get k t = some (some v)) (hk' : get k' t = some (some v')) :
    ∃ m, IsLayer t m ∧ get (k.drop 8) m = some (some v) ∧ get (k'.drop 8) m = some (some v') := by
  have hw := ht.wf
  have hkey : (lkey k').key = (lkey k).key := by
    simp only [lkey, Tree.LKey.key, Prod.mk.injEq]
    refine ⟨?_, by omega⟩
    rw [← Key.slice_take8 k, ← Key.slice_take8 k', htake]
  rcases Tree.matching_le_one (x := lkey k) hw.inv.sorted_range.1 with hm | ⟨s, hm⟩
  · rw [get_same hw.inv hm rfl] at hk; simp [resolve] at hk
  · obtain ⟨hmem, _, ⟨h1, h2, w, h3⟩ | ⟨h1, h2, w, h3⟩ | ⟨h1, h2, n, h3, h4⟩⟩ := slot_cases hw hm
    · omega
    · rw [get_same hw.inv hm rfl] at hk
      rw [get_same hw.inv hm hkey] at hk'
      simp only [List.head?_cons, resolve_suf h1 h3] at hk hk'
      by_cases c : s.suf = k.drop 8
      · by_cases c' : s.suf = k'.drop 8
        · exact absurd ((eq_of_take_drop htake).mpr (c.symm.trans c')) hne
        · rw [if_neg c'] at hk'; simp at hk'
      · rw [if_neg c] at hk; simp at hk
    · rw [get_same hw.inv hm rfl] at hk
      rw [get_same hw.inv hm hkey] at hk'
      simp only [List.head?_cons] at hk hk'
      rw [resolve_layer h1 h8 h3] at hk
      rw [resolve_layer h1 h8' h3] at hk'
      exact ⟨n, .sub (below_iff.mpr hmem) h3 (.top n), hk, hk'⟩

/-! ### Concrete case -/

/-- A reachable table with a nested layer, to which the theorems apply. -/
example : ∃ t : T Nat, Reachable t ∧ ∃ m, IsLayer t m ∧
    get ([9, 9, 9, 9, 9, 9, 9, 9, 1] : Bytes) m = some (some 3) ∧ (∀ n, Desc m n → GoodNode n) ∧
    ∀ x, ∃ l, Tree.reach x m = some l := by
  have hv : ∀ o ∈ [Op.put C01.demoC 3, .put C01.demoD 4], o.Valid := by simp [Op.Valid]
  obtain ⟨outs, t, h1, h2⟩ := C01.history_is_map [Op.put C01.demoC 3, .put C01.demoD 4] hv
  have hr : Reachable t := ⟨_, hv, _, h1⟩
  obtain ⟨m, hm, h3, _⟩ := shared_slice_layer hr (k := C01.demoC) (k' := C01.demoD) (v := 3) (v' := 4)
    (by decide) (by decide) (by decide) (by decide) (by rw [h2]; decide) (by rw [h2]; decide)
  exact ⟨t, hr, m, hm, h3, fun n hn => nodes_good hr hm hn, fun x =>
    let ⟨l, hl, _⟩ := descent_reaches hr hm x; ⟨l, hl⟩⟩

end Verif.Props.C06
