import Verif.Tree.Order
import Verif.Props.C07

/-!
Leaves: invariant, search, and the effect of edits on the ordered list of slots.
-/
set_option linter.unusedSimpArgs false
namespace Verif.Tree
open Verif.Permuter (Word size back used free)
open Verif.Props.C07 (Reachable reachable_isOrdering)
variable {α : Type}

/-- The slots in use, in key order. -/
def leafEntries (perm : Word) (slots : List (Slot α)) : List (Slot α) :=
  (used perm).map (slotAt slots)

/-- Invariant of a leaf responsible for slices in `[lo, hi)`.  A leaf that is not the
leftmost one keeps its lower bound in slot 0 forever. -/
structure LeafInv (lo hi : Option Nat) (perm : Word) (slots : List (Slot α)) : Prop where
  ord : Reachable perm
  len : slots.length = 15
  sorted : SSorted (leafEntries perm slots)
  range : ∀ s ∈ leafEntries perm slots, inR lo hi s.ikey
  bound : ∀ b, lo = some b → (slotAt slots 0).ikey = b

theorem leafEntries_length (perm : Word) (slots : List (Slot α)) :
    (leafEntries perm slots).length = size perm := by
  simp [leafEntries, Permuter.used_length]

theorem leafEntries_get (perm : Word) (slots : List (Slot α)) (i : Nat)
    (h : i < (leafEntries perm slots).length) :
    (leafEntries perm slots)[i] = slotAt slots (Permuter.get perm i) := by
  simp [leafEntries, Permuter.used_get]

/-! ### Facts about ordering words -/

theorem perm_nodup {perm : Word} (h : Reachable perm) : (used perm ++ free perm).Nodup :=
  (reachable_isOrdering h).symm.nodup List.nodup_range

theorem get_lt {perm : Word} (h : Reachable perm) (i : Nat) (hi : i < 15) :
    Permuter.get perm i < 15 := by
  have h1 : Permuter.get perm i ∈ used perm ++ free perm := by
    rw [Permuter.used_append_free]
    rw [← Permuter.slots_get perm i (by rw [Permuter.slots_length]; exact hi)]
    exact List.getElem_mem _
  have := (reachable_isOrdering h).subset h1
  simpa using this

theorem get_inj {perm : Word} (h : Reachable perm) {i j : Nat} (hi : i < 15) (hj : j < 15)
    (he : Permuter.get perm i = Permuter.get perm j) : i = j := by
  have hn := perm_nodup h
  rw [Permuter.used_append_free] at hn
  have key : ∀ i j, i < 15 → j < 15 → i < j → Permuter.get perm i ≠ Permuter.get perm j := by
    intro i j hi hj hij
    have := List.pairwise_iff_getElem.mp hn i j (by rw [Permuter.slots_length]; exact hi)
      (by rw [Permuter.slots_length]; exact hj) hij
    simpa [Permuter.slots_get] using this
  rcases Nat.lt_trichotomy i j with c | c | c
  · exact absurd he (key i j hi hj c)
  · exact c
  · exact absurd he.symm (key j i hj hi c)

theorem mem_used {perm : Word} {p : Nat} (h : p ∈ used perm) :
    ∃ i, i < size perm ∧ Permuter.get perm i = p := by
  obtain ⟨i, hi, he⟩ := List.getElem_of_mem h
  refine ⟨i, by rwa [Permuter.used_length] at hi, ?_⟩
  rw [← he, Permuter.used_get]

theorem not_mem_used {perm : Word} (h : Reachable perm) {i : Nat} (hi : i < 15) (hs : size perm ≤ i) :
    Permuter.get perm i ∉ used perm := by
  intro hm
  obtain ⟨j, hj, he⟩ := mem_used hm
  have := Permuter.size_le perm
  have := get_inj h (by omega) hi he
  omega

/-! ### Slots -/

theorem slotAt_set_ne {slots : List (Slot α)} {p q : Nat} (s : Slot α) (h : p ≠ q) :
    slotAt (slots.set p s) q = slotAt slots q := by
  simp [slotAt, List.getElem?_set_ne h]

theorem slotAt_set_self {slots : List (Slot α)} {p : Nat} (s : Slot α) (h : p < slots.length) :
    slotAt (slots.set p s) p = s := by
  simp [slotAt, List.getElem?_set_self h]

theorem leafEntries_set {perm : Word} {slots : List (Slot α)} {p : Nat} (s : Slot α)
    (h : p ∉ used perm) : leafEntries perm (slots.set p s) = leafEntries perm slots := by
  unfold leafEntries
  apply List.map_congr_left
  intro q hq
  exact slotAt_set_ne s (by rintro rfl; exact h hq)

theorem map_insertIdx {β γ : Type} (f : β → γ) (l : List β) (i : Nat) (a : β) :
    (l.insertIdx i a).map f = (l.map f).insertIdx i (f a) := by
  induction l generalizing i with
  | nil => cases i <;> simp
  | cons b l ih => cases i <;> simp [ih]

theorem leafEntries_insert {perm : Word} (h : Reachable perm) {slots : List (Slot α)}
    (hl : slots.length = 15) {i : Nat} (hi : i ≤ size perm) (hs : size perm < 15) (s : Slot α) :
    leafEntries (Permuter.insertFromBack perm i).1 (slots.set (back perm) s)
      = (leafEntries perm slots).insertIdx i s := by
  have hb : back perm ∉ used perm := not_mem_used h (i := 14) (by decide) (by omega)
  have hb15 : back perm < 15 := get_lt h 14 (by decide)
  have h1 := (Props.C07.insertFromBack_spec perm i hi hs).1
  unfold leafEntries
  rw [h1]
  have hv : (Permuter.insertFromBack perm i).2 = back perm := rfl
  rw [hv, map_insertIdx, slotAt_set_self s (by omega)]
  congr 1
  exact leafEntries_set s hb

theorem used_exchange_free {perm : Word} {i j : Nat} (hi : i < 15) (hj : j < 15) (h1 : size perm ≤ i)
    (h2 : size perm ≤ j) : used (Permuter.exchange perm i j) = used perm := by
  apply List.ext_getElem
  · simp [Permuter.used_length, Permuter.exchange_size]
  · intro m hm hm2
    have hle := Permuter.size_le perm
    rw [Permuter.used_length] at hm2
    rw [Permuter.used_get, Permuter.used_get, Permuter.exchange_get perm i j m (by omega)]
    rw [if_neg (by omega), if_neg (by omega)]

theorem used_setSize {perm : Word} {n : Nat} (hn : n ≤ size perm) :
    used (Permuter.setSize perm n) = (used perm).take n := by
  have hle := Permuter.size_le perm
  apply List.ext_getElem
  · simp [Permuter.used_length, Permuter.setSize_size perm n (by omega)]; omega
  · intro m hm hm2
    rw [Permuter.used_length, Permuter.setSize_size perm n (by omega)] at hm
    rw [Permuter.used_get, List.getElem_take, Permuter.used_get,
      Permuter.setSize_get perm n (by omega) m (by omega)]

/-! ### Search in a leaf -/

theorem sorted_of_ssorted {perm : Word} {slots : List (Slot α)} (x : LKey)
    (h : SSorted (leafEntries perm slots)) :
    Props.C08.Sorted (Permuter.get perm) (leafCompare x slots) (size perm) := by
  intro i j hij hj hle
  have h1 := List.pairwise_iff_getElem.mp h i j (by rw [leafEntries_length]; omega)
    (by rw [leafEntries_length]; omega) hij
  rw [leafEntries_get, leafEntries_get] at h1
  unfold leafCompare at *
  rw [compare_neg]
  have h2 : ¬ 0 < Key.compare x.ikey x.len (slotAt slots (Permuter.get perm i)).ikey
      (slotAt slots (Permuter.get perm i)).klx := by omega
  rw [compare_pos] at h2
  rcases KLt.tri x.key (slotAt slots (Permuter.get perm i)).key with c | c | c
  · exact KLt.trans c h1
  · rw [c]; exact h1
  · exact absurd c h2

/-- The search separates the leaf's slots into smaller, equal and greater ones. -/
theorem leafLower_spec {perm : Word} {slots : List (Slot α)} (x : LKey)
    (h : SSorted (leafEntries perm slots)) :
    ∃ A B, (leafLower x perm slots).1 = A.length ∧ AllBelow x A ∧ AllAbove x B ∧
      (((leafLower x perm slots).2 = none ∧ leafEntries perm slots = A ++ B) ∨
       ((leafLower x perm slots).2 = some (Permuter.get perm A.length) ∧
        (slotAt slots (Permuter.get perm A.length)).key = x.key ∧ A.length < size perm ∧
        leafEntries perm slots = A ++ slotAt slots (Permuter.get perm A.length) :: B)) := by
  have hl := Props.C08.lower_spec (sorted_of_ssorted x h)
  unfold leafLower
  generalize hr : KSearch.lower (Permuter.get perm) (leafCompare x slots) (size perm) = r at hl
  obtain ⟨i, p⟩ := r
  have hlen := leafEntries_length perm slots
  have hbelow : AllBelow x ((leafEntries perm slots).take i) := by
    intro s hs
    obtain ⟨j, hj, rfl⟩ := List.getElem_of_mem hs
    rw [List.length_take] at hj
    rw [List.getElem_take, leafEntries_get]
    have := hl.before j (by omega)
    unfold leafCompare at this
    exact (compare_pos _ _).mp this
  have hle : i ≤ size perm := hl.le
  have hlt : ((leafEntries perm slots).take i).length = i := by rw [List.length_take]; omega
  cases p with
  | none =>
    refine ⟨(leafEntries perm slots).take i, (leafEntries perm slots).drop i, hlt.symm, hbelow, ?_,
      .inl ⟨rfl, (List.take_append_drop _ _).symm⟩⟩
    intro s hs
    obtain ⟨j, hj, rfl⟩ := List.getElem_of_mem hs
    rw [List.length_drop] at hj
    rw [List.getElem_drop, leafEntries_get]
    have := hl.after (i + j) (by simp) (by omega) (.inl rfl)
    unfold leafCompare at this
    exact (compare_neg _ _).mp this
  | some p =>
    obtain ⟨h1, h2, h3⟩ := hl.found p rfl
    simp only at h1 h2
    refine ⟨(leafEntries perm slots).take i, (leafEntries perm slots).drop (i + 1), hlt.symm, hbelow, ?_,
      .inr ?_⟩
    · intro s hs
      obtain ⟨j, hj, rfl⟩ := List.getElem_of_mem hs
      rw [List.length_drop] at hj
      rw [List.getElem_drop, leafEntries_get]
      have := hl.after (i + 1 + j) (by simp; omega) (by omega) (.inr (by simp; omega))
      unfold leafCompare at this
      exact (compare_neg _ _).mp this
    · rw [hlt]
      refine ⟨by rw [h2], ?_, h1, ?_⟩
      · rw [← h2]
        unfold leafCompare at h3
        exact ((compare_zero _ _).mp h3).symm
      · rw [← leafEntries_get perm slots i (by omega)]
        rw [List.getElem_cons_drop, List.take_append_drop]

/-! ### Few keys share a slice -/

/-- At most ten keys of a sorted list share a slice. -/
theorem same_slice_le {l : List (Slot α)} (h : SSorted l) (i j : Nat) (hij : i ≤ j) (hj : j < l.length)
    (he : (l[i]'(by omega)).ikey = l[j].ikey) : j < i + 10 := by
  have key : ∀ d, ∀ hd : i + d < l.length, (l[i]'(by omega)).ikey = l[i + d].ikey →
      d ≤ (l[i + d]).key.2 := by
    intro d
    induction d with
    | zero => intro _ _; omega
    | succ d ih =>
      intro hd he
      have h1 := List.pairwise_iff_getElem.mp h i (i + d)
      have h2 := List.pairwise_iff_getElem.mp h (i + d) (i + (d + 1)) (by omega) hd (by omega)
      have hle2 := KLt.fst_le h2
      have hle1 : (l[i]'(by omega)).ikey ≤ (l[i + d]'(by omega)).ikey := by
        rcases Nat.eq_zero_or_pos d with rfl | hp
        · exact Nat.le_refl _
        · exact KLt.fst_le (h1 (by omega) (by omega) (by omega))
      have e : (l[i]'(by omega)).ikey = (l[i + d]'(by omega)).ikey := by
        simp only [Slot.key] at hle2
        omega
      have := ih (by omega) e
      unfold KLt at h2
      simp only [Slot.key] at h2 this ⊢
      omega
  have h3 := key (j - i) (by omega) (by
    have : i + (j - i) = j := by omega
    simp only [this]; exact he)
  have e : i + (j - i) = j := by omega
  simp only [e] at h3
  have : (l[j]).key.2 ≤ 9 := by simp only [Slot.key]; omega
  omega

end Verif.Tree
