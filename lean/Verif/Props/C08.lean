import Verif.KSearch.Model
/-
C08: in-node search returns the right position.

The specification is independent of the loops: a position `i` is *the* upper bound when
every key before it is not greater than the searched key and every key from it on is
greater; it is the lower bound result when it is an exact match or the point that
separates smaller from larger keys.
-/
namespace Verif.Props.C08
open Verif.KSearch

/-- The node's keys, read in permutation order, are strictly sorted as seen by the
comparison: once the searched key is at or before one of them it is before all later
ones. -/
def Sorted (perm : Nat → Nat) (cmp : Nat → Int) (n : Nat) : Prop :=
  ∀ i j, i < j → j < n → cmp (perm i) ≤ 0 → cmp (perm j) < 0

/-- `i` is the number of keys that are not greater than the searched key. -/
structure IsUpper (perm : Nat → Nat) (cmp : Nat → Int) (n i : Nat) : Prop where
  le : i ≤ n
  before : ∀ j, j < i → 0 ≤ cmp (perm j)
  after : ∀ j, i ≤ j → j < n → cmp (perm j) < 0

/-- `(i, p)` is the lower-bound answer: `i` counts the keys smaller than the searched key,
and `p` is the slot of the equal key, if there is one. -/
structure IsLower (perm : Nat → Nat) (cmp : Nat → Int) (n : Nat) (r : Nat × Option Nat) :
    Prop where
  le : r.1 ≤ n
  before : ∀ j, j < r.1 → 0 < cmp (perm j)
  found : ∀ p, r.2 = some p → r.1 < n ∧ p = perm r.1 ∧ cmp p = 0
  after : ∀ j, r.1 ≤ j → j < n → (r.2 = none ∨ r.1 < j) → cmp (perm j) < 0

theorem isUpper_unique {perm cmp n i j} (hi : IsUpper perm cmp n i) (hj : IsUpper perm cmp n j) :
    i = j := by
  rcases Nat.lt_trichotomy i j with h | h | h
  · have := hi.after i (Nat.le_refl _) (Nat.lt_of_lt_of_le h hj.le); have := hj.before i h; omega
  · exact h
  · have := hj.after j (Nat.le_refl _) (Nat.lt_of_lt_of_le h hi.le); have := hi.before j h; omega

theorem isLower_unique {perm cmp n r s} (hr : IsLower perm cmp n r) (hs : IsLower perm cmp n s) :
    r = s := by
  have key : ∀ {r s : Nat × Option Nat}, IsLower perm cmp n r → IsLower perm cmp n s →
      ¬ r.1 < s.1 := by
    intro r s hr hs h
    have hb := hs.before _ h
    cases hrp : r.2 with
    | none =>
      have := hr.after r.1 (Nat.le_refl _) (Nat.lt_of_lt_of_le h hs.le) (Or.inl hrp); omega
    | some p =>
      have ⟨_, h2, h3⟩ := hr.found p hrp
      subst h2; omega
  have h1 : r.1 = s.1 := by
    have := key hr hs; have := key hs hr; omega
  have h2 : r.2 = s.2 := by
    cases hrp : r.2 with
    | none =>
      cases hsp : s.2 with
      | none => rfl
      | some p =>
        have ⟨a, b, c⟩ := hs.found p hsp
        have := hr.after s.1 (by omega) a (Or.inl hrp)
        subst b; omega
    | some p =>
      have ⟨a, b, c⟩ := hr.found p hrp
      cases hsp : s.2 with
      | none =>
        have := hs.after r.1 (by omega) a (Or.inl hsp)
        subst b; omega
      | some q =>
        have ⟨a', b', c'⟩ := hs.found q hsp
        rw [b, b', h1]
  exact Prod.ext h1 h2

theorem upperLoop_spec {perm cmp n} (hs : Sorted perm cmp n) (l r : Nat) :
    l ≤ r → r ≤ n →
    (∀ j, j < l → 0 ≤ cmp (perm j)) → (∀ j, r ≤ j → j < n → cmp (perm j) < 0) →
    IsUpper perm cmp n (upperLoop perm cmp l r) := by
  fun_induction upperLoop perm cmp l r with
  | case1 l r h m c hc ih =>
    intro _ hrn hb ha
    refine ih (by omega) (by omega) hb ?_
    intro j hj hjn
    rcases Nat.lt_or_eq_of_le hj with h' | h'
    · exact hs m j h' hjn (by omega)
    · subst h'; exact hc
  | case2 l r h m c hc hc0 =>
    intro _ hrn hb ha
    refine ⟨by omega, ?_, ?_⟩
    · intro j hj
      rcases Nat.lt_or_eq_of_le (Nat.le_of_lt_succ hj) with h' | h'
      · apply Classical.byContradiction
        intro hneg
        have := hs j m h' (by omega) (by omega)
        omega
      · subst h'; omega
    · intro j hj hjn
      exact hs m j (by omega) hjn (by omega)
  | case3 l r h m c hc hc0 ih =>
    intro _ hrn hb ha
    refine ih (by omega) hrn ?_ ha
    intro j hj
    rcases Nat.lt_or_eq_of_le (Nat.le_of_lt_succ hj) with h' | h'
    · apply Classical.byContradiction
      intro hneg
      have := hs j m h' (by omega) (by omega)
      omega
    · subst h'; omega
  | case4 l r h =>
    intro hlr hrn hb ha
    have : l = r := by omega
    subst this
    exact ⟨hrn, hb, ha⟩

/-- Binary upper bound: for every sorted node, the returned index separates the keys that
are `≤` the searched key from those that are greater. -/
theorem upper_spec {perm cmp n} (hs : Sorted perm cmp n) :
    IsUpper perm cmp n (upper perm cmp n) :=
  upperLoop_spec hs 0 n (by omega) (by omega) (by intros; omega) (by intros; omega)

theorem lowerLoop_spec {perm cmp n} (hs : Sorted perm cmp n) (l r : Nat) :
    l ≤ r → r ≤ n →
    (∀ j, j < l → 0 < cmp (perm j)) → (∀ j, r ≤ j → j < n → cmp (perm j) < 0) →
    IsLower perm cmp n (lowerLoop perm cmp l r) := by
  fun_induction lowerLoop perm cmp l r with
  | case1 l r h m mp c hc ih =>
    intro _ hrn hb ha
    have hcm : c = cmp (perm m) := rfl
    refine ih (by omega) (by omega) hb ?_
    intro j hj hjn
    rcases Nat.lt_or_eq_of_le hj with h' | h'
    · exact hs m j h' hjn (by omega)
    · subst h'; exact hc
  | case2 l r h m mp c hc hc0 =>
    intro _ hrn hb ha
    have hcm : c = cmp (perm m) := rfl
    refine ⟨by simp only; omega, ?_, ?_, ?_⟩
    · intro j hj
      apply Classical.byContradiction
      intro hneg
      have := hs j m hj (by omega) (by omega)
      omega
    · intro p hp
      simp only [Option.some.injEq] at hp
      subst hp
      exact ⟨by simp only; omega, rfl, hc0⟩
    · intro j hj hjn hor
      simp only [reduceCtorEq, false_or] at hor
      exact hs m j hor hjn (by omega)
  | case3 l r h m mp c hc hc0 ih =>
    intro _ hrn hb ha
    have hcm : c = cmp (perm m) := rfl
    refine ih (by omega) hrn ?_ ha
    intro j hj
    rcases Nat.lt_or_eq_of_le (Nat.le_of_lt_succ hj) with h' | h'
    · apply Classical.byContradiction
      intro hneg
      have := hs j m h' (by omega) (by omega)
      omega
    · subst h'; omega
  | case4 l r h =>
    intro hlr hrn hb ha
    have : l = r := by omega
    subst this
    exact ⟨hrn, hb, by intro p hp; simp at hp, fun j hj hjn _ => ha j hj hjn⟩

/-- Binary lower bound: for every sorted node the answer is the exact match if the key is
present, and otherwise the insertion point. -/
theorem lower_spec {perm cmp n} (hs : Sorted perm cmp n) :
    IsLower perm cmp n (lower perm cmp n) :=
  lowerLoop_spec hs 0 n (by omega) (by omega) (by intros; omega) (by intros; omega)

theorem findUpperLoop_spec {perm cmp n} (hs : Sorted perm cmp n) (l r : Nat) :
    l ≤ r → r = n → (∀ j, j < l → 0 ≤ cmp (perm j)) →
    IsUpper perm cmp n (findUpperLoop perm cmp l r) := by
  fun_induction findUpperLoop perm cmp l r with
  | case1 l h hc =>
    intro _ hrn hb
    refine ⟨by omega, hb, ?_⟩
    intro j hj hjn
    rcases Nat.lt_or_eq_of_le hj with h' | h'
    · exact hs l j h' hjn (by omega)
    · subst h'; exact hc
  | case2 l h hc ih =>
    intro _ hrn hb
    refine ih (by omega) hrn ?_
    intro j hj
    rcases Nat.lt_or_eq_of_le (Nat.le_of_lt_succ hj) with h' | h'
    · exact hb j h'
    · subst h'; omega
  | case3 l h =>
    intro hlr hrn hb
    exact ⟨by omega, hb, by intros; omega⟩

/-- Linear upper bound meets the same specification. -/
theorem findUpper_spec {perm cmp n} (hs : Sorted perm cmp n) :
    IsUpper perm cmp n (findUpper perm cmp n) :=
  findUpperLoop_spec hs 0 n (by omega) rfl (by intros; omega)

theorem findLowerLoop_spec {perm cmp n} (hs : Sorted perm cmp n) (l r : Nat) :
    l ≤ r → r = n → (∀ j, j < l → 0 < cmp (perm j)) →
    IsLower perm cmp n (findLowerLoop perm cmp l r) := by
  fun_induction findLowerLoop perm cmp l r with
  | case1 l h lp c hc =>
    intro _ hrn hb
    have hcm : c = cmp (perm l) := rfl
    refine ⟨by simp only; omega, hb, by intro p hp; simp at hp, ?_⟩
    intro j hj hjn _
    rcases Nat.lt_or_eq_of_le hj with h' | h'
    · exact hs l j h' hjn (by omega)
    · subst h'; exact hc
  | case2 l h lp c hc hc0 =>
    intro _ hrn hb
    have hcm : c = cmp (perm l) := rfl
    refine ⟨by simp only; omega, hb, ?_, ?_⟩
    · intro p hp
      simp only [Option.some.injEq] at hp
      subst hp
      exact ⟨by simp only; omega, rfl, hc0⟩
    · intro j hj hjn hor
      simp only [reduceCtorEq, false_or] at hor
      exact hs l j hor hjn (by omega)
  | case3 l h lp c hc hc0 ih =>
    intro _ hrn hb
    have hcm : c = cmp (perm l) := rfl
    refine ih (by omega) hrn ?_
    intro j hj
    rcases Nat.lt_or_eq_of_le (Nat.le_of_lt_succ hj) with h' | h'
    · exact hb j h'
    · subst h'; omega
  | case4 l h =>
    intro hlr hrn hb
    exact ⟨by simp only; omega, hb, by intro p hp; simp at hp, by intros; omega⟩

/-- Linear lower bound meets the same specification. -/
theorem findLower_spec {perm cmp n} (hs : Sorted perm cmp n) :
    IsLower perm cmp n (findLower perm cmp n) :=
  findLowerLoop_spec hs 0 n (by omega) rfl (by intros; omega)

/-- The two search methods the library offers are interchangeable on every sorted node. -/
theorem binary_eq_linear {perm cmp n} (hs : Sorted perm cmp n) :
    upper perm cmp n = findUpper perm cmp n ∧ lower perm cmp n = findLower perm cmp n :=
  ⟨isUpper_unique (upper_spec hs) (findUpper_spec hs),
   isLower_unique (lower_spec hs) (findLower_spec hs)⟩

/-! A non-trivial sorted node: keys 10, 20, 30, 40 stored in slots 2, 0, 3, 1. -/

def exPerm : Nat → Nat := fun i => [2, 0, 3, 1].getD i 0
def exKeys : Nat → Int := fun p => [20, 40, 10, 30].getD p 0
def exCmp (k : Int) : Nat → Int := fun p => k - exKeys p

example : Sorted exPerm (exCmp 30) 4 := by
  intro i j hij hj
  match i, j, hij, hj with
  | 0, 1, _, _ | 0, 2, _, _ | 0, 3, _, _ | 1, 2, _, _ | 1, 3, _, _ | 2, 3, _, _ =>
    simp [exPerm, exCmp, exKeys]
  | _, n + 4, _, h => omega
  | 3, 0, h, _ | 3, 1, h, _ | 3, 2, h, _ | 3, 3, h, _ => omega
  | 2, 0, h, _ | 2, 1, h, _ | 2, 2, h, _ | 1, 0, h, _ | 1, 1, h, _ | 0, 0, h, _ => omega
  | n + 4, 0, h, _ | n + 4, 1, h, _ | n + 4, 2, h, _ | n + 4, 3, h, _ => omega

end Verif.Props.C08
