import Verif.CircularInt.Model
/-
C30: circular epoch comparison.

The specification is about unbounded counters: an epoch word represents an integer
counter modulo 2^64 (`rep n`).
-/
namespace Verif.Props.C30
open Verif.CircularInt

/-- The word that stores the unbounded counter `n`. -/
def rep (n : Int) : BitVec 64 := BitVec.ofInt 64 n

theorem diff_rep (i j : Int) (h1 : i - j < 2 ^ 63) (h2 : -(2 ^ 63) ≤ i - j) :
    diff (rep i) (rep j) = i - j := by
  unfold diff rep
  rw [BitVec.toInt_sub, BitVec.toInt_ofInt, BitVec.toInt_ofInt]
  simp only [Int.sub_bmod_bmod, Int.bmod_sub_bmod]
  rw [Int.bmod_def]
  simp only [Int.reducePow, Nat.reducePow, Int.cast_ofNat_Int] at *
  split <;> omega

/-- Within half the range, the circular comparison is the order of the unbounded counters,
whatever wrap-around happened. -/
theorem less_iff (i j : Int) (h1 : i - j < 2 ^ 63) (h2 : -(2 ^ 63) ≤ i - j) :
    less (rep i) (rep j) = true ↔ i < j := by
  have := diff_rep i j h1 h2
  unfold diff at this
  simp only [less, this, decide_eq_true_eq]
  omega

theorem lessEqual_iff (i j : Int) (h1 : i - j < 2 ^ 63) (h2 : -(2 ^ 63) ≤ i - j) :
    lessEqual (rep i) (rep j) = true ↔ i ≤ j := by
  have := diff_rep i j h1 h2
  unfold diff at this
  simp only [lessEqual, this, decide_eq_true_eq]
  omega

/-- All four operators agree with the order of the counters strictly within half the
range. -/
theorem operators_iff (i j : Int) (h : (i - j).natAbs < 2 ^ 63) :
    (opLt (rep i) (rep j) = true ↔ i < j) ∧ (opLe (rep i) (rep j) = true ↔ i ≤ j) ∧
    (opGe (rep i) (rep j) = true ↔ j ≤ i) ∧ (opGt (rep i) (rep j) = true ↔ j < i) := by
  have a := less_iff i j (by omega) (by omega)
  have b := less_iff j i (by omega) (by omega)
  refine ⟨a, ?_, ?_, b⟩
  · simp only [opLe, Bool.not_eq_true', ← Bool.not_eq_true, b]; omega
  · simp only [opGe, Bool.not_eq_true', ← Bool.not_eq_true, a]; omega

/-- Every word pair arises from counters at most half the range apart, so the theorems above
cover all pairs of words. -/
theorem rep_window (a b : BitVec 64) :
    ∃ i j : Int, rep i = a ∧ rep j = b ∧ i - j < 2 ^ 63 ∧ -(2 ^ 63) ≤ i - j := by
  refine ⟨(a - b).toInt + b.toInt, b.toInt, ?_, ?_, ?_, ?_⟩
  · unfold rep; rw [BitVec.ofInt_add, BitVec.ofInt_toInt, BitVec.ofInt_toInt]
    exact BitVec.sub_add_cancel a b
  · unfold rep; exact BitVec.ofInt_toInt ..
  · have := BitVec.toInt_lt (x := a - b); omega
  · have := BitVec.le_toInt (x := a - b); omega

theorem less_irrefl (a : BitVec 64) : less a a = false := by
  simp [less]

theorem toInt_neg_sub (a b : BitVec 64) (h : a - b ≠ BitVec.intMin 64) :
    (b - a).toInt = -(a - b).toInt := by
  have : b - a = -(a - b) := by rw [BitVec.neg_sub, BitVec.add_comm, BitVec.sub_eq_add_neg]
  rw [this, BitVec.toInt_neg_of_ne_intMin h]

theorem intMin_toInt : (BitVec.intMin 64).toInt = -(2 ^ 63) := by
  simp [BitVec.toInt_intMin]

/-- Comparison is asymmetric except for the one pair exactly half the range apart, where
both directions answer "less". -/
theorem less_both_iff (a b : BitVec 64) :
    (less a b = true ∧ less b a = true) ↔ a - b = BitVec.intMin 64 := by
  constructor
  · rintro ⟨h1, h2⟩
    apply Classical.byContradiction
    intro h
    have := toInt_neg_sub a b h
    simp only [less, decide_eq_true_eq] at h1 h2
    omega
  · intro h
    have h' : b - a = BitVec.intMin 64 := by
      have : b - a = -(a - b) := by rw [BitVec.neg_sub, BitVec.add_comm, BitVec.sub_eq_add_neg]
      rw [this, h]; decide
    simp only [less, decide_eq_true_eq, h, h', intMin_toInt]
    decide

/-- Totality: two different words are always ordered one way or the other. -/
theorem less_total (a b : BitVec 64) (h : a ≠ b) : less a b = true ∨ less b a = true := by
  apply Classical.byContradiction
  intro hn
  simp only [not_or, less, decide_eq_true_eq] at hn
  have hne : a - b ≠ BitVec.intMin 64 := by
    intro h'; rw [h', intMin_toInt] at hn; omega
  have := toInt_neg_sub a b hne
  have h0 : (a - b).toInt = 0 := by omega
  have h1 : a - b = 0#64 := BitVec.eq_of_toInt_eq (by simpa using h0)
  exact h (BitVec.sub_eq_iff_eq_add.mp h1 |>.trans (by simp))

/-- The static `less_equal` and the member `operator<=` answer alike except for the pair
exactly half the range apart. -/
theorem lessEqual_eq_opLe_iff (a b : BitVec 64) :
    lessEqual a b = opLe a b ↔ a - b ≠ BitVec.intMin 64 := by
  constructor
  · intro h hmin
    have h2 := ((less_both_iff a b).mpr hmin).2
    simp only [opLe, h2, lessEqual, hmin, intMin_toInt] at h
    exact absurd h (by decide)
  · intro h
    have := toInt_neg_sub a b h
    simp only [opLe, less, lessEqual, this]
    rw [← decide_not]
    exact decide_eq_decide.mpr (by omega)

/-- `next_nonzero` never returns zero. -/
theorem nextNonzero_ne_zero (x : BitVec 64) : nextNonzero x ≠ 0 := by
  unfold nextNonzero
  dsimp only
  split
  · next h => rw [h]; decide
  · next h => simpa using h

/-- `next_nonzero` represents the next counter, or the one after when the next one would be
stored as zero. -/
theorem nextNonzero_rep (n : Int) :
    ∃ m, (m = n + 1 ∨ m = n + 2 ∧ rep (n + 1) = 0) ∧ nextNonzero (rep n) = rep m := by
  by_cases h : rep (n + 1) = 0
  · refine ⟨n + 2, Or.inr ⟨rfl, h⟩, ?_⟩
    have h1 : rep n + 1 = 0 := by
      rw [← h]; unfold rep; rw [BitVec.ofInt_add]; rfl
    have h2 : rep (n + 2) = rep (n + 1) + 1 := by
      unfold rep; rw [show n + 2 = (n + 1) + 1 by omega, BitVec.ofInt_add (n + 1)]; rfl
    simp only [nextNonzero, h1, h2, h, ite_true]
  · refine ⟨n + 1, Or.inl rfl, ?_⟩
    have h1 : rep (n + 1) = rep n + 1 := by unfold rep; rw [BitVec.ofInt_add]; rfl
    have h2 : ¬ (rep n + 1 = 0) := by rw [← h1]; exact h
    simp only [nextNonzero, if_neg h2, h1]
    simp

/-- `next_nonzero` is later than its argument. -/
theorem less_nextNonzero (x : BitVec 64) : less x (nextNonzero x) = true := by
  obtain ⟨m, hm, he⟩ := nextNonzero_rep x.toInt
  have hx : rep x.toInt = x := by unfold rep; exact BitVec.ofInt_toInt ..
  rw [hx] at he
  rw [he]
  have := (less_iff x.toInt m (by omega) (by omega)).mpr (by omega)
  rwa [hx] at this

/-- `++` represents the next counter, also when it wraps to zero. -/
theorem inc_rep (n : Int) : inc (rep n) = rep (n + 1) := by
  unfold inc rep
  rw [BitVec.ofInt_add]
  rfl

/-- `++` gives a later epoch. -/
theorem less_inc (x : BitVec 64) : less x (inc x) = true := by
  have hx : rep x.toInt = x := by unfold rep; exact BitVec.ofInt_toInt ..
  have := (less_iff x.toInt (x.toInt + 1) (by omega) (by omega)).mpr (by omega)
  rwa [← inc_rep, hx] at this

/-! Non-trivial instances: a comparison across the wrap-around, and the one exceptional
pair. -/
example : less (BitVec.ofNat 64 (2 ^ 64 - 3)) (BitVec.ofNat 64 4) = true := by decide
example : less (rep (2 ^ 64 - 3)) (rep (2 ^ 64 + 4)) = true :=
  (less_iff _ _ (by decide) (by decide)).mpr (by decide)
example : nextNonzero (BitVec.ofNat 64 (2 ^ 64 - 1)) = 1 := by decide
example : less 0 (BitVec.intMin 64) = true ∧ less (BitVec.intMin 64) 0 = true := by decide
example : inc (rep (2 ^ 64 - 1)) = 0 := by decide

end Verif.Props.C30
