import Verif.NodeVersion.Model
/-
Decoding of the version word into its fields and the effect of each operation on them.
-/
namespace Verif.NodeVersion

/-- Bit `i` as a Boolean. -/
abbrev bit (v : Ver) (i : Nat) : Bool := v.getLsbD i

theorem and_twoPow_ne (v : Ver) (i : Nat) (hi : i < 32) :
    (v &&& BitVec.twoPow 32 i != 0#32) = bit v i := by
  unfold bit
  cases h : v.getLsbD i
  · have : v &&& BitVec.twoPow 32 i = 0#32 := by
      apply BitVec.eq_of_getLsbD_eq
      intro j hj
      rw [BitVec.getLsbD_and, BitVec.getLsbD_twoPow]
      by_cases hij : i = j
      · subst hij; simp [h]
      · simp [hij]
    simp [this]
  · have : v &&& BitVec.twoPow 32 i ≠ 0#32 := by
      intro h0
      have := congrArg (fun x => BitVec.getLsbD x i) h0
      simp only [BitVec.getLsbD_and, BitVec.getLsbD_twoPow, h] at this
      simp [hi] at this
    simp [this]

theorem isleaf_eq (v : Ver) : isleaf v = bit v 31 := and_twoPow_ne v 31 (by decide)
theorem locked_eq (v : Ver) : locked v = bit v 0 := and_twoPow_ne v 0 (by decide)
theorem inserting_eq (v : Ver) : inserting v = bit v 1 := and_twoPow_ne v 1 (by decide)
theorem splitting_eq (v : Ver) : splitting v = bit v 2 := and_twoPow_ne v 2 (by decide)
theorem deleted_eq (v : Ver) : deleted v = bit v 29 := and_twoPow_ne v 29 (by decide)
theorem isRoot_eq (v : Ver) : isRoot v = bit v 30 := and_twoPow_ne v 30 (by decide)

theorem bit_toNat (v : Ver) (i : Nat) : bit v i = decide (v.toNat / 2 ^ i % 2 = 1) := by
  unfold bit
  rw [BitVec.getLsbD, Nat.testBit_eq_decide_div_mod_eq]

theorem isDirty_eq (v : Ver) : isDirty v = (bit v 1 || bit v 2) := by
  rw [← inserting_eq, ← splitting_eq]
  unfold isDirty inserting splitting
  have h : v &&& dirtyMask = (v &&& insertingBit) ||| (v &&& splittingBit) := by
    unfold dirtyMask
    apply BitVec.eq_of_getLsbD_eq
    intro i _
    simp only [BitVec.getLsbD_and, BitVec.getLsbD_or]
    cases v.getLsbD i <;> simp
  rw [h]
  by_cases h1 : v &&& insertingBit = 0#32
  · rw [h1, BitVec.zero_or, bne_self_eq_false, Bool.false_or]
  · have : ¬ ((v &&& insertingBit) ||| (v &&& splittingBit) = 0#32) := by
      intro h0; exact h1 (BitVec.or_eq_zero_iff.mp h0).1
    rw [bne_iff_ne.mpr this, bne_iff_ne.mpr h1, Bool.true_or]

/-- The change counter: the insert count (bits 3-8) and the split count (bits 9-27) read as
one 25-bit number. -/
def counter (v : Ver) : Nat := v.toNat / 8 % 2 ^ 25

theorem counter_lt (v : Ver) : counter v < 2 ^ 25 := Nat.mod_lt _ (by decide)

theorem bits_of_counter_eq {v w : Ver} (h : counter v = counter w) (i : Nat)
    (h1 : 3 ≤ i) (h2 : i < 28) : bit v i = bit w i := by
  rw [bit_toNat, bit_toNat]
  unfold counter at h
  have e : ∀ n : Nat, n / 2 ^ i % 2 = n / 8 % 2 ^ 25 / 2 ^ (i - 3) % 2 := by
    intro n
    have t : ∀ a b : Nat, a / 2 ^ b % 2 = (a.testBit b).toNat := by
      intro a b; rw [Nat.testBit_eq_decide_div_mod_eq]
      have := Nat.mod_two_eq_zero_or_one (a / 2 ^ b)
      rcases this with h | h <;> simp [h]
    rw [t, t, Nat.testBit_mod_two_pow, show 8 = 2 ^ 3 from rfl, Nat.testBit_div_two_pow]
    simp only [show i - 3 < 25 by omega, decide_true, Bool.true_and]
    rw [show i - 3 + 3 = i by omega]
  rw [e, e, h]

/-- The fields determine the word. -/
theorem ver_ext {v w : Ver} (h0 : bit v 0 = bit w 0) (h1 : bit v 1 = bit w 1)
    (h2 : bit v 2 = bit w 2) (hc : counter v = counter w) (h28 : bit v 28 = bit w 28)
    (h29 : bit v 29 = bit w 29) (h30 : bit v 30 = bit w 30) (h31 : bit v 31 = bit w 31) :
    v = w := by
  apply BitVec.eq_of_getLsbD_eq
  intro i hi
  rcases Nat.lt_or_ge i 3 with h | h
  · match i, h with
    | 0, _ => exact h0
    | 1, _ => exact h1
    | 2, _ => exact h2
  · rcases Nat.lt_or_ge i 28 with h' | h'
    · exact bits_of_counter_eq hc i h h'
    · have : i = 28 ∨ i = 29 ∨ i = 30 ∨ i = 31 := by omega
      rcases this with h | h | h | h <;> subst h <;> assumption

theorem counter_eq_of_bits {v w : Ver} (h : ∀ i, 3 ≤ i → i < 28 → bit v i = bit w i) :
    counter v = counter w := by
  unfold counter
  apply Nat.eq_of_testBit_eq
  intro i
  rw [Nat.testBit_mod_two_pow, Nat.testBit_mod_two_pow, show 8 = 2 ^ 3 from rfl,
    Nat.testBit_div_two_pow, Nat.testBit_div_two_pow]
  by_cases hi : i < 25
  · have := h (i + 3) (by omega) (by omega)
    unfold bit at this
    rw [BitVec.getLsbD, BitVec.getLsbD] at this
    rw [this]
  · simp [hi]

/-! Effect of `|||` with a literal on bits and the counter. -/

theorem bit_or (v m : Ver) (i : Nat) : bit (v ||| m) i = (bit v i || bit m i) := by
  unfold bit; rw [BitVec.getLsbD_or]

theorem bit_and (v m : Ver) (i : Nat) : bit (v &&& m) i = (bit v i && bit m i) := by
  unfold bit; rw [BitVec.getLsbD_and]

/-- A mask whose counter bits are all clear. -/
theorem counter_or {m : Ver} (hm : counter m = 0) (v : Ver) : counter (v ||| m) = counter v := by
  apply counter_eq_of_bits
  intro i h1 h2
  rw [bit_or]
  have : bit m i = bit 0#32 i := bits_of_counter_eq (by rw [hm]; decide) i h1 h2
  rw [this]
  simp [bit]

theorem counter_and_ones {m : Ver} (hm : counter m = 2 ^ 25 - 1) (v : Ver) :
    counter (v &&& m) = counter v := by
  apply counter_eq_of_bits
  intro i h1 h2
  rw [bit_and]
  have : bit m i = bit (BitVec.allOnes 32) i :=
    bits_of_counter_eq (by rw [hm]; decide) i h1 h2
  rw [this]
  unfold bit
  rw [BitVec.getLsbD_allOnes]
  simp [show i < 32 by omega]

theorem counter_and_high {m : Ver} (hm : counter m = 2 ^ 25 - 64) (v : Ver) :
    counter (v &&& m) = counter v / 64 * 64 := by
  have hbit : ∀ i, 3 ≤ i → i < 28 → bit m i = decide (9 ≤ i) := by
    intro i h1 h2
    have : bit m i = bit 0xffffe00#32 i := bits_of_counter_eq (by rw [hm]; decide) i h1 h2
    rw [this]
    have key : ∀ i : Fin 28, 3 ≤ i.val → bit 0xffffe00#32 i.val = decide (9 ≤ i.val) := by decide
    exact key ⟨i, h2⟩ h1
  apply Nat.eq_of_testBit_eq
  intro j
  rw [show counter v / 64 * 64 = (counter v >>> 6) <<< 6 by
    rw [Nat.shiftRight_eq_div_pow, Nat.shiftLeft_eq]]
  rw [Nat.testBit_shiftLeft, Nat.testBit_shiftRight]
  have c : ∀ w : Ver, (counter w).testBit j = (decide (j < 25) && bit w (j + 3)) := by
    intro w
    unfold counter
    rw [Nat.testBit_mod_two_pow, show 8 = 2 ^ 3 from rfl, Nat.testBit_div_two_pow]
    rfl
  rw [c]
  by_cases hj : j < 25
  · rw [bit_and, hbit (j + 3) (by omega) (by omega)]
    by_cases h6 : 6 ≤ j
    · rw [show 6 + (j - 6) = j by omega, c]
      simp [hj, h6]
    · simp [h6]
  · rw [show (decide (j < 25) : Bool) = false by simp [hj]]
    by_cases h6 : 6 ≤ j
    · rw [show 6 + (j - 6) = j by omega, c]
      simp [hj]
    · simp [h6]

theorem toNat_add (x y : Ver) : (x + y).toNat = (x.toNat + y.toNat) % 2 ^ 32 := BitVec.toNat_add x y

/-- Adding a small amount with the guard bit 28 clear changes only the bits below it. -/
theorem bit_add_high (x y : Ver) (h28 : bit x 28 = false) (hy : y.toNat ≤ 512) (i : Nat)
    (hi : 29 ≤ i) (hi' : i < 32) : bit (x + y) i = bit x i := by
  rw [bit_toNat] at h28
  rw [bit_toNat, bit_toNat, toNat_add]
  have hx := x.isLt
  have h28' := of_decide_eq_false h28
  have e : ∀ k : Nat, k / 2 ^ i = k / 2 ^ 29 / 2 ^ (i - 29) := by
    intro k
    rw [Nat.div_div_eq_div_mul, ← Nat.pow_add, show 29 + (i - 29) = i by omega]
  have : (x.toNat + y.toNat) % 2 ^ 32 / 2 ^ 29 = x.toNat / 2 ^ 29 := by omega
  rw [e, e, this]

theorem counter_add (x y : Ver) (k : Nat) (hy : y.toNat = 8 * k) :
    counter (x + y) = (counter x + k) % 2 ^ 25 := by
  unfold counter
  rw [toNat_add, hy]
  omega

end Verif.NodeVersion
