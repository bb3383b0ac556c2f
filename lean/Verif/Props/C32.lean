import Verif.Key.Lemmas
/-
C32: the word-based equality shortcut equals byte comparison.
-/
namespace Verif.Props.C32
open Verif.Key

theorem shl_eq_zero_iff (x : BitVec 64) (k : Nat) (hk : k ≤ 64) :
    x <<< k = 0 ↔ x.toNat % 2 ^ (64 - k) = 0 := by
  constructor
  · intro h
    have := congrArg BitVec.toNat h
    rw [BitVec.toNat_shiftLeft, Nat.shiftLeft_eq] at this
    have e : 2 ^ 64 = 2 ^ (64 - k) * 2 ^ k := by rw [← Nat.pow_add]; congr 1; omega
    rw [e, Nat.mul_mod_mul_right] at this
    have h2 : 0 < 2 ^ k := Nat.pos_of_ne_zero (by simp)
    rcases Nat.mul_eq_zero.mp this with h | h
    · exact h
    · omega
  · intro h
    apply BitVec.eq_of_toNat_eq
    rw [BitVec.toNat_shiftLeft, Nat.shiftLeft_eq]
    have e : 2 ^ 64 = 2 ^ (64 - k) * 2 ^ k := by rw [← Nat.pow_add]; congr 1; omega
    rw [e, Nat.mul_mod_mul_right, h]
    simp

/-- For all memory contents (inside and outside the strings), all addresses and all lengths,
the shortcut answers exactly whether the first `len` bytes agree. -/
theorem equalsSloppy_spec (m : Mem) (a b : Int) (len : Int) :
    equalsSloppy m a b len = true ↔ bytesAt m a len.toNat = bytesAt m b len.toNat := by
  unfold equalsSloppy
  by_cases h8 : len ≤ 8
  · rw [if_pos h8]
    dsimp only
    by_cases h0 : len ≤ 0
    · rw [if_pos h0, show len.toNat = 0 by omega]
      simp [bytesAt]
    · rw [if_neg h0, decide_eq_true_eq, BitVec.shiftLeft_xor_distrib]
      generalize hn : len.toNat = n
      have hn8 : n ≤ 8 := by omega
      have hxor : ∀ x y : BitVec 64, x ^^^ y = 0 ↔ x = y := fun x y => BitVec.xor_eq_zero_iff
      rw [hxor]
      have key : ∀ p : Int, (load64 m p <<< (8 * (8 - n))).toNat =
          leNat (bytesAt m p n) * 2 ^ (8 * (8 - n)) := by
        intro p
        rw [BitVec.toNat_shiftLeft, toNat_load64, Nat.shiftLeft_eq,
          show bytesAt m p 8 = bytesAt m p (n + (8 - n)) by congr 1; omega, bytesAt_add]
        have e : 2 ^ 64 = 256 ^ n * 2 ^ (8 * (8 - n)) := by
          rw [show 256 = 2 ^ 8 from rfl, ← Nat.pow_mul, ← Nat.pow_add]; congr 1; omega
        rw [e, Nat.mul_mod_mul_right]
        have := leNat_mod (bytesAt m p n) (bytesAt m (p + n) (8 - n))
        rw [bytesAt_length] at this
        rw [this]
      constructor
      · intro h
        have := congrArg BitVec.toNat h
        rw [key a, key b] at this
        exact leNat_inj (by simp) (Nat.eq_of_mul_eq_mul_right (Nat.pos_of_ne_zero (by simp)) this)
      · intro h
        apply BitVec.eq_of_toNat_eq
        rw [key a, key b, h]
  · rw [if_neg h8, decide_eq_true_eq]

/-- Bytes outside the two strings never influence the answer. -/
theorem equalsSloppy_outside (m m' : Mem) (a b : Int) (len : Int)
    (ha : bytesAt m a len.toNat = bytesAt m' a len.toNat)
    (hb : bytesAt m b len.toNat = bytesAt m' b len.toNat) :
    equalsSloppy m a b len = equalsSloppy m' a b len := by
  rw [Bool.eq_iff_iff, equalsSloppy_spec, equalsSloppy_spec, ha, hb]

/-! A non-trivial instance: two 3-byte strings that agree inside and differ outside. -/
example : equalsSloppy (fun p => if p = 3 then 9 else if p = 13 then 8 else UInt8.ofNat (p % 10).toNat)
    0 10 3 = true := by
  rw [equalsSloppy_spec]; decide

end Verif.Props.C32
