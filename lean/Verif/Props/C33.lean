import Verif.Bits.Model

/-!
# C33: bit tricks compute what their documentation says

Specification vocabulary: `nib x i`, the `i`-th nibble of a number (plain arithmetic), and
"smallest / largest power of two" stated with quantifiers over exponents.
-/
namespace Verif.Props.C33
open Verif.Bits

/-- The `i`-th nibble of `x`. -/
def nib (x i : Nat) : Nat := x / 16 ^ i % 16

/-- All ones nibbles, low `i` of them. -/
private def L (i : Nat) : Nat := 0x1111111111111111 % 16 ^ i

private theorem cases16 (i : Nat) (h : i < 16) : i = 0 ∨ i = 1 ∨ i = 2 ∨ i = 3 ∨ i = 4 ∨ i = 5 ∨ i = 6 ∨
    i = 7 ∨ i = 8 ∨ i = 9 ∨ i = 10 ∨ i = 11 ∨ i = 12 ∨ i = 13 ∨ i = 14 ∨ i = 15 := by omega

private theorem low_ge (x i : Nat) (hi : i < 16) (h : ∀ j < i, nib x j ≠ 0) : L i ≤ x % 16 ^ i := by
  induction i with
  | zero => simp [L]
  | succ i ih =>
    have h1 := ih (by omega) (fun j hj => h j (by omega))
    have h2 := h i (by omega)
    unfold nib at h2
    unfold L at *
    rcases cases16 i (by omega) with rfl|rfl|rfl|rfl|rfl|rfl|rfl|rfl|rfl|rfl|rfl|rfl|rfl|rfl|rfl|rfl <;>
      simp only [Nat.reduceAdd, Nat.reducePow, Nat.reduceMod, Nat.div_one] at * <;> omega

private theorem sub_bit (x i : Nat) (hx : x < 2 ^ 64) (hi : i < 16) (h : ∀ j < i, nib x j ≠ 0) :
    ((x / 2 ^ (4 * i + 3) % 2 ≠ 1) ∧
      ((2 ^ 64 - 0x1111111111111111 + x) % 2 ^ 64 / 2 ^ (4 * i + 3) % 2 = 1)) ↔ nib x i = 0 := by
  have h1 := low_ge x i hi h
  unfold nib
  unfold L at h1
  rcases cases16 i (by omega) with rfl|rfl|rfl|rfl|rfl|rfl|rfl|rfl|rfl|rfl|rfl|rfl|rfl|rfl|rfl|rfl <;>
    simp only [Nat.reduceAdd, Nat.reduceMul, Nat.reducePow, Nat.reduceMod, Nat.reduceSub, Nat.div_one] at * <;> omega

/-- The mask expression of `find_lowest_zero_nibble`. -/
private def tword (x : BitVec 64) : BitVec 64 :=
  0x8888888888888888#64 &&& (x - 0x1111111111111111#64) &&& ~~~x

private theorem mask_bit (b : Nat) : (0x8888888888888888#64).getLsbD b = decide (b < 64 ∧ b % 4 = 3) := by
  by_cases hb : b < 64
  · have : ∀ b : Fin 64, (0x8888888888888888#64).getLsbD b.1 = decide (b.1 < 64 ∧ b.1 % 4 = 3) := by decide
    exact this ⟨b, hb⟩
  · rw [BitVec.getLsbD_of_ge _ _ (by omega)]
    simp [hb]

private theorem t_bit_off (x : BitVec 64) (b : Nat) (hb : b % 4 ≠ 3) : (tword x).getLsbD b = false := by
  unfold tword
  simp only [BitVec.getLsbD_and, mask_bit]
  simp [hb]

private theorem t_bit (x : BitVec 64) (i : Nat) (hi : i < 16) (h : ∀ j < i, nib x.toNat j ≠ 0) :
    (tword x).getLsbD (4 * i + 3) = decide (nib x.toNat i = 0) := by
  have hs := sub_bit x.toNat i x.isLt hi h
  unfold tword
  simp only [BitVec.getLsbD_and, mask_bit, BitVec.getLsbD_not]
  rw [← BitVec.testBit_toNat, ← BitVec.testBit_toNat, BitVec.toNat_sub]
  simp only [Nat.testBit_eq_decide_div_mod_eq]
  have e : (0x1111111111111111#64).toNat = 0x1111111111111111 := rfl
  rw [e]
  have h64 : 4 * i + 3 < 64 := by omega
  have hm : (4 * i + 3) % 4 = 3 := by omega
  simp only [h64, hm, and_self, decide_true, Bool.true_and]
  by_cases c1 : x.toNat / 2 ^ (4 * i + 3) % 2 = 1 <;> by_cases c2 : nib x.toNat i = 0 <;>
    simp only [c1, c2, ne_eq, not_true_eq_false, not_false_eq_true, false_and, true_and, iff_true, iff_false] at hs ⊢ <;>
    simp [hs]

private theorem find_eq (x : BitVec 64) : findLowestZeroNibble x =
    if tword x ≠ 0 then (((tword x).ctz.toNat >>> 2 : Nat) : Int) else -1 := rfl

/-- The result is the index of the lowest zero nibble. -/
theorem findLowestZeroNibble_found (x : BitVec 64) (k : Nat) (hk : k < 16) (h0 : nib x.toNat k = 0)
    (hmin : ∀ j < k, nib x.toNat j ≠ 0) : findLowestZeroNibble x = k := by
  have hb := t_bit x k hk hmin
  rw [h0] at hb
  have hne : tword x ≠ 0 := by
    intro h
    rw [h] at hb
    simp at hb
  rw [find_eq, if_pos hne]
  have hc : (tword x).ctz.toNat = 4 * k + 3 := by
    have h1 := BitVec.getLsbD_true_ctz_of_ne_zero (x := tword x) hne
    rcases Nat.lt_trichotomy (tword x).ctz.toNat (4 * k + 3) with h | h | h
    · exfalso
      by_cases hm : (tword x).ctz.toNat % 4 = 3
      · have e : (tword x).ctz.toNat = 4 * ((tword x).ctz.toNat / 4) + 3 := by omega
        rw [e, t_bit x _ (by omega) (fun j hj => hmin j (by omega))] at h1
        exact hmin _ (by omega) (of_decide_eq_true h1)
      · rw [t_bit_off x _ hm] at h1
        simp at h1
    · exact h
    · have := BitVec.getLsbD_false_of_lt_ctz (x := tword x) h
      rw [hb] at this
      simp at this
  rw [hc, Nat.shiftRight_eq_div_pow]
  congr 1
  omega

/-- The result is `-1` when no nibble is zero. -/
theorem findLowestZeroNibble_none (x : BitVec 64) (h : ∀ j < 16, nib x.toNat j ≠ 0) :
    findLowestZeroNibble x = -1 := by
  have h0 : tword x = 0 := by
    apply BitVec.eq_of_getLsbD_eq
    intro b hb
    by_cases hm : b % 4 = 3
    · have e : b = 4 * (b / 4) + 3 := by omega
      rw [e, t_bit x _ (by omega) (fun j hj => h j (by omega))]
      simp [h (b / 4) (by omega)]
    · rw [t_bit_off x _ hm]; simp
  rw [find_eq, h0]
  simp

/-- Complete characterisation, for every 64-bit word. -/
theorem findLowestZeroNibble_spec (x : BitVec 64) (r : Int) :
    findLowestZeroNibble x = r ↔
      (r = -1 ∧ ∀ j < 16, nib x.toNat j ≠ 0) ∨
      (∃ k : Nat, k < 16 ∧ r = k ∧ nib x.toNat k = 0 ∧ ∀ j < k, nib x.toNat j ≠ 0) := by
  constructor
  · intro hr
    by_cases hall : ∀ j < 16, nib x.toNat j ≠ 0
    · exact .inl ⟨by rw [← hr, findLowestZeroNibble_none x hall], hall⟩
    · right
      have hex : ∃ k, k < 16 ∧ nib x.toNat k = 0 := by
        apply Classical.byContradiction
        intro hn
        exact hall fun j hj h0 => hn ⟨j, hj, h0⟩
      have hmin : ∀ n, n < 16 → nib x.toNat n = 0 →
          ∃ k, k < 16 ∧ nib x.toNat k = 0 ∧ ∀ j < k, nib x.toNat j ≠ 0 := by
        intro n
        induction n using Nat.strongRecOn with
        | ind n ih =>
          intro hn h0
          by_cases hl : ∀ j < n, nib x.toNat j ≠ 0
          · exact ⟨n, hn, h0, hl⟩
          · have : ∃ j, j < n ∧ nib x.toNat j = 0 := by
              apply Classical.byContradiction
              intro hc
              exact hl fun j hj h0 => hc ⟨j, hj, h0⟩
            obtain ⟨j, hj, hj0⟩ := this
            exact ih j hj (by omega) hj0
      obtain ⟨n, hn, h0⟩ := hex
      obtain ⟨k, hk, hk0, hkm⟩ := hmin n hn h0
      exact ⟨k, hk, by rw [← hr, findLowestZeroNibble_found x k hk hk0 hkm], hk0, hkm⟩
  · rintro (⟨rfl, h⟩ | ⟨k, hk, rfl, h0, hm⟩)
    · exact findLowestZeroNibble_none x h
    · exact findLowestZeroNibble_found x k hk h0 hm

example : findLowestZeroNibble 0x1230456701#64 = 1 :=
  findLowestZeroNibble_found _ 1 (by decide) (by decide) (by decide)
example : findLowestZeroNibble 0x1111111111111111#64 = -1 :=
  findLowestZeroNibble_none _ (by decide)

/-- `ifloor_log2` is the largest power of two not above `x`. -/
theorem ifloorLog2_spec (x : BitVec 64) (hx : x ≠ 0) :
    ∃ e, (ifloorLog2 x).toNat = 2 ^ e ∧ 2 ^ e ≤ x.toNat ∧ ∀ e', 2 ^ e' ≤ x.toNat → 2 ^ e' ≤ 2 ^ e := by
  have h1 := BitVec.two_pow_sub_clz_le_toNat_of_ne_zero (by decide) hx
  have h2 := BitVec.toNat_lt_two_pow_sub_clz (x := x)
  have hc : x.clz.toNat < 64 := by
    apply Classical.byContradiction
    intro h
    have : 64 - x.clz.toNat = 0 := by omega
    rw [this] at h2
    apply hx
    apply BitVec.eq_of_toNat_eq
    simp at h2 ⊢
    exact h2
  refine ⟨64 - 1 - x.clz.toNat, ?_, h1, ?_⟩
  · unfold ifloorLog2
    rw [BitVec.toNat_shiftLeft, Nat.shiftLeft_eq]
    have : 2 ^ (64 - 1 - x.clz.toNat) < 2 ^ 64 := Nat.pow_lt_pow_right (by decide) (by omega)
    simp only [BitVec.toNat_ofNat]
    rw [Nat.mod_eq_of_lt (by omega)]
    omega
  · intro e' he'
    have : e' < 64 - x.clz.toNat := by
      have : 2 ^ e' < 2 ^ (64 - x.clz.toNat) := by omega
      exact (Nat.pow_lt_pow_iff_right (by decide)).mp this
    exact Nat.pow_le_pow_right (by decide) (by omega)

example : (1000#64 : BitVec 64) ≠ 0 := by decide

/-- `iceil_log2` is the smallest power of two not below `x`, whenever that is representable. -/
theorem iceilLog2_spec (x : BitVec 64) (hx : x ≠ 0) (hr : x.toNat ≤ 2 ^ 63) :
    ∃ e, (iceilLog2 x).toNat = 2 ^ e ∧ x.toNat ≤ 2 ^ e ∧ ∀ e', x.toNat ≤ 2 ^ e' → 2 ^ e ≤ 2 ^ e' := by
  have h1 := BitVec.two_pow_sub_clz_le_toNat_of_ne_zero (by decide) hx
  have h2 := BitVec.toNat_lt_two_pow_sub_clz (x := x)
  have hx0 : x.toNat ≠ 0 := fun h => hx (BitVec.eq_of_toNat_eq (by simpa using h))
  have hc : x.clz.toNat < 64 := by
    apply Classical.byContradiction
    intro h
    have : 64 - x.clz.toNat = 0 := by omega
    rw [this] at h2
    omega
  have hsub : (x - 1).toNat = x.toNat - 1 := by
    rw [BitVec.toNat_sub]
    have := x.isLt
    simp only [BitVec.ofNat_eq_ofNat, BitVec.toNat_ofNat]
    omega
  have hpow : (x &&& (x - 1) = 0) ↔ x.toNat.isPowerOfTwo := by
    rw [← Nat.and_sub_one_eq_zero_iff_isPowerOfTwo hx0, ← hsub, ← BitVec.toNat_and]
    constructor
    · intro h; rw [h]; rfl
    · intro h; exact BitVec.eq_of_toNat_eq (by simpa using h)
  have hsh : ∀ s, s < 64 → (1#64 <<< s).toNat = 2 ^ s := by
    intro s hs
    rw [BitVec.toNat_shiftLeft, Nat.shiftLeft_eq]
    have : 2 ^ s < 2 ^ 64 := Nat.pow_lt_pow_right (by decide) hs
    simp only [BitVec.toNat_ofNat]
    rw [Nat.mod_eq_of_lt (by omega)]
    omega
  unfold iceilLog2
  by_cases hp : x.toNat.isPowerOfTwo
  · rw [if_pos (hpow.mpr hp), hsh _ (by omega)]
    obtain ⟨e, he⟩ := hp
    have e1 : e < 64 - x.clz.toNat := (Nat.pow_lt_pow_iff_right (a := 2) (by decide)).mp (by omega)
    have e2 : 64 - 1 - x.clz.toNat ≤ e := (Nat.pow_le_pow_iff_right (a := 2) (by decide)).mp (by omega)
    have e3 : 64 - x.clz.toNat - 1 = e := by omega
    rw [e3]
    exact ⟨e, rfl, by omega, fun e' h => by omega⟩
  · rw [if_neg (fun h => hp (hpow.mp h))]
    have hlt : 2 ^ (64 - 1 - x.clz.toNat) < x.toNat := by
      rcases Nat.lt_or_eq_of_le h1 with h | h
      · exact h
      · exact absurd ⟨_, h.symm⟩ hp
    have hcl : x.clz.toNat ≠ 0 := by
      intro h
      rw [h] at hlt
      simp only [Nat.sub_zero, Nat.reduceSub] at hlt
      omega
    rw [Nat.sub_zero, hsh _ (by omega)]
    refine ⟨64 - x.clz.toNat, rfl, by omega, fun e' h => ?_⟩
    have : 64 - 1 - x.clz.toNat < e' := (Nat.pow_lt_pow_iff_right (a := 2) (by decide)).mp (by omega)
    exact Nat.pow_le_pow_right (by decide) (by omega)

example : iceilLog2 1000#64 = 1024#64 := by decide
example : iceilLog2 1024#64 = 1024#64 := by decide

/-- `iceil x y` is the smallest multiple of `y` not below `x`, whenever that is representable. -/
theorem iceil_spec (x y : BitVec 64) (hy : y ≠ 0) (m : Nat) (hm : x.toNat ≤ m) (hd : y.toNat ∣ m)
    (hmin : ∀ m', x.toNat ≤ m' → y.toNat ∣ m' → m ≤ m') (hr : m < 2 ^ 64) :
    (iceil x y).toNat = m := by
  have hy0 : 0 < y.toNat := by
    rcases Nat.eq_zero_or_pos y.toNat with h | h
    · exact absurd (BitVec.eq_of_toNat_eq (by simpa using h)) hy
    · exact h
  have hxl := x.isLt
  have hyl := y.isLt
  have hmod : (x % y).toNat = x.toNat % y.toNat := BitVec.toNat_umod
  have hml := Nat.mod_lt x.toNat hy0
  have hdm := Nat.div_add_mod x.toNat y.toNat
  unfold iceil
  by_cases h0 : x.toNat % y.toNat = 0
  · have hz : x % y = 0 := BitVec.eq_of_toNat_eq (by simpa [hmod] using h0)
    have := hmin x.toNat (Nat.le_refl _) (Nat.dvd_of_mod_eq_zero h0)
    simp only [hz, ne_eq, not_true_eq_false, if_false]
    rw [BitVec.toNat_add]
    simp only [BitVec.ofNat_eq_ofNat, BitVec.toNat_ofNat]
    omega
  · have hz : x % y ≠ 0 := by
      intro h
      rw [h] at hmod
      apply h0
      rw [← hmod]; rfl
    simp only [ne_eq, hz, not_false_eq_true, if_true]
    have hge := hmin (x.toNat + (y.toNat - x.toNat % y.toNat)) (by omega) (by
      refine ⟨x.toNat / y.toNat + 1, ?_⟩
      rw [Nat.mul_add]
      omega)
    have hle : x.toNat + (y.toNat - x.toNat % y.toNat) ≤ m := by
      obtain ⟨c, rfl⟩ := hd
      have hq : x.toNat / y.toNat < c := by
        apply Classical.byContradiction
        intro hc
        have : y.toNat * c ≤ y.toNat * (x.toNat / y.toNat) := Nat.mul_le_mul_left _ (by omega)
        omega
      have : y.toNat * (x.toNat / y.toNat + 1) ≤ y.toNat * c := Nat.mul_le_mul_left _ (by omega)
      rw [Nat.mul_add] at this
      omega
    rw [BitVec.toNat_add, BitVec.toNat_sub, hmod]
    omega

example : iceil 1000#64 64#64 = 1024#64 := by decide

/-- `ffs_msb` is one plus the number of leading zero bits: bit `64 - ffs_msb x` is the
highest set bit. -/
theorem ffsMsb_spec (x : BitVec 64) (hx : x ≠ 0) :
    0 < ffsMsb x ∧ ffsMsb x ≤ 64 ∧ 2 ^ (64 - ffsMsb x) ≤ x.toNat ∧ x.toNat < 2 ^ (64 - ffsMsb x + 1) := by
  have h1 := BitVec.two_pow_sub_clz_le_toNat_of_ne_zero (by decide) hx
  have h2 := BitVec.toNat_lt_two_pow_sub_clz (x := x)
  have hx0 : x.toNat ≠ 0 := fun h => hx (BitVec.eq_of_toNat_eq (by simpa using h))
  have hc : x.clz.toNat < 64 := by
    apply Classical.byContradiction
    intro h
    have : 64 - x.clz.toNat = 0 := by omega
    rw [this] at h2
    omega
  have e : ffsMsb x = x.clz.toNat + 1 := by unfold ffsMsb; rw [if_pos hx]
  rw [e]
  refine ⟨by omega, by omega, ?_, ?_⟩
  · have : 64 - (x.clz.toNat + 1) = 64 - 1 - x.clz.toNat := by omega
    rw [this]; exact h1
  · have : 64 - (x.clz.toNat + 1) + 1 = 64 - x.clz.toNat := by omega
    rw [this]; exact h2

example : ffsMsb 0x10#64 = 60 := by decide

end Verif.Props.C33
