import Mathlib.Data.Int.CardIntervalMod
import Verif.Random.Period

/-!
# C68: what the random number generators of the tests can give
-/
namespace Verif.Props.C68
open Verif.Random

/-! ### The simple generator -/

theorem simple_next (s : BitVec 32) : (simple s).2 = lcg^[2] s := by
  rw [Function.iterate_succ_apply, Function.iterate_one]
  rfl

theorem simple_result (s : BitVec 32) (n : Nat) : result simple s n = lcg^[2 * (n + 1)] s := by
  induction n generalizing s with
  | zero => rfl
  | succ n ih =>
    rw [result, simple_next, ih, ← Function.iterate_add_apply, Nat.mul_add 2 (n + 1) 1]

theorem succ_mod_iff (P n m : Nat) : (n + 1) % P = (m + 1) % P ↔ n % P = m % P :=
  ⟨fun h => Nat.ModEq.add_right_cancel' 1 h, fun h => Nat.ModEq.add_right 1 h⟩

/-- Two results agree in their lowest `k + 1` bits exactly if their numbers agree in their lowest `k` bits. -/
theorem simple_low_bits (s : BitVec 32) {k : Nat} (hk : k < 32) (n m : Nat) :
    (result simple s n).toNat % 2 ^ (k + 1) = (result simple s m).toNat % 2 ^ (k + 1) ↔ n % 2 ^ k = m % 2 ^ k := by
  rw [simple_result, simple_result, iter_eq_iff s (by omega), pow_succ', Nat.mul_mod_mul_left, Nat.mul_mod_mul_left,
    Nat.mul_left_cancel_iff (by decide), succ_mod_iff]

/-- All results are even, or all are odd: the lowest bit is the seed's. -/
theorem simple_parity (s : BitVec 32) (n : Nat) : (result simple s n).toNat % 2 = s.toNat % 2 := by
  have h := (iter_eq_iff s (k := 1) (by omega) (2 * (n + 1)) 0).2 (by simp)
  rw [simple_result]
  exact h

/-- The results repeat after 2^31 and not earlier. -/
theorem simple_period (s : BitVec 32) (n m : Nat) : result simple s n = result simple s m ↔ n % 2 ^ 31 = m % 2 ^ 31 := by
  rw [← simple_low_bits s (k := 31) (by omega)]
  constructor
  · intro h; rw [h]
  · intro h
    rw [Nat.mod_eq_of_lt (BitVec.isLt _), Nat.mod_eq_of_lt (BitVec.isLt _)] at h
    exact BitVec.eq_of_toNat_eq h

/-- Every number with the seed's lowest bit is among the first 2^31 results. -/
theorem simple_hits (s y : BitVec 32) (h : y.toNat % 2 = s.toNat % 2) : ∃ n, n < 2 ^ 31 ∧ result simple s n = y := by
  obtain ⟨N, hN, rfl⟩ := iter_hits s y
  have he : N % 2 = 0 := (iter_eq_iff s (k := 1) (by omega) N 0).1 h
  by_cases h0 : N = 0
  · subst h0
    refine ⟨2 ^ 31 - 1, by decide, ?_⟩
    rw [simple_result]
    have := (iter_eq_iff s (k := 32) (by omega) (2 * (2 ^ 31 - 1 + 1)) 0).2 (by decide)
    rw [Nat.mod_eq_of_lt (BitVec.isLt _), Nat.mod_eq_of_lt (BitVec.isLt _)] at this
    exact BitVec.eq_of_toNat_eq this
  · refine ⟨N / 2 - 1, by omega, ?_⟩
    rw [simple_result]
    congr 1
    omega

/-! ### The combined generator -/

/-- The result made of two results. -/
def word (x0 x1 : BitVec 32) : BitVec 32 := (x0 >>> 15) ||| ((x1 &&& 0x7FFE#32) <<< 16)

theorem middle (x : BitVec 32) : (x &&& 0x7FFE#32) <<< 16 = (x >>> 1) <<< 18 >>> 1 := by
  apply BitVec.eq_of_getLsbD_eq
  intro i hi
  have hc : ∀ i < 32, (0x7FFE#32).getLsbD i = (decide (1 ≤ i) && decide (i ≤ 14)) := by decide
  simp only [BitVec.getLsbD_shiftLeft, BitVec.getLsbD_and, BitVec.getLsbD_ushiftRight, hi, decide_true, Bool.true_and]
  by_cases h : i < 16
  · have h1 : 1 + i < 18 := by omega
    simp [h, h1]
  · rw [hc (i - 16) (by omega)]
    by_cases h2 : i = 16
    · subst h2; simp
    · by_cases h3 : i = 31
      · subst h3; simp
      · have e : 1 + (1 + i - 18) = i - 16 := by omega
        simp [h, e, show ¬ 1 + i < 18 by omega, show 1 + i < 32 by omega, show 1 ≤ i - 16 by omega, show i - 16 ≤ 14 by omega]

theorem word_toNat (x0 x1 : BitVec 32) : (word x0 x1).toNat = 2 ^ 17 * (x1.toNat / 2 % 2 ^ 14) + x0.toNat / 2 ^ 15 := by
  unfold word
  rw [middle, BitVec.toNat_or]
  have h0 : (x0 >>> 15).toNat = x0.toNat / 2 ^ 15 := by
    rw [BitVec.toNat_ushiftRight, Nat.shiftRight_eq_div_pow]
  have h1 : ((x1 >>> 1) <<< 18 >>> 1).toNat = 2 ^ 17 * (x1.toNat / 2 % 2 ^ 14) := by
    rw [BitVec.toNat_ushiftRight, BitVec.toNat_shiftLeft, BitVec.toNat_ushiftRight, Nat.shiftRight_eq_div_pow,
      Nat.shiftRight_eq_div_pow, Nat.shiftLeft_eq]
    omega
  rw [h0, h1, Nat.or_comm, Nat.two_pow_add_eq_or_of_lt]
  have := x0.isLt
  omega

theorem nr_next (s : BitVec 32) : (nr s).2 = lcg^[4] s := by
  have h : (nr s).2 = (simple (simple s).2).2 := rfl
  rw [h, simple_next, simple_next, ← Function.iterate_add_apply]

theorem nr_result (s : BitVec 32) (n : Nat) : result nr s n = word (lcg^[4 * n + 2] s) (lcg^[4 * n + 4] s) := by
  induction n generalizing s with
  | zero => rfl
  | succ n ih =>
    rw [result, nr_next, ih, ← Function.iterate_add_apply, ← Function.iterate_add_apply]
    congr 2 <;> omega

/-- The results are within the range that `max()` gives. -/
theorem nr_range (s : BitVec 32) (n : Nat) : (result nr s n).toNat ≤ 0x7FFFFFFF := by
  rw [nr_result, word_toNat]
  have := (lcg^[4 * n + 2] s).isLt
  omega

/-- Bit 17 never changes: it is bit 1 of the seed. -/
theorem nr_bit17 (s : BitVec 32) (n : Nat) : (result nr s n).toNat / 2 ^ 17 % 2 = s.toNat / 2 % 2 := by
  have h := (iter_eq_iff s (k := 2) (by omega) (4 * n + 4) 0).2 (by omega)
  have h' : (lcg^[4 * n + 4] s).toNat % 4 = s.toNat % 4 := h
  rw [nr_result, word_toNat]
  have := (lcg^[4 * n + 2] s).isLt
  omega

/-- The bits from 17 on repeat after 2^13 results. -/
theorem nr_high_bits (s : BitVec 32) (n m : Nat) :
    (result nr s n).toNat / 2 ^ 17 = (result nr s m).toNat / 2 ^ 17 ↔ n % 2 ^ 13 = m % 2 ^ 13 := by
  have hp : ∀ n, (lcg^[4 * n + 4] s).toNat % 2 = s.toNat % 2 := fun n =>
    (iter_eq_iff s (k := 1) (by omega) (4 * n + 4) 0).2 (by omega)
  have h := iter_eq_iff s (k := 15) (by omega) (4 * n + 4) (4 * m + 4)
  have p1 := hp n
  have p2 := hp m
  rw [nr_result, nr_result, word_toNat, word_toNat]
  have b1 := (lcg^[4 * n + 2] s).isLt
  have b2 := (lcg^[4 * m + 2] s).isLt
  generalize (lcg^[4 * n + 2] s).toNat = u1 at *
  generalize (lcg^[4 * m + 2] s).toNat = u2 at *
  generalize (lcg^[4 * n + 4] s).toNat = v1 at *
  generalize (lcg^[4 * m + 4] s).toNat = v2 at *
  constructor
  · intro e
    have : v1 % 2 ^ 15 = v2 % 2 ^ 15 := by omega
    have := h.1 this
    omega
  · intro e
    have : v1 % 2 ^ 15 = v2 % 2 ^ 15 := h.2 (by omega)
    omega

theorem period_mul {f : Nat → BitVec 32} {p : Nat} (h : ∀ n, f (n + p) = f n) (u n : Nat) : f (n + u * p) = f n := by
  induction u with
  | zero => simp
  | succ u ih => rw [Nat.succ_mul, ← Nat.add_assoc, h, ih]

/-- The results have the periods that are multiples of 2^30, and no others. -/
theorem nr_period (s : BitVec 32) (p : Nat) : (∀ n, result nr s (n + p) = result nr s n) ↔ 2 ^ 30 ∣ p := by
  have full : ∀ n q, result nr s (n + 2 ^ 30 * q) = result nr s n := by
    intro n q
    rw [nr_result, nr_result]
    have e : ∀ c, lcg^[4 * (n + 2 ^ 30 * q) + c] s = lcg^[4 * n + c] s := by
      intro c
      have := (iter_eq_iff s (k := 32) (by omega) (4 * (n + 2 ^ 30 * q) + c) (4 * n + c)).2 (by omega)
      rw [Nat.mod_eq_of_lt (BitVec.isLt _), Nat.mod_eq_of_lt (BitVec.isLt _)] at this
      exact BitVec.eq_of_toNat_eq this
    rw [e, e]
  constructor
  · intro h
    have half : ¬ ∀ n, result nr s (n + 2 ^ 29) = result nr s n := by
      intro h'
      have e := congrArg BitVec.toNat (h' 0)
      rw [nr_result, nr_result, word_toNat, word_toNat] at e
      have b1 := (lcg^[4 * (0 + 2 ^ 29) + 2] s).isLt
      have b2 := (lcg^[4 * 0 + 2] s).isLt
      have k1 := (iter_eq_iff s (k := 31) (by omega) (4 * (0 + 2 ^ 29) + 2) (4 * 0 + 2)).2 (by omega)
      have k2 := mt (iter_eq_iff s (k := 32) (by omega) (4 * (0 + 2 ^ 29) + 2) (4 * 0 + 2)).1 (by omega)
      generalize (lcg^[4 * (0 + 2 ^ 29) + 2] s).toNat = u1 at *
      generalize (lcg^[4 * 0 + 2] s).toNat = u2 at *
      omega
    have key : ∀ k, k ≤ 30 → 2 ^ k ∣ p := by
      intro k
      induction k with
      | zero => intro _; simp
      | succ k ih =>
        intro hk
        obtain ⟨q, rfl⟩ := ih (by omega)
        rcases Nat.even_or_odd' q with ⟨e, rfl | rfl⟩
        · exact ⟨e, by rw [pow_succ, Nat.mul_assoc]⟩
        · exfalso
          apply half
          intro n
          have h1 := period_mul h (2 ^ (29 - k)) n
          have e1 : 2 ^ (29 - k) * (2 ^ k * (2 * e + 1)) = 2 ^ 29 + 2 ^ 30 * e := by
            rw [← Nat.mul_assoc, ← pow_add, Nat.sub_add_cancel (by omega)]
            ring
          rw [e1, ← Nat.add_assoc, full] at h1
          exact h1
    exact key 30 (by omega)
  · rintro ⟨q, rfl⟩ n
    exact full n q

/-! ### The hashing generator -/

/-- Result `n` is the one with index `next_ + n`, so that after `seed` it is `[n + 1]`. -/
theorem psdes_result (r : Psdes) (n : Nat) : result Psdes.draw r n = r.at (r.next + BitVec.ofNat 32 n) := by
  induction n generalizing r with
  | zero => simp [result, Psdes.draw, Psdes.at]
  | succ n ih =>
    show result Psdes.draw { r with next := r.next + 1 } n = _
    rw [ih]
    show psdes r.seed _ = psdes r.seed _
    congr 1
    rw [BitVec.add_assoc, Nat.add_comm n 1, BitVec.ofNat_add]
    rfl

theorem psdes_from_seed (s : BitVec 32) (n : Nat) :
    result Psdes.draw (Psdes.start s) n = psdes s (BitVec.ofNat 32 (n + 1)) := by
  rw [psdes_result, Nat.add_comm n 1, BitVec.ofNat_add]
  rfl

theorem round_injective (i : Nat) {w w' : BitVec 32 × BitVec 32} (h : Verif.Random.round i w = Verif.Random.round i w') : w = w' := by
  obtain ⟨l, r⟩ := w
  obtain ⟨l', r'⟩ := w'
  have h1 : r = r' := congrArg Prod.fst h
  subst h1
  have h2 := congrArg Prod.snd h
  simp only [Verif.Random.round] at h2
  rw [BitVec.xor_left_inj] at h2
  rw [h2]

/-- The rounds lose nothing: seed and index can be recovered from the two words that they leave, of which the second is the
result. -/
theorem rounds_injective {w w' : BitVec 32 × BitVec 32} (h : rounds w = rounds w') : w = w' :=
  round_injective 0 (round_injective 1 (round_injective 2 (round_injective 3 h)))

/-! ### The distribution -/

theorem span_zero {w : Nat} (a b : BitVec w) : b - a + 1 = 0 ↔ b + 1 = a := by
  have e : b - a + 1 + a = b + 1 := by
    rw [BitVec.add_assoc, BitVec.add_comm 1 a, ← BitVec.add_assoc, BitVec.sub_add_cancel]
  rw [← BitVec.add_left_inj a, e]
  show b + 1 = 0#w + a ↔ _
  rw [BitVec.zero_add]

/-- The draw fails exactly if `b + 1` is `a`: the range is the whole type, or is empty. -/
theorem uniform_fails {w : Nat} (a b : BitVec w) (g : BitVec 32) : uniform a b g = none ↔ b + 1 = a := by
  unfold uniform
  simp only [span_zero]
  split <;> simp_all

/-- Otherwise the result is in the range: `g` is taken modulo the number of values. -/
theorem uniform_value {w : Nat} (hw : 32 ≤ w) (a b : BitVec w) (hab : a.toNat ≤ b.toNat)
    (hf : b.toNat - a.toNat + 1 < 2 ^ w) (g : BitVec 32) :
    ∃ r, uniform a b g = some r ∧ r.toNat = a.toNat + g.toNat % (b.toNat - a.toNat + 1) ∧
      a.toNat ≤ r.toNat ∧ r.toNat ≤ b.toNat := by
  have hb := b.isLt
  have hn : (b - a + 1).toNat = b.toNat - a.toNat + 1 := by
    have h1 : (1 : BitVec w).toNat = 1 := BitVec.toNat_one (by omega)
    rw [BitVec.toNat_add, BitVec.toNat_sub_of_le hab, h1, Nat.mod_eq_of_lt hf]
  have hg : g.toNat < 2 ^ w := Nat.lt_of_lt_of_le g.isLt (Nat.pow_le_pow_right (by decide) hw)
  have hz : b - a + 1 ≠ 0 := by
    intro h
    rw [h] at hn
    simp at hn
  have hm : g.toNat % (b.toNat - a.toNat + 1) < b.toNat - a.toNat + 1 := Nat.mod_lt _ (by omega)
  have hr : (a + g.setWidth w % (b - a + 1)).toNat = a.toNat + g.toNat % (b.toNat - a.toNat + 1) := by
    rw [BitVec.toNat_add, BitVec.toNat_umod, hn, BitVec.toNat_setWidth, Nat.mod_eq_of_lt hg, Nat.mod_eq_of_lt (by omega)]
  refine ⟨_, by simp only [uniform]; rw [if_neg hz], hr, ?_, ?_⟩
  · rw [hr]; omega
  · rw [hr]; omega

theorem uniform_count_upto {w : Nat} (hw : 32 ≤ w) (a b : BitVec w) (hab : a.toNat ≤ b.toNat)
    (hf : b.toNat - a.toNat + 1 < 2 ^ w) (k : Nat) (hk : k ≤ b.toNat - a.toNat) (N : Nat) (hN : N ≤ 2 ^ 32) :
    N.count (fun g => uniform a b (BitVec.ofNat 32 g) = some (a + BitVec.ofNat w k)) =
      N / (b.toNat - a.toNat + 1) + if k < N % (b.toNat - a.toNat + 1) then 1 else 0 := by
  have hb := b.isLt
  have hp : N.count (fun g => uniform a b (BitVec.ofNat 32 g) = some (a + BitVec.ofNat w k)) =
      N.count (· ≡ k [MOD b.toNat - a.toNat + 1]) := by
    rw [Nat.count_eq_card_filter_range, Nat.count_eq_card_filter_range]
    congr 1
    apply Finset.filter_congr
    intro g hg
    have hg' : g < 2 ^ 32 := Nat.lt_of_lt_of_le (Finset.mem_range.1 hg) hN
    obtain ⟨r, hr, hv, -, -⟩ := uniform_value hw a b hab hf (BitVec.ofNat 32 g)
    rw [BitVec.toNat_ofNat, Nat.mod_eq_of_lt hg'] at hv
    have hs : (a + BitVec.ofNat w k).toNat = a.toNat + k := by
      rw [BitVec.toNat_add, BitVec.toNat_ofNat, Nat.mod_eq_of_lt (show k < 2 ^ w by omega), Nat.mod_eq_of_lt (by omega)]
    have hkm : k % (b.toNat - a.toNat + 1) = k := Nat.mod_eq_of_lt (by omega)
    rw [hr, Option.some_inj, ← BitVec.toNat_inj, hv, hs, Nat.add_left_cancel_iff, Nat.ModEq, hkm]
  rw [hp, Nat.count_modEq_card _ (by omega), Nat.mod_eq_of_lt (show k < b.toNat - a.toNat + 1 by omega)]

/-- How often value number `k` of the range is drawn if `g` takes every value once: values with a small number can have one
more. -/
theorem uniform_count {w : Nat} (hw : 32 ≤ w) (a b : BitVec w) (hab : a.toNat ≤ b.toNat)
    (hf : b.toNat - a.toNat + 1 < 2 ^ w) (k : Nat) (hk : k ≤ b.toNat - a.toNat) :
    (2 ^ 32).count (fun g => uniform a b (BitVec.ofNat 32 g) = some (a + BitVec.ofNat w k)) =
      2 ^ 32 / (b.toNat - a.toNat + 1) + if k < 2 ^ 32 % (b.toNat - a.toNat + 1) then 1 else 0 :=
  uniform_count_upto hw a b hab hf k hk _ (Nat.le_refl _)

/-- With the simple generator, all draws from a range of even size have numbers of the same parity: half of the values are
never drawn, and of two values one is drawn always. -/
theorem uniform_simple_parity {w : Nat} (hw : 32 ≤ w) (a b : BitVec w) (hab : a.toNat ≤ b.toNat)
    (hf : b.toNat - a.toNat + 1 < 2 ^ w) (he : (b.toNat - a.toNat + 1) % 2 = 0) (s : BitVec 32) (n : Nat) :
    ∃ r, uniform a b (result simple s n) = some r ∧ (r.toNat - a.toNat) % 2 = s.toNat % 2 := by
  obtain ⟨r, hr, hv, -, -⟩ := uniform_value hw a b hab hf (result simple s n)
  refine ⟨r, hr, ?_⟩
  rw [hv, Nat.add_sub_cancel_left, Nat.mod_mod_of_dvd _ (Nat.dvd_of_mod_eq_zero he)]
  exact simple_parity s n

/-- With the combined generator, bit 17 of the number is the same in all draws from a range whose size is a multiple of
2^18. -/
theorem uniform_nr_bit17 {w : Nat} (hw : 32 ≤ w) (a b : BitVec w) (hab : a.toNat ≤ b.toNat)
    (hf : b.toNat - a.toNat + 1 < 2 ^ w) (he : 2 ^ 18 ∣ b.toNat - a.toNat + 1) (s : BitVec 32) (n : Nat) :
    ∃ r, uniform a b (result nr s n) = some r ∧ (r.toNat - a.toNat) / 2 ^ 17 % 2 = s.toNat / 2 % 2 := by
  obtain ⟨r, hr, hv, -, -⟩ := uniform_value hw a b hab hf (result nr s n)
  refine ⟨r, hr, ?_⟩
  rw [hv, Nat.add_sub_cancel_left, ← nr_bit17 s n]
  have h := Nat.mod_mod_of_dvd (result nr s n).toNat he
  omega

theorem shuffleFrom_perm {α S : Type} (f : S → BitVec 32 × S) (k i : Nat) (l : Array α) (hl : l.size < 2 ^ 32)
    (hi : i + k = l.size) (s : S) :
    ∃ l' s', shuffleFrom f (BitVec.ofNat 32 l.size) k i l s = some (l', s') ∧ l'.Perm l := by
  induction k generalizing i l s with
  | zero => exact ⟨l, s, rfl, Array.Perm.refl _⟩
  | succ k ih =>
    have hn : (BitVec.ofNat 32 l.size - 1).toNat = l.size - 1 := by
      have h1 : (1 : BitVec 32).toNat = 1 := rfl
      rw [BitVec.toNat_sub_of_le, BitVec.toNat_ofNat, Nat.mod_eq_of_lt hl, h1]
      rw [BitVec.le_def, BitVec.toNat_ofNat, Nat.mod_eq_of_lt hl, h1]
      omega
    have h0 : (0 : BitVec 32).toNat = 0 := rfl
    by_cases hw : l.size - 1 + 1 < 2 ^ 32
    · obtain ⟨j, hj, -, -, hb⟩ := uniform_value (w := 32) (by omega) 0 (BitVec.ofNat 32 l.size - 1) (by rw [h0]; omega)
        (by rw [hn, h0]; omega) (f s).1
      rw [hn] at hb
      have h : i < l.size ∧ j.toNat < l.size := by omega
      obtain ⟨l', s', e, p⟩ := ih (i + 1) (l.swap i j.toNat h.1 h.2) (by simpa using hl) (by simp; omega) (f s).2
      refine ⟨l', s', ?_, p.trans (Array.swap_perm h.1 h.2)⟩
      rw [shuffleFrom]
      simp only [hj]
      rw [dif_pos h]
      rw [Array.size_swap] at e
      exact e
    · omega

/-- Whatever a generator gives, a shuffle gives a permutation and never leaves the array. -/
theorem shuffle_perm {α S : Type} (f : S → BitVec 32 × S) (l : Array α) (hl : l.size < 2 ^ 32) (s : S) :
    ∃ l' s', shuffle f l s = some (l', s') ∧ l'.Perm l :=
  shuffleFrom_perm f l.size 0 l hl (by omega) s

/-! ### Examples -/

/-- The values that /repo/test_atomics.cc:84-101 expects. -/
example : result Psdes.draw (Psdes.start 1) 0 = 0x509C0C23#32 ∧ (Psdes.start 1).at 99 = 0xA66CB41A#32 ∧
    result Psdes.draw (Psdes.start 99) 0 = 0x64300984#32 ∧ (Psdes.start 99).at 99 = 0x59BA89EB#32 := by decide +kernel

/-- The first results with seed 0: all even. -/
example : (List.range 4).map (result simple 0#32) = [0x47502932#32, 0xaaf95334#32, 0x9f2ec686#32, 0xa3d95fa8#32] := by
  decide +kernel

/-- Coin tosses with the simple generator. -/
example : (List.range 8).map (fun n => uniform 0#32 1#32 (result simple 7#32 n)) = List.replicate 8 (some 1#32) := by
  decide +kernel

/-- The whole type. -/
example : uniform 0#32 0xFFFFFFFF#32 5#32 = none := by decide +kernel

/-- A die: 2^32 is 6 * 715827882 + 4, so numbers 0 to 3 have one more. -/
example : (2 ^ 32).count (fun g => uniform 1#32 6#32 (BitVec.ofNat 32 g) = some (1#32 + 3#32)) = 715827883 ∧
    (2 ^ 32).count (fun g => uniform 1#32 6#32 (BitVec.ofNat 32 g) = some (1#32 + 4#32)) = 715827882 :=
  ⟨uniform_count (w := 32) (by decide) 1#32 6#32 (by decide) (by decide) 3 (by decide),
    uniform_count (w := 32) (by decide) 1#32 6#32 (by decide) (by decide) 4 (by decide)⟩

/-- A shuffle of four. -/
example : shuffle nr #[10, 11, 12, 13] 31949#32 = some (#[11, 10, 13, 12], 0xca83985d#32) := by decide +kernel

end Verif.Props.C68
