import Mathlib.Data.Nat.ModEq
import Mathlib.Logic.Function.Iterate
import Mathlib.Tactic.Ring
import Verif.Random.Model

/-!
# Periods of linear congruential generators
-/
namespace Verif.Random

/-- The step without reduction. -/
def grow (a c x : Nat) : Nat := x * a + c

variable {a c : Nat}

theorem grow_pow {m0 d0 : Nat} (ha : a = 1 + 4 * m0) (hc : c = 2 * d0 + 1) (k : Nat) :
    ∃ m d, ∀ x, (grow a c)^[2 ^ k] x = (1 + 2 ^ (k + 2) * m) * x + 2 ^ k * (2 * d + 1) := by
  induction k with
  | zero => exact ⟨m0, d0, fun x => by show x * a + c = _; rw [ha, hc]; ring⟩
  | succ k ih =>
    obtain ⟨m, d, h⟩ := ih
    refine ⟨m + 2 ^ (k + 1) * m ^ 2, d + 2 ^ (k + 1) * m * d + 2 ^ k * m, fun x => ?_⟩
    rw [pow_succ 2 k, Nat.mul_two, Function.iterate_add_apply, h, h]
    ring

/-- What is needed of the constants. -/
def Good (a c : Nat) : Prop := a % 4 = 1 ∧ c % 2 = 1

variable (hg : Good a c)
include hg

theorem grow_step (k x : Nat) : ∃ q, (grow a c)^[2 ^ k] x = x + 2 ^ k + 2 ^ (k + 1) * q := by
  have ha : a = 1 + 4 * (a / 4) := by have := hg.1; omega
  have hc : c = 2 * (c / 2) + 1 := by have := hg.2; omega
  obtain ⟨m, d, h⟩ := grow_pow ha hc k
  exact ⟨2 * m * x + d, by rw [h]; ring⟩

theorem grow_steps (k n x : Nat) : ∃ q, (grow a c)^[2 ^ k * n] x = x + 2 ^ k * n + 2 ^ (k + 1) * q := by
  induction n with
  | zero => exact ⟨0, by simp⟩
  | succ n ih =>
    obtain ⟨q, h⟩ := ih
    obtain ⟨q', h'⟩ := grow_step hg k ((grow a c)^[2 ^ k * n] x)
    refine ⟨q + q', ?_⟩
    rw [Nat.mul_succ, Nat.add_comm, Function.iterate_add_apply, h', h]
    ring

theorem pow_dvd_of_grow (x N : Nat) : ∀ k, (grow a c)^[N] x ≡ x [MOD 2 ^ k] → 2 ^ k ∣ N
  | 0, _ => by simp
  | k + 1, h => by
    obtain ⟨n, rfl⟩ := pow_dvd_of_grow x N k (h.of_dvd (pow_dvd_pow 2 (Nat.le_succ k)))
    obtain ⟨q, e⟩ := grow_steps hg k n x
    rw [e] at h
    have h1 : x + 2 ^ k * n + 2 ^ (k + 1) * q ≡ x + 2 ^ k * n [MOD 2 ^ (k + 1)] := by
      simp [Nat.ModEq]
    have h2 := (h1.symm.trans h).symm
    have h3 : 2 ^ (k + 1) ∣ 2 ^ k * n := by
      have := (Nat.modEq_iff_dvd' (Nat.le_add_right _ _)).1 h2
      rwa [Nat.add_sub_cancel_left] at this
    exact h3

theorem grow_of_pow_dvd (x : Nat) {k N : Nat} (h : 2 ^ k ∣ N) : (grow a c)^[N] x ≡ x [MOD 2 ^ k] := by
  obtain ⟨n, rfl⟩ := h
  obtain ⟨q, e⟩ := grow_steps hg k n x
  rw [e, pow_succ]
  have : x + 2 ^ k * n + 2 ^ k * 2 * q = x + 2 ^ k * (n + 2 * q) := by ring
  rw [this]
  simp [Nat.ModEq]

/-- Steps `N` and `M` agree in the lowest `k` bits exactly if `N` and `M` do. -/
theorem grow_eq_iff (x k N M : Nat) : (grow a c)^[N] x ≡ (grow a c)^[M] x [MOD 2 ^ k] ↔ N ≡ M [MOD 2 ^ k] := by
  have key : ∀ N M, M ≤ N → ((grow a c)^[N] x ≡ (grow a c)^[M] x [MOD 2 ^ k] ↔ N ≡ M [MOD 2 ^ k]) := by
    intro N M h
    obtain ⟨d, rfl⟩ := Nat.exists_eq_add_of_le h
    rw [Nat.add_comm M d, Function.iterate_add_apply]
    constructor
    · intro h'
      have := pow_dvd_of_grow hg _ _ _ h'
      obtain ⟨e, rfl⟩ := this
      simp [Nat.ModEq]
    · intro h'
      apply grow_of_pow_dvd hg
      have := (Nat.modEq_iff_dvd' (Nat.le_add_left _ _)).1 h'.symm
      rwa [Nat.add_sub_cancel] at this
  rcases Nat.le_total M N with h | h
  · exact key N M h
  · exact ⟨fun h' => ((key M N h).1 h'.symm).symm, fun h' => ((key M N h).2 h'.symm).symm⟩

/-- Every value of the lowest `k` bits is reached. -/
theorem grow_hits (x y : Nat) : ∀ k, ∃ N, N < 2 ^ k ∧ (grow a c)^[N] x ≡ y [MOD 2 ^ k]
  | 0 => ⟨0, by simp, by simp [Nat.ModEq, Nat.mod_one]⟩
  | k + 1 => by
    obtain ⟨N, hN, h⟩ := grow_hits x y k
    have hp : 2 ^ (k + 1) = 2 ^ k * 2 := pow_succ 2 k
    by_cases he : (grow a c)^[N] x ≡ y [MOD 2 ^ (k + 1)]
    · exact ⟨N, by omega, he⟩
    · refine ⟨2 ^ k + N, by omega, ?_⟩
      rw [Function.iterate_add_apply]
      obtain ⟨q, e⟩ := grow_step hg k ((grow a c)^[N] x)
      rw [e]
      have h1 : (grow a c)^[N] x + 2 ^ k + 2 ^ (k + 1) * q ≡ (grow a c)^[N] x + 2 ^ k [MOD 2 ^ (k + 1)] := by simp [Nat.ModEq]
      refine h1.trans ?_
      revert h he
      unfold Nat.ModEq
      rw [hp]
      generalize (grow a c)^[N] x = z
      intro h he
      have hpos : 0 < 2 ^ k := Nat.pos_of_ne_zero (by simp)
      generalize 2 ^ k = P at *
      have a1 := Nat.mod_mul (x := z) (a := P) (b := 2)
      have a2 := Nat.mod_mul (x := y) (a := P) (b := 2)
      have a3 := Nat.mod_mul (x := z + P) (a := P) (b := 2)
      rw [a2, a3, Nat.add_mod_right, h, Nat.add_div_right _ hpos]
      rw [a1, a2, h] at he
      have b1 := Nat.mod_two_eq_zero_or_one (z / P)
      have b2 := Nat.mod_two_eq_zero_or_one (y / P)
      have : (z / P + 1) % 2 = y / P % 2 := by
        rcases b1 with b1 | b1 <;> rcases b2 with b2 | b2 <;> rw [b1, b2] at he <;> first | omega | exact absurd rfl he
      rw [this]

omit hg

/-! ### Words -/

theorem good : Good 1664525 1013904223 := by unfold Good; omega

theorem lcg_toNat (s : BitVec 32) : (lcg s).toNat = grow 1664525 1013904223 s.toNat % 2 ^ 32 := by
  unfold lcg grow
  rw [BitVec.toNat_add, BitVec.toNat_mul]
  show (s.toNat * 1664525 % 2 ^ 32 + 1013904223) % 2 ^ 32 = _
  omega

theorem iter_toNat (s : BitVec 32) (n : Nat) :
    (lcg^[n] s).toNat = (grow 1664525 1013904223)^[n] s.toNat % 2 ^ 32 := by
  have key : ∀ (a c : Nat), (∀ s : BitVec 32, (lcg s).toNat = grow a c s.toNat % 2 ^ 32) →
      (lcg^[n] s).toNat = (grow a c)^[n] s.toNat % 2 ^ 32 := by
    intro a c h
    induction n with
    | zero => exact (Nat.mod_eq_of_lt s.isLt).symm
    | succ n ih =>
      rw [Function.iterate_succ_apply', Function.iterate_succ_apply', h, ih]
      exact ((Nat.mod_modEq _ _).mul_right _).add_right _
  exact key _ _ lcg_toNat

theorem iter_mod (s : BitVec 32) (n : Nat) {k : Nat} (hk : k ≤ 32) :
    (lcg^[n] s).toNat ≡ (grow 1664525 1013904223)^[n] s.toNat [MOD 2 ^ k] := by
  rw [iter_toNat]
  exact (Nat.mod_modEq _ _).of_dvd (pow_dvd_pow 2 hk)

theorem iter_eq_iff (s : BitVec 32) {k : Nat} (hk : k ≤ 32) (N M : Nat) :
    (lcg^[N] s).toNat % 2 ^ k = (lcg^[M] s).toNat % 2 ^ k ↔ N % 2 ^ k = M % 2 ^ k := by
  have h1 := iter_mod s N hk
  have h2 := iter_mod s M hk
  have h3 := grow_eq_iff good s.toNat k N M
  exact ⟨fun h => h3.1 (h1.symm.trans (h.trans h2)), fun h => h1.trans ((h3.2 h).trans h2.symm)⟩

theorem iter_hits (s y : BitVec 32) : ∃ N, N < 2 ^ 32 ∧ lcg^[N] s = y := by
  obtain ⟨N, h1, h2⟩ := grow_hits good s.toNat y.toNat 32
  refine ⟨N, h1, BitVec.eq_of_toNat_eq ?_⟩
  rw [iter_toNat]
  exact Eq.trans h2 (Nat.mod_eq_of_lt y.isLt)

end Verif.Random
