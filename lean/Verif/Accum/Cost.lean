import Verif.Accum.Model
import Mathlib.Tactic.Ring
import Mathlib.Tactic.Linarith
/-
How much an accumulator copies when it grows byte by byte.
-/
namespace Verif.Accum

/-- The capacity of an accumulator after `n` calls of `append(char)` on a new one, and how many bytes `grow` has copied so far
(/repo/straccum.cc:102-103). -/
def pushes : Nat → Option (Nat × Nat)
  | 0 => some (0, 0)
  | n + 1 => (pushes n).bind fun (cap, copied) =>
    if n < cap then some (cap, copied) else (newCap cap n).map fun c => (c, copied + n)

theorem pushes_le {n c k : Nat} (h : pushes n = some (c, k)) : n ≤ c := by
  induction n generalizing c k with
  | zero => omega
  | succ n ih =>
    simp only [pushes, Option.bind_eq_some_iff] at h
    obtain ⟨⟨c0, k0⟩, h0, h⟩ := h
    have := ih h0
    simp only [] at h
    split at h
    · simp only [Option.some.injEq, Prod.mk.injEq] at h; omega
    · have e : n = c0 := by omega
      subst e
      simp only [Option.map_eq_some_iff, Prod.mk.injEq] at h
      obtain ⟨c', h1, h2, h3⟩ := h
      subst h2
      unfold newCap memoSpace intMax at h1
      split at h1
      · simp at h1; omega
      split at h1
      · simp at h1; omega
      split at h1
      · split at h1
        · split at h1 <;> simp at h1 <;> omega
        · simp at h1
      · omega

/-- Up to a megabyte the copying is linear. -/
theorem pushes_linear {n c k : Nat} (hn : n ≤ 1048576) (h : pushes n = some (c, k)) : k ≤ c ∧ c ≤ 2 * n + 128 := by
  induction n generalizing c k with
  | zero => simp only [pushes, Option.some.injEq, Prod.mk.injEq] at h; omega
  | succ n ih =>
    simp only [pushes, Option.bind_eq_some_iff] at h
    obtain ⟨⟨c0, k0⟩, h0, h⟩ := h
    have hi := ih (by omega) h0
    have hl := pushes_le h0
    simp only [] at h
    split at h
    · simp only [Option.some.injEq, Prod.mk.injEq] at h; omega
    · have e : n = c0 := by omega
      subst e
      simp only [Option.map_eq_some_iff, Prod.mk.injEq] at h
      obtain ⟨c', h1, h2, h3⟩ := h
      subst h2 h3
      unfold newCap memoSpace at h1
      by_cases g1 : n < 128
      · rw [if_pos g1] at h1
        simp only [Option.some.injEq] at h1
        have : k0 = 0 ∨ n ≠ 0 := by omega
        -- the only capacity below 128 is 0
        have hc : ∀ n c k, pushes n = some (c, k) → c = 0 ∨ 128 ≤ c := by
          intro n
          induction n with
          | zero => intro c k hh; simp only [pushes, Option.some.injEq, Prod.mk.injEq] at hh; omega
          | succ n ih =>
            intro c k hh
            simp only [pushes, Option.bind_eq_some_iff] at hh
            obtain ⟨⟨c0, k0⟩, h0, hh⟩ := hh
            have := ih _ _ h0
            simp only [] at hh
            split at hh
            · simp only [Option.some.injEq, Prod.mk.injEq] at hh; omega
            · simp only [Option.map_eq_some_iff, Prod.mk.injEq] at hh
              obtain ⟨c', h1, h2, _⟩ := hh
              subst h2
              unfold newCap memoSpace intMax at h1
              split at h1
              · simp at h1; omega
              split at h1
              · simp at h1; omega
              split at h1
              · split at h1
                · split at h1 <;> simp at h1 <;> omega
                · simp at h1
              · simp at h1; omega
        have := hc _ _ _ h0
        omega
      · rw [if_neg g1, if_pos (by omega)] at h1
        simp only [Option.some.injEq] at h1
        omega

/-- Beyond, it is quadratic. -/
theorem pushes_quadratic {n c k : Nat} (h : pushes n = some (c, k)) : n * n ≤ 524288 * n + 1048576 * k + 8796093022208 := by
  have key : ∀ n c k, pushes n = some (c, k) → 1048576 ≤ c → c * c ≤ 524288 * c + 1048576 * k + 8796093022208 := by
    intro n
    induction n with
    | zero => intro c k h hc; simp only [pushes, Option.some.injEq, Prod.mk.injEq] at h; omega
    | succ n ih =>
      intro c k h hc
      simp only [pushes, Option.bind_eq_some_iff] at h
      obtain ⟨⟨c0, k0⟩, h0, h⟩ := h
      have hl := pushes_le h0
      simp only [] at h
      split at h
      · simp only [Option.some.injEq, Prod.mk.injEq] at h
        obtain ⟨rfl, rfl⟩ := h
        exact ih _ _ h0 hc
      · have e : n = c0 := by omega
        subst e
        simp only [Option.map_eq_some_iff, Prod.mk.injEq] at h
        obtain ⟨c', h1, h2, h3⟩ := h
        subst h2 h3
        unfold newCap memoSpace intMax at h1
        by_cases g1 : n < 128
        · rw [if_pos g1] at h1; simp at h1; omega
        rw [if_neg g1] at h1
        by_cases g2 : n < 1048576
        · rw [if_pos (by omega)] at h1
          simp only [Option.some.injEq] at h1
          have hb : c' ≤ 2097163 := by omega
          have := Nat.mul_le_mul hb hb
          omega
        · rw [if_neg (by omega), if_pos (by omega)] at h1
          split at h1
          · rw [if_pos (by omega)] at h1
            simp only [Option.some.injEq] at h1
            subst h1
            have := ih _ _ h0 (by omega)
            nlinarith
          · simp at h1
  have hl := pushes_le h
  by_cases hc : 1048576 ≤ c
  · have := key n c k h hc
    by_cases hn : n ≤ 1048576
    · have := Nat.mul_le_mul hn hn
      omega
    · obtain ⟨d, rfl⟩ := Nat.exists_eq_add_of_le hl
      nlinarith
  · have hn : n ≤ 1048576 := by omega
    have := Nat.mul_le_mul hn hn
    omega

end Verif.Accum
