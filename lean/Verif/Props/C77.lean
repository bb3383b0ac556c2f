import Verif.Misc.Model

/-!
# C77: Statistics, numbers in `Str`, and the greatest key
-/
namespace Verif.Props.C77
open Verif.Misc

def addAll (s : Stats) (xs : List Int) : Stats := xs.foldl Stats.add s

theorem addAll_snoc (s : Stats) (xs : List Int) (x : Int) :
    addAll s (xs ++ [x]) = (addAll s xs).add x := by
  unfold addAll; rw [List.foldl_append]; rfl

/-- Induction from the end of a list. -/
theorem snoc_induction {P : List Int → Prop} (h0 : P []) (h1 : ∀ xs x, P xs → P (xs ++ [x])) :
    ∀ xs, P xs := by
  intro xs
  have : ∀ n (xs : List Int), xs.length = n → P xs := by
    intro n
    induction n with
    | zero => intro xs h; rw [List.length_eq_zero_iff.1 h]; exact h0
    | succ n ih =>
      intro xs h
      have hne : xs ≠ [] := by rintro rfl; simp at h
      rw [← List.dropLast_concat_getLast hne]
      exact h1 _ _ (ih _ (by rw [List.length_dropLast]; omega))
  exact this _ xs rfl

/-- Count, sum and sum of squares are those of the numbers added; `min` is the least of them; and
`max` is the greatest of them and -1. -/
theorem stats (xs : List Int) :
    (addAll {} xs).count = xs.length ∧ (addAll {} xs).sum = xs.sum ∧
    (addAll {} xs).sumsq = (xs.map fun x => x * x).sum ∧
    (xs ≠ [] → (addAll {} xs).min ∈ xs ∧ ∀ x ∈ xs, (addAll {} xs).min ≤ x) ∧
    ((addAll {} xs).max ∈ -1 :: xs ∧ ∀ x ∈ -1 :: xs, x ≤ (addAll {} xs).max) := by
  induction xs using snoc_induction with
  | h0 => simp [addAll]
  | h1 xs x ih =>
    obtain ⟨i1, i2, i3, i4, i5, i6⟩ := ih
    rw [addAll_snoc]
    generalize hs : addAll {} xs = s at *
    refine ⟨?_, ?_, ?_, fun _ => ?_, ?_, ?_⟩
    · simp [Stats.add, i1]
    · simp [Stats.add, i2]
    · simp [Stats.add, i3]
    · cases xs with
      | nil => simp only [List.length_nil] at i1; simp [Stats.add, i1]
      | cons y ys =>
        obtain ⟨a, b⟩ := i4 (by simp)
        have hc : s.count ≠ 0 := by rw [i1]; simp
        simp only [Stats.add, hc, false_or]
        split
        · next h =>
          refine ⟨by simp, fun z hz => ?_⟩
          rcases List.mem_append.1 hz with hz | hz
          · have := b z hz; omega
          · rw [List.mem_singleton.1 hz]; omega
        · next h =>
          refine ⟨List.mem_append_left _ a, fun z hz => ?_⟩
          rcases List.mem_append.1 hz with hz | hz
          · exact b z hz
          · rw [List.mem_singleton.1 hz]; omega
    · simp only [Stats.add]
      split
      · simp
      · rw [← List.cons_append]; exact List.mem_append_left _ i5
    · intro z hz
      rw [← List.cons_append] at hz
      simp only [Stats.add]
      rcases List.mem_append.1 hz with hz | hz
      · have := i6 z hz
        split <;> omega
      · rw [List.mem_singleton.1 hz]
        split <;> omega

/-- So `max` is the greatest number if one of them is at least -1, and wrong otherwise. -/
theorem max_right (xs : List Int) (hne : xs ≠ []) :
    ((addAll {} xs).max ∈ xs ∧ ∀ x ∈ xs, x ≤ (addAll {} xs).max) ↔ ∃ x ∈ xs, -1 ≤ x := by
  obtain ⟨_, _, _, _, h5, h6⟩ := stats xs
  have h1 := h6 (-1) (List.mem_cons_self ..)
  constructor
  · rintro ⟨a, _⟩; exact ⟨_, a, h1⟩
  · rintro ⟨x, hx, hx1⟩
    refine ⟨?_, fun y hy => h6 y (List.mem_cons_of_mem _ hy)⟩
    rcases List.mem_cons.1 h5 with h | h
    · have := h6 x (List.mem_cons_of_mem _ hx)
      have : x = -1 := by omega
      rw [h, ← this]; exact hx
    · exact h

example : (addAll {} [5, 3, 9, 3]).min = 3 ∧ (addAll {} [5, 3, 9, 3]).max = 9 ∧
    (addAll {} [-5, -3]).max = -1 := by decide +kernel

/-- With a single number the report divides by zero: the deviation it prints is not a number. -/
theorem single_report (x : Int) : (addAll {} [x]).divisor = some 0 := by
  simp [addAll, Stats.add, Stats.divisor]

/-- The value of a text of digits. -/
def value (s : List Nat) : Nat := s.foldl (fun v b => v * 10 + (b - 48)) 0

def AllDigits (s : List Nat) : Prop := ∀ b ∈ s, 48 ≤ b ∧ b ≤ 57

theorem value_mono (s : List Nat) : ∀ v, v ≤ s.foldl (fun v b => v * 10 + (b - 48)) v := by
  induction s with
  | nil => intro v; exact Nat.le_refl _
  | cons b s ih => intro v; exact Nat.le_trans (show v ≤ v * 10 + (b - 48) by omega) (ih _)

theorem toILoop_digits : ∀ (s : List Nat) (x p : Nat), AllDigits s →
    s.foldl (fun v b => v * 10 + (b - 48)) x + 57 < 2 ^ 63 →
    toILoop s x p = some (s.foldl (fun v b => v * 10 + (b - 48)) x, p + s.length) := by
  intro s
  induction s with
  | nil => intro x p _ _; rfl
  | cons b s ih =>
    intro x p hs hv
    have hb := hs b (List.mem_cons_self ..)
    have hm := value_mono s (x * 10 + (b - 48))
    rw [List.foldl_cons] at hv
    unfold toILoop
    rw [if_pos hb, if_neg (by omega), show x * 10 + b - 48 = x * 10 + (b - 48) by omega,
      ih _ _ (fun c hc => hs c (List.mem_cons_of_mem _ hc)) hv, List.foldl_cons, List.length_cons]
    congr 2; omega

theorem toILoop_short : ∀ (s : List Nat) (x p y q : Nat), toILoop s x p = some (y, q) →
    q ≤ p + s.length ∧ (q = p + s.length ↔ AllDigits s) := by
  intro s
  induction s with
  | nil =>
    intro x p y q h
    cases h
    exact ⟨by simp, by simp [AllDigits]⟩
  | cons b s ih =>
    intro x p y q h
    unfold toILoop at h
    split at h
    · next hb =>
      split at h
      · cases h
      · obtain ⟨h1, h2⟩ := ih _ _ _ _ h
        rw [List.length_cons]
        refine ⟨by omega, ?_⟩
        rw [show p + (s.length + 1) = p + 1 + s.length by omega, h2]
        constructor
        · intro h c hc
          rcases List.mem_cons.1 hc with rfl | hc
          · exact hb
          · exact h c hc
        · intro h c hc; exact h c (List.mem_cons_of_mem _ hc)
    · next hb =>
      cases h
      rw [List.length_cons]
      exact ⟨by omega, by constructor
                          · intro h; omega
                          · intro h; exact absurd (h b (List.mem_cons_self ..)) hb⟩

/-- `Str::to_i` gives the number of a text of digits (that is 57 below 2^63), and -1 for every other
text for which it is defined, also the empty one. -/
theorem to_i (s : List Nat) :
    (s ≠ [] → AllDigits s → value s + 57 < 2 ^ 63 → toI s = some (value s)) ∧
    (∀ v, toI s = some v → ¬ (s ≠ [] ∧ AllDigits s) → v = -1) ∧
    (∀ v, toI s = some v → s ≠ [] → AllDigits s → 0 ≤ v) := by
  refine ⟨fun hne hs hv => ?_, fun v h hn => ?_, fun v h hne hs => ?_⟩
  · unfold toI
    rw [toILoop_digits s 0 0 hs hv]
    have : s.length ≠ 0 := by simpa using hne
    simp [value, hne]
  · unfold toI at h
    cases hl : toILoop s 0 0 with
    | none => rw [hl] at h; cases h
    | some r =>
      obtain ⟨y, q⟩ := r
      rw [hl] at h
      simp only [Option.map_some, Option.some.injEq] at h
      obtain ⟨_, h2⟩ := toILoop_short s 0 0 y q hl
      rw [Nat.zero_add] at h2
      rw [if_neg] at h
      · exact h.symm
      · rintro ⟨a, b⟩
        refine hn ⟨?_, h2.1 a⟩
        rintro rfl
        simp at a; exact b a
  · unfold toI at h
    cases hl : toILoop s 0 0 with
    | none => rw [hl] at h; cases h
    | some r =>
      obtain ⟨y, q⟩ := r
      rw [hl] at h
      simp only [Option.map_some, Option.some.injEq] at h
      obtain ⟨_, h2⟩ := toILoop_short s 0 0 y q hl
      rw [Nat.zero_add] at h2
      have hq := h2.2 hs
      have : s.length ≠ 0 := by simpa using hne
      rw [if_pos ⟨hq, by omega⟩] at h
      omega

example : toI [49, 50, 51] = some 123 ∧ toI [] = some (-1) ∧ toI [45, 49] = some (-1) ∧
    toI [49, 97] = some (-1) := by decide +kernel

/-- Beyond that it is undefined: the text of 2^63, and even that of 2^63 - 1, as the digit is added
before 48 is subtracted. -/
theorem to_i_overflow :
    toI [57, 50, 50, 51, 51, 55, 50, 48, 51, 54, 56, 53, 52, 55, 55, 53, 56, 48, 56] = none ∧
    value [57, 50, 50, 51, 51, 55, 50, 48, 51, 54, 56, 53, 52, 55, 55, 53, 56, 48, 55] = 2 ^ 63 - 1 ∧
    toI [57, 50, 50, 51, 51, 55, 50, 48, 51, 54, 56, 53, 52, 55, 55, 53, 56, 48, 55] = none := by
  decide +kernel

/-- `Str::maxkey` is greater than every text of at most 256 bytes; keys have at most 255
(/repo/configure.ac:332-336). -/
theorem max_key (s : List Nat) (hs : ∀ b ∈ s, b < 256) (hl : s.length ≤ 256) : s < maxkey := by
  have : ∀ (s : List Nat) (n : Nat), (∀ b ∈ s, b < 256) → s.length < n →
      s < List.replicate n 255 := by
    intro s
    induction s with
    | nil =>
      intro n _ h
      cases n with
      | zero => simp at h
      | succ n => exact List.Lex.nil
    | cons b s ih =>
      intro n hs h
      cases n with
      | zero => simp at h
      | succ n =>
        rw [List.replicate_succ]
        have hb := hs b (List.mem_cons_self ..)
        rw [List.length_cons] at h
        rcases Nat.lt_or_ge b 255 with hb' | hb'
        · exact List.Lex.rel hb'
        · have : b = 255 := by omega
          rw [this]
          exact List.Lex.cons (ih n (fun c hc => hs c (List.mem_cons_of_mem _ hc)) (by omega))
  exact this s 257 hs (by omega)

/-- A longer text need not be smaller. -/
theorem max_key_not : ¬ (List.replicate 257 255 : List Nat) < maxkey := by
  unfold maxkey
  exact List.lt_irrefl _

end Verif.Props.C77
