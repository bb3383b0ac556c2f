import Verif.Json.Model

/-!
# Integers as text
-/
namespace Verif.Json

theorem digits_small {n : Nat} (h : n < 10) : digits n = [48 + n] := by rw [digits, if_pos h]

theorem digits_big {n : Nat} (h : 10 ≤ n) : digits n = digits (n / 10) ++ [48 + n % 10] := by
  rw [digits, if_neg (by omega)]

theorem digits_all (n : Nat) : ∀ b ∈ digits n, isDigit b = true := by
  induction n using Nat.strongRecOn with
  | _ n ih =>
    intro b hb
    by_cases h : n < 10
    · rw [digits_small h] at hb
      simp at hb
      simp [isDigit]; omega
    · rw [digits_big (by omega)] at hb
      rcases List.mem_append.1 hb with hb | hb
      · exact ih (n / 10) (by omega) b hb
      · simp at hb
        simp [isDigit]; omega

theorem digits_head (n : Nat) : ∃ d ds, digits n = d :: ds ∧ (n = 0 → d = 48 ∧ ds = []) ∧ (0 < n → 49 ≤ d ∧ d ≤ 57) ∧
    (n < 10 → ds = []) ∧ (10 ≤ n → ds ≠ []) := by
  induction n using Nat.strongRecOn with
  | _ n ih =>
    by_cases h : n < 10
    · refine ⟨48 + n, [], digits_small h, fun h => ⟨by omega, rfl⟩, fun _ => ⟨by omega, by omega⟩, fun _ => rfl, fun _ => by omega⟩
    · obtain ⟨d, ds, h1, h2, h3, h4⟩ := ih (n / 10) (by omega)
      refine ⟨d, ds ++ [48 + n % 10], by rw [digits_big (by omega), h1]; rfl, fun _ => by omega, fun _ => h3 (by omega),
        fun _ => by omega, fun _ => by simp⟩

theorem u64_digits (n : Nat) : u64 (digits n) = n % 2 ^ 64 := by
  induction n using Nat.strongRecOn with
  | _ n ih =>
    by_cases h : n < 10
    · rw [digits_small h]; simp [u64]
    · have := ih (n / 10) (by omega)
      rw [digits_big (by omega), u64, List.foldl_append]
      unfold u64 at this
      rw [this]
      simp only [List.foldl_cons, List.foldl_nil]
      omega

/-- The text does not go on with a byte that could be part of an integer. -/
def Stop (r : Bytes) : Prop := ∀ b r', r = b :: r' → isDigit b = false ∧ b ≠ 46 ∧ b ≠ 101 ∧ b ≠ 69

theorem num3_stop (pos : Nat) {r : Bytes} (h : Stop r) : num3 pos r = ([], pos, r) := by
  cases r with
  | nil => rfl
  | cons b r =>
    obtain ⟨_, h1, h2, h3⟩ := h b r rfl
    unfold num3
    dsimp only
    rw [if_neg h1]
    unfold numExp
    dsimp only
    rw [if_neg (by omega)]

theorem span_stop {ds r : Bytes} (hd : ∀ b ∈ ds, isDigit b = true) (h : Stop r) :
    (ds ++ r).takeWhile isDigit = ds ∧ (ds ++ r).dropWhile isDigit = r := by
  induction ds with
  | nil =>
    cases r with
    | nil => exact ⟨rfl, rfl⟩
    | cons b r => simp [(h b r rfl).1]
  | cons d ds ih =>
    have := ih (fun b hb => hd b (by simp [hb]))
    simp [hd d (by simp), this]

theorem num2_digits (n : Nat) {r : Bytes} (h : Stop r) : ∃ pos, num2 (digits n ++ r) = (digits n, pos, r) ∧ pos % 2 = 1 ∧ pos < 4 := by
  obtain ⟨d, ds, h1, h2, h3, _⟩ := digits_head n
  have ha := digits_all n
  rw [h1] at ha ⊢
  by_cases h0 : n = 0
  · obtain ⟨rfl, rfl⟩ := h2 h0
    refine ⟨3, ?_, rfl, by omega⟩
    show num2 (48 :: r) = _
    unfold num2
    dsimp only
    rw [if_pos rfl, num3_stop 3 h]
  · obtain ⟨h3, h4⟩ := h3 (by omega)
    refine ⟨1, ?_, rfl, by omega⟩
    show num2 (d :: (ds ++ r)) = _
    unfold num2
    dsimp only
    rw [if_neg (by omega), if_pos ⟨h3, h4⟩]
    unfold num1
    obtain ⟨e1, e2⟩ := span_stop (ds := ds) (fun b hb => ha b (by simp [hb])) h
    rw [e1, e2]
    dsimp only
    rw [num3_stop 1 h, List.append_nil]

/-- An integer is read as it was printed. -/
theorem scan_decimal {n : Int} (hn : -2 ^ 63 < n ∧ n < 2 ^ 64) :
    ∃ b t, decimal n = b :: t ∧ (b = 45 ∨ isDigit b = true) ∧ ∀ r, Stop r → ∃ pos, numScan 0 (decimal n ++ r) = (decimal n, pos, r) ∧
      pos % 2 = 1 ∧ numValue (decimal n) pos = some (.num n) := by
  cases n with
  | ofNat n =>
    have hn : n < 2 ^ 64 := by have := hn.2; simp only [Int.ofNat_eq_natCast] at this; omega
    obtain ⟨d, ds, h1, h2, h3, h4, h5⟩ := digits_head n
    have hd : isDigit d = true := digits_all n d (by rw [h1]; simp)
    refine ⟨d, ds, h1, Or.inr hd, fun r hr => ?_⟩
    obtain ⟨pos, e1, e2, e3⟩ := num2_digits n hr
    have hd45 : d ≠ 45 := by intro e; subst e; simp [isDigit] at hd
    refine ⟨pos, ?_, e2, ?_⟩
    · show num0 (digits n ++ r) = _
      have : num0 (digits n ++ r) = num2 (digits n ++ r) := by
        rw [h1]
        show num0 (d :: (ds ++ r)) = _
        unfold num0
        dsimp only
        rw [if_neg hd45]
        rfl
      rw [this, e1]
      rfl
    · show numValue (digits n) pos = _
      by_cases h : n < 10
      · rw [digits_small h]
        unfold numValue
        dsimp only
        simp
        omega
      · have hv : numValue (digits n) pos = some (.num (u64 (digits n) : Int)) := by
          rw [h1]
          have := h5 (by omega)
          cases ds with
          | nil => exact absurd rfl this
          | cons e ds =>
            unfold numValue
            dsimp only
            rw [if_pos e3]
            split
            · rename_i heq; cases heq; exact absurd rfl hd45
            · rfl
        rw [hv, u64_digits, Nat.mod_eq_of_lt hn]
        rfl
  | negSucc n =>
    have hn : n + 1 < 2 ^ 63 := by have := hn.1; omega
    refine ⟨45, digits (n + 1), rfl, Or.inl rfl, fun r hr => ?_⟩
    obtain ⟨pos, e1, e2, e3⟩ := num2_digits (n + 1) hr
    refine ⟨pos, ?_, e2, ?_⟩
    · show num0 (45 :: (digits (n + 1) ++ r)) = _
      unfold num0
      dsimp only
      rw [if_pos rfl, e1]
      rfl
    · show numValue (45 :: digits (n + 1)) pos = _
      obtain ⟨d, ds, h1, _⟩ := digits_head (n + 1)
      have hu := u64_digits (n + 1)
      have : (n + 1) % 2 ^ 64 = n + 1 := Nat.mod_eq_of_lt (by omega)
      rw [this] at hu
      rw [h1] at hu ⊢
      unfold numValue
      dsimp only
      rw [if_pos e3]
      show (if u64 (d :: ds) = 2 ^ 63 then none else some (J.num (if u64 (d :: ds) < 2 ^ 63 then -(u64 (d :: ds) : Int) else _))) = _
      rw [hu, if_neg (by omega), if_pos (by omega)]
      rfl

end Verif.Json
