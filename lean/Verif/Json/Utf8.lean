import Verif.Json.Model

/-!
# Characters

The bytes of characters are those that Lean gives them (`String.utf8EncodeChar`).
-/
namespace Verif.Json

/-- The bytes of a character. -/
def chr (c : Char) : Bytes := (String.utf8EncodeChar c).map UInt8.toNat

/-- The bytes of characters. -/
def utf8 (cs : List Char) : Bytes := cs.flatMap chr

theorem char_range (c : Char) : c.toNat < 0xD800 ∨ (0xDFFF < c.toNat ∧ c.toNat < 0x110000) := c.valid

theorem chr_eq (c : Char) :
    (c.toNat ≤ 0x7F ∧ chr c = [c.toNat]) ∨
    (0x7F < c.toNat ∧ c.toNat ≤ 0x7FF ∧ chr c = [192 + c.toNat / 64, 128 + c.toNat % 64]) ∨
    (0x7FF < c.toNat ∧ c.toNat ≤ 0xFFFF ∧ chr c = [224 + c.toNat / 4096, 128 + c.toNat / 64 % 64, 128 + c.toNat % 64]) ∨
    (0xFFFF < c.toNat ∧
      chr c = [240 + c.toNat / 262144, 128 + c.toNat / 4096 % 64, 128 + c.toNat / 64 % 64, 128 + c.toNat % 64]) := by
  have hr := char_range c
  have hv : c.val.toNat = c.toNat := rfl
  unfold chr String.utf8EncodeChar
  dsimp only
  rw [hv]
  generalize c.toNat = v at *
  by_cases h1 : v ≤ 127
  · left; rw [if_pos h1]; simp; omega
  · by_cases h2 : v ≤ 2047
    · right; left; rw [if_neg h1, if_pos h2]; simp; omega
    · by_cases h3 : v ≤ 65535
      · right; right; left; rw [if_neg h1, if_neg h2, if_pos h3]; simp; omega
      · right; right; right; rw [if_neg h1, if_neg h2, if_neg h3]; simp; omega

/-- The character with a number. -/
theorem char_of {n : Nat} (h : n < 0xD800 ∨ (0xDFFF < n ∧ n < 0x110000)) : ∃ c : Char, c.toNat = n :=
  ⟨Char.ofNatAux n h, by
    show (UInt32.ofNatLT n _).toNat = n
    simp⟩

theorem cont_iff {b : Nat} : cont b = true ↔ 0x80 ≤ b ∧ b < 0xC0 := by simp [cont]

theorem plain_quote (fuel : Nat) (sa r : Bytes) : plain (fuel + 1) sa (34 :: r) = .done sa r := by
  show (if 32 ≤ 34 ∧ 34 < 128 ∧ 34 ≠ 92 ∧ 34 ≠ 34 then _ else _) = _
  rw [if_neg (by omega), if_neg (by omega), if_pos rfl]

theorem plain_ascii {b : Nat} (h : 32 ≤ b ∧ b < 128 ∧ b ≠ 92 ∧ b ≠ 34) (fuel : Nat) (sa r : Bytes) :
    plain (fuel + 1) sa (b :: r) = plain fuel (sa ++ [b]) r := by
  show (if 32 ≤ b ∧ b < 128 ∧ b ≠ 92 ∧ b ≠ 34 then _ else _) = _
  rw [if_pos h]

theorem plain_lead' {b : Nat} (h1 : 0xC2 ≤ b) (h2 : b < 0xF5) (fuel : Nat) (sa : Bytes) (c : Nat) (r : Bytes) :
    plain (fuel + 1) sa (b :: c :: r) =
      if !cont c || badSecond b c then .err
      else if want b = 2 then plain fuel (sa ++ [b, c]) r
      else
        match r with
        | [] => .more (sa ++ [b, c]) 2
        | d :: r =>
          if !cont d then .err
          else if want b = 3 then plain fuel (sa ++ [b, c, d]) r
          else
            match r with
            | [] => .more (sa ++ [b, c, d]) 3
            | e :: r => if !cont e then .err else plain fuel (sa ++ [b, c, d, e]) r := by
  show (if 32 ≤ b ∧ b < 128 ∧ b ≠ 92 ∧ b ≠ 34 then _ else _) = _
  rw [if_neg (by omega), if_neg (by omega), if_neg (by omega), if_neg (by omega)]
  rfl

theorem want2 {b : Nat} (h : b < 0xE0) : want b = 2 := by
  unfold want; rw [if_neg (by omega), if_neg (by omega)]

theorem want3 {b : Nat} (h : 0xE0 ≤ b) (h' : b < 0xF0) : want b = 3 := by
  unfold want; rw [if_pos h, if_neg (by omega)]

theorem want4 {b : Nat} (h : 0xF0 ≤ b) : want b = 4 := by
  unfold want; rw [if_pos (by omega), if_pos h]

/-- A character that is not escaped is read. -/
theorem plain_chr {c : Char} (h1 : 32 ≤ c.toNat) (h2 : c.toNat ≠ 92) (h3 : c.toNat ≠ 34) (fuel : Nat) (sa r : Bytes) :
    plain (fuel + 1) sa (chr c ++ r) = plain fuel (sa ++ chr c) r := by
  have hr := char_range c
  rcases chr_eq c with ⟨h, e⟩ | ⟨h, h', e⟩ | ⟨h, h', e⟩ | ⟨h, e⟩
  · rw [e]; exact plain_ascii ⟨h1, by omega, h2, h3⟩ _ _ _
  · rw [e]
    generalize c.toNat = v at *
    show plain (fuel + 1) sa (_ :: _ :: r) = _
    rw [plain_lead' (by omega) (by omega), if_neg, if_pos (want2 (by omega))]
    simp only [badSecond, cont, Bool.or_eq_true, Bool.not_eq_true', decide_eq_true_eq, decide_eq_false_iff_not]
    omega
  · rw [e]
    generalize c.toNat = v at *
    show plain (fuel + 1) sa (_ :: _ :: _ :: r) = _
    have hw := want3 (b := 224 + v / 4096) (by omega) (by omega)
    rw [plain_lead' (by omega) (by omega), if_neg, if_neg (by omega)]
    · dsimp only
      rw [if_neg, if_pos hw]
      simp only [cont, Bool.not_eq_true', decide_eq_false_iff_not]
      omega
    · simp only [badSecond, cont, Bool.or_eq_true, Bool.not_eq_true', decide_eq_true_eq, decide_eq_false_iff_not]
      omega
  · rw [e]
    generalize c.toNat = v at *
    show plain (fuel + 1) sa (_ :: _ :: _ :: _ :: r) = _
    have hw := want4 (b := 240 + v / 262144) (by omega)
    rw [plain_lead' (by omega) (by omega), if_neg, if_neg (by omega)]
    · dsimp only
      rw [if_neg, if_neg (by omega), if_neg]
      · simp only [cont, Bool.not_eq_true', decide_eq_false_iff_not]
        omega
      · simp only [cont, Bool.not_eq_true', decide_eq_false_iff_not]
        omega
    · simp only [badSecond, cont, Bool.or_eq_true, Bool.not_eq_true', decide_eq_true_eq, decide_eq_false_iff_not]
      omega

theorem utf8_cons (c : Char) (cs : List Char) : utf8 (c :: cs) = chr c ++ utf8 cs := rfl

theorem chr_ne (c : Char) : 1 ≤ (chr c).length := by
  rcases chr_eq c with ⟨_, e⟩ | ⟨_, _, e⟩ | ⟨_, _, e⟩ | ⟨_, e⟩ <;> rw [e] <;> simp

theorem plain_utf8 : ∀ (cs : List Char), (∀ c ∈ cs, 32 ≤ c.toNat ∧ c.toNat ≠ 92 ∧ c.toNat ≠ 34) → ∀ (fuel : Nat) (sa r : Bytes),
    (utf8 cs).length < fuel → plain fuel sa (utf8 cs ++ 34 :: r) = .done (sa ++ utf8 cs) r := by
  intro cs
  induction cs with
  | nil =>
    intro _ fuel sa r hf
    cases fuel with
    | zero => simp at hf
    | succ fuel => rw [show utf8 [] = [] from rfl, List.nil_append, List.append_nil]; exact plain_quote _ _ _
  | cons c cs ih =>
    intro h fuel sa r hf
    cases fuel with
    | zero => simp at hf
    | succ fuel =>
      have hc := h c (by simp)
      have hl := chr_ne c
      rw [utf8_cons, List.length_append] at hf
      rw [utf8_cons, List.append_assoc, plain_chr hc.1 hc.2.1 hc.2.2, ih (fun c hc => h c (by simp [hc])) fuel _ r (by omega),
        List.append_assoc]

/-- The parser accepts bytes that are not escaped only if they are the bytes of characters. -/
theorem plain_inv : ∀ (fuel : Nat) (sa t s r : Bytes), 34 ∉ t → 92 ∉ t → plain fuel sa (t ++ [34]) = .done s r →
    ∃ cs : List Char, t = utf8 cs ∧ (∀ c ∈ cs, 32 ≤ c.toNat ∧ c.toNat ≠ 92 ∧ c.toNat ≠ 34) ∧ s = sa ++ t ∧ r = [] := by
  intro fuel
  induction fuel with
  | zero => intro sa t s r _ _ h; cases t <;> simp [plain] at h
  | succ fuel ih =>
    intro sa t s r hq hb h
    cases t with
    | nil =>
      rw [List.nil_append, plain_quote] at h
      cases h
      exact ⟨[], rfl, by simp, by simp, rfl⟩
    | cons b t =>
      have step : ∀ (c : Char) (t' : Bytes), b :: t = chr c ++ t' → (32 ≤ c.toNat ∧ c.toNat ≠ 92 ∧ c.toNat ≠ 34) →
          ∃ cs : List Char, b :: t = utf8 cs ∧ (∀ c ∈ cs, 32 ≤ c.toNat ∧ c.toNat ≠ 92 ∧ c.toNat ≠ 34) ∧ s = sa ++ b :: t ∧ r = [] := by
        intro c t' e hc
        rw [e] at hq hb h ⊢
        rw [List.append_assoc, plain_chr hc.1 hc.2.1 hc.2.2] at h
        obtain ⟨cs, h1, h2, h3, h4⟩ := ih _ t' s r (fun h => hq (by simp [h])) (fun h => hb (by simp [h])) h
        refine ⟨c :: cs, by rw [utf8_cons, h1], ?_, by rw [h3, List.append_assoc], h4⟩
        intro x hx
        rcases List.mem_cons.1 hx with rfl | hx
        · exact hc
        · exact h2 x hx
      have hb34 : b ≠ 34 := fun e => hq (by simp [e])
      have hb92 : b ≠ 92 := fun e => hb (by simp [e])
      by_cases ha : 32 ≤ b ∧ b < 128
      · obtain ⟨c, hc⟩ := char_of (n := b) (by omega)
        refine step c t ?_ (by omega)
        rcases chr_eq c with ⟨_, e⟩ | ⟨_, _, e⟩ | ⟨_, _, e⟩ | ⟨_, e⟩
        · rw [e, hc]; rfl
        all_goals omega
      have hl : 0xC2 ≤ b ∧ b < 0xF5 := by
        by_cases hl : 0xC2 ≤ b ∧ b < 0xF5
        · exact hl
        · have : plain (fuel + 1) sa (b :: (t ++ [34])) = .err := by
            show (if 32 ≤ b ∧ b < 128 ∧ b ≠ 92 ∧ b ≠ 34 then _ else _) = _
            rw [if_neg (by omega), if_neg hb92, if_neg hb34, if_pos hl]
          rw [List.cons_append, this] at h
          cases h
      cases t with
      | nil =>
        rw [List.cons_append, List.nil_append, plain_lead' hl.1 hl.2, if_pos (by simp [cont])] at h
        cases h
      | cons c t =>
        rw [List.cons_append, List.cons_append, plain_lead' hl.1 hl.2] at h
        by_cases h1 : (!cont c || badSecond b c) = true
        · rw [if_pos h1] at h; cases h
        rw [if_neg h1] at h
        simp only [badSecond, cont, Bool.or_eq_true, Bool.not_eq_true', decide_eq_true_eq, decide_eq_false_iff_not, not_or,
          Decidable.not_not] at h1
        by_cases h2 : b < 0xE0
        · obtain ⟨x, hx⟩ := char_of (n := (b - 192) * 64 + (c - 128)) (by omega)
          refine step x t ?_ (by omega)
          rcases chr_eq x with ⟨_, e⟩ | ⟨_, _, e⟩ | ⟨_, _, e⟩ | ⟨_, e⟩
          · omega
          · rw [e, hx]; simp; omega
          all_goals omega
        have hw2 : want b ≠ 2 := by unfold want; rw [if_pos (by omega)]; omega
        rw [if_neg hw2] at h
        cases t with
        | nil =>
          rw [List.nil_append] at h
          dsimp only at h
          rw [if_pos (by simp [cont])] at h
          cases h
        | cons d t =>
          rw [List.cons_append] at h
          dsimp only at h
          by_cases h3 : (!cont d) = true
          · rw [if_pos h3] at h; cases h
          rw [if_neg h3] at h
          simp only [cont, Bool.not_eq_true', decide_eq_false_iff_not, Decidable.not_not] at h3
          by_cases h4 : b < 0xF0
          · obtain ⟨x, hx⟩ := char_of (n := (b - 224) * 4096 + (c - 128) * 64 + (d - 128)) (by omega)
            refine step x t ?_ (by omega)
            rcases chr_eq x with ⟨_, e⟩ | ⟨_, _, e⟩ | ⟨_, _, e⟩ | ⟨_, e⟩
            · omega
            · omega
            · rw [e, hx]; simp; omega
            · omega
          have hw3 : want b ≠ 3 := by rw [want4 (by omega)]; omega
          rw [if_neg hw3] at h
          cases t with
          | nil =>
            rw [List.nil_append] at h
            dsimp only at h
            rw [if_pos (by simp [cont])] at h
            cases h
          | cons e t =>
            rw [List.cons_append] at h
            dsimp only at h
            by_cases h5 : (!cont e) = true
            · rw [if_pos h5] at h; cases h
            simp only [cont, Bool.not_eq_true', decide_eq_false_iff_not, Decidable.not_not] at h5
            obtain ⟨x, hx⟩ := char_of (n := (b - 240) * 262144 + (c - 128) * 4096 + (d - 128) * 64 + (e - 128)) (by omega)
            refine step x t ?_ (by omega)
            rcases chr_eq x with ⟨_, e'⟩ | ⟨_, _, e'⟩ | ⟨_, _, e'⟩ | ⟨_, e'⟩
            · omega
            · omega
            · omega
            · rw [e', hx]; simp; omega

end Verif.Json
