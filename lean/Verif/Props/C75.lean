import Verif.Options.Values
import Verif.JsonNum.Facts

/-!
# C75: Numbers on the command line
-/
namespace Verif.Props.C75
open Verif.Options.Values Verif.JsonNum
open Verif.Json (Bytes digits decimal isDigit)

/-- A digit in a base up to 36, and its value. -/
def Digit (base b d : Nat) : Prop :=
  d < base ∧ ((d < 10 ∧ b = 48 + d) ∨ (10 ≤ d ∧ (b = 97 + (d - 10) ∨ b = 65 + (d - 10))))

/-- A row of digits, and its value. -/
inductive Num (base : Nat) : Bytes → Nat → Prop where
  | nil : Num base [] 0
  | snoc {s v b d} (h : Num base s v) (hd : Digit base b d) : Num base (s ++ [b]) (v * base + d)

/-- "one or more digits.  The digits may include a "0x" or "0X" prefix, for a hexadecimal number, or
a "0" prefix, for an octal number; otherwise it is decimal" (/repo/clp.h:87-90). -/
inductive Body : Bytes → Nat → Prop where
  | dec {s n} (h : Num 10 s n) (hne : s ≠ []) (h0 : s.head? ≠ some 48) : Body s n
  | oct {s n} (h : Num 8 s n) : Body (48 :: s) n
  | hex {x s n} (hx : x = 120 ∨ x = 88) (hne : s ≠ []) (h : Num 16 s n) : Body (48 :: x :: s) n

/-- "an optional "+" or "-" sign" before it; whether there is a minus. -/
inductive Numeral : Bytes → Bool → Nat → Prop where
  | plain {s n} (h : Body s n) : Numeral s false n
  | plus {s n} (h : Body s n) : Numeral (43 :: s) false n
  | minus {s n} (h : Body s n) : Numeral (45 :: s) true n

theorem digitVal_iff {base b d : Nat} (hb : base ≤ 36) : digitVal base b = some d ↔ Digit base b d := by
  unfold digitVal Digit
  have hi : isDigit b = true ↔ 48 ≤ b ∧ b ≤ 57 := by
    unfold isDigit; simp
  by_cases h : 48 ≤ b ∧ b ≤ 57
  · simp only [hi.2 h, if_true]
    split
    · simp only [Option.some.injEq]; omega
    · simp; omega
  · have : isDigit b = false := Bool.eq_false_iff.2 fun e => h (hi.1 e)
    simp only [this, Bool.false_eq_true, if_false]
    by_cases h1 : 97 ≤ b ∧ b ≤ 122
    · rw [if_pos h1]
      split
      · simp only [Option.some.injEq]; omega
      · simp; omega
    · rw [if_neg h1]
      by_cases h2 : 65 ≤ b ∧ b ≤ 90
      · rw [if_pos h2]
        split
        · simp only [Option.some.injEq]; omega
        · simp; omega
      · rw [if_neg h2, if_neg (by omega)]
        simp; omega

theorem readDigits_le (base : Nat) : ∀ (s : Bytes) (v k : Nat), (readDigits base v k s).2 ≤ k + s.length := by
  intro s
  induction s with
  | nil => intro v k; simp [readDigits]
  | cons b s ih =>
    intro v k
    unfold readDigits
    split
    · have := ih (v * base + ‹Nat›) (k + 1)
      rw [List.length_cons]; omega
    · simp

theorem readDigits_append (base : Nat) (t : Bytes) : ∀ (s : Bytes) (v k w : Nat),
    readDigits base v k s = (w, k + s.length) →
    readDigits base v k (s ++ t) = readDigits base w (k + s.length) t := by
  intro s
  induction s with
  | nil => intro v k w h; simp only [readDigits, Prod.mk.injEq] at h; simp [h.1]
  | cons b s ih =>
    intro v k w h
    rw [List.cons_append]
    unfold readDigits at h
    split at h
    · next d hd =>
      have e : readDigits base v k (b :: (s ++ t)) = readDigits base (v * base + d) (k + 1) (s ++ t) := by
        rw [readDigits, hd]
      rw [List.length_cons] at h
      rw [e, ih _ _ w (by rw [h]; congr 1; omega), List.length_cons,
        show k + 1 + s.length = k + (s.length + 1) by omega]
    · simp only [Prod.mk.injEq, List.length_cons] at h; omega

theorem num_of_read {base : Nat} (hb : base ≤ 36) : ∀ (s p : Bytes) (v k w : Nat), Num base p v →
    readDigits base v k s = (w, k + s.length) → Num base (p ++ s) w := by
  intro s
  induction s with
  | nil => intro p v k w hp h; simp only [readDigits, Prod.mk.injEq] at h; rw [List.append_nil, ← h.1]; exact hp
  | cons b s ih =>
    intro p v k w hp h
    unfold readDigits at h
    split at h
    · next d hd =>
      have := ih (p ++ [b]) _ (k + 1) w (.snoc hp ((digitVal_iff hb).1 hd))
        (by rw [h, List.length_cons]; congr 1; omega)
      simpa using this
    · simp only [Prod.mk.injEq, List.length_cons] at h; omega

theorem read_iff {base : Nat} (hb : base ≤ 36) (s : Bytes) (k w : Nat) :
    readDigits base 0 k s = (w, k + s.length) ↔ Num base s w := by
  constructor
  · intro h
    have := num_of_read hb s [] 0 k w .nil h
    simpa using this
  · intro h
    induction h with
    | nil => rfl
    | snoc h hd ih =>
      rw [readDigits_append base _ _ _ _ _ ih]
      unfold readDigits
      rw [(digitVal_iff hb).2 hd]
      simp [readDigits, Nat.add_assoc]

theorem num_eq {base : Nat} {s : Bytes} {v w : Nat} (h : v = w) : Num base s v ↔ Num base s w := by rw [h]

theorem magnitude_iff (s : Bytes) (n : Nat) (hne : s ≠ []) :
    magnitude s = (n, s.length) ↔ Body s n := by
  have h8 : ∀ t, readDigits 8 0 0 (48 :: t) = readDigits 8 0 1 t := by
    intro t; rw [readDigits]; rfl
  have h10 := fun s => read_iff (base := 10) (by omega) s 0 n
  simp only [Nat.zero_add] at h10
  cases s with
  | nil => exact absurd rfl hne
  | cons a t =>
    by_cases ha : a = 48
    · subst ha
      cases t with
      | nil =>
        constructor
        · intro h
          have : n = 0 := by
            have h' : magnitude [48] = (0, 1) := by decide
            rw [h'] at h; simp at h; omega
          subst this
          exact .oct .nil
        · intro h
          generalize hs : [48] = s at h
          cases h with
          | dec h _ h0 => subst hs; simp at h0
          | oct h =>
            simp only [List.cons.injEq, true_and] at hs; subst hs
            have := (read_iff (base := 8) (by omega) [] 0 n).2 h
            simp only [readDigits, Prod.mk.injEq] at this
            rw [← this.1]; decide
          | hex => simp at hs
      | cons b t =>
        by_cases hb : b = 120 ∨ b = 88
        · simp only [magnitude, hb, if_true]
          have h16 := read_iff (base := 16) (by omega) t 0 n
          have hx : digitVal 8 b = none := by rcases hb with rfl | rfl <;> decide
          constructor
          · intro h
            split at h
            · next hk => simp at h
            · next hk =>
              simp only [Prod.mk.injEq, List.length_cons] at h
              refine .hex hb ?_ (h16.1 (Prod.ext h.1 (by omega)))
              rintro rfl
              simp [readDigits] at hk
          · intro h
            generalize hs : 48 :: b :: t = s at h
            cases h with
            | dec h _ h0 => subst hs; simp at h0
            | oct h =>
              simp only [List.cons.injEq, true_and] at hs; subst hs
              have := (read_iff (base := 8) (by omega) (b :: t) 0 n).2 h
              unfold readDigits at this
              rw [hx] at this
              simp at this
            | hex _ hn h =>
              simp only [List.cons.injEq, true_and] at hs
              obtain ⟨_, rfl⟩ := hs
              have := h16.2 h
              rw [this]
              have : t.length ≠ 0 := by simpa using hn
              rw [if_neg (by omega)]
              simp
        · simp only [magnitude, hb, if_false]
          rw [h8]
          have h1 := read_iff (base := 8) (by omega) (b :: t) 1 n
          rw [show (48 :: b :: t).length = 1 + (b :: t).length by simp; omega, h1]
          constructor
          · exact .oct
          · intro h
            generalize hs : 48 :: b :: t = s at h
            cases h with
            | dec h _ h0 => subst hs; simp at h0
            | oct h => simp only [List.cons.injEq, true_and] at hs; subst hs; exact h
            | hex hx => simp only [List.cons.injEq, true_and] at hs; exact absurd (hs.1 ▸ hx) hb
    · have hm : magnitude (a :: t) = readDigits 10 0 0 (a :: t) := by
        unfold magnitude
        split
        · next h => simp only [List.cons.injEq] at h; exact absurd h.1 ha
        · rfl
      rw [hm, h10]
      constructor
      · intro h; exact .dec h hne (by simpa using ha)
      · intro h
        generalize hs : a :: t = s at h
        cases h with
        | dec h => exact h
        | oct => simp only [List.cons.injEq] at hs; exact absurd hs.1 ha
        | hex => simp only [List.cons.injEq] at hs; exact absurd hs.1 ha

theorem body_ne {s n} (h : Body s n) : s ≠ [] := by
  cases h with
  | dec _ h => exact h
  | oct => simp
  | hex => simp

theorem num_head {base : Nat} {s : Bytes} {n : Nat} (h : Num base s n) :
    ∀ b ∈ s, ∃ d, Digit base b d := by
  induction h with
  | nil => simp
  | snoc h hd ih =>
    intro b hb
    rcases List.mem_append.1 hb with hb | hb
    · exact ih b hb
    · rw [List.mem_singleton.1 hb]; exact ⟨_, hd⟩

theorem body_head {s n} (h : Body s n) : ∃ c t, s = c :: t ∧ 48 ≤ c ∧ c ≤ 57 := by
  cases h with
  | dec h hne =>
    cases s with
    | nil => exact absurd rfl hne
    | cons c t =>
      obtain ⟨d, h1, h2⟩ := num_head h c (List.mem_cons_self ..)
      exact ⟨c, t, rfl, by omega, by omega⟩
  | oct => exact ⟨48, _, rfl, by omega, by omega⟩
  | hex => exact ⟨48, _, rfl, by omega, by omega⟩

theorem number_iff (s : Bytes) (neg : Bool) (n : Nat) (hne : s ≠ []) (hs : isSpace (s.headD 0) = false) :
    number s = (neg, n, s.length) ↔ Numeral s neg n := by
  cases s with
  | nil => exact absurd rfl hne
  | cons c t =>
    have hc : isSpace c = false := hs
    have hsp : ((c :: t).takeWhile isSpace).length = 0 := by
      rw [List.takeWhile_cons, hc]; rfl
    have hsign : ∀ b, (c = 45 ∧ b = true) ∨ (c = 43 ∧ b = false) →
        number (c :: t) = (b, (magnitude t).1, if (magnitude t).2 = 0 then 0 else 0 + 1 + (magnitude t).2) := by
      intro b hb
      unfold number
      simp only [hsp, List.drop_zero]
      rcases hb with ⟨rfl, rfl⟩ | ⟨rfl, rfl⟩ <;> rfl
    have key : ∀ b, (c = 45 ∧ b = true) ∨ (c = 43 ∧ b = false) →
        (number (c :: t) = (neg, n, (c :: t).length) ↔ neg = b ∧ Body t n) := by
      intro b hb
      rw [hsign b hb]
      simp only [Prod.mk.injEq, List.length_cons]
      constructor
      · rintro ⟨h1, h2, h3⟩
        split at h3
        · omega
        · next hk =>
          have : t ≠ [] := by rintro rfl; exact hk (by decide)
          exact ⟨h1.symm, (magnitude_iff t n this).1 (Prod.ext h2 (by omega))⟩
      · rintro ⟨h1, h2⟩
        have hm := (magnitude_iff t n (body_ne h2)).2 h2
        have : t.length ≠ 0 := by simpa using body_ne h2
        rw [hm]
        refine ⟨h1.symm, rfl, ?_⟩
        rw [if_neg (by simpa using this)]
        omega
    have nobody : (c = 45 ∨ c = 43) → ∀ m, ¬ Body (c :: t) m := by
      intro h m hb
      obtain ⟨c', t', h1, h2, h3⟩ := body_head hb
      simp only [List.cons.injEq] at h1
      omega
    by_cases h45 : c = 45
    · rw [key true (.inl ⟨h45, rfl⟩)]
      constructor
      · rintro ⟨rfl, h⟩; rw [h45]; exact .minus h
      · intro h
        generalize hs' : c :: t = s at h
        cases h with
        | plain h => rw [← hs'] at h; exact absurd h (nobody (.inl h45) _)
        | plus h => simp only [List.cons.injEq] at hs'; omega
        | minus h => simp only [List.cons.injEq] at hs'; exact ⟨rfl, hs'.2 ▸ h⟩
    · by_cases h43 : c = 43
      · rw [key false (.inr ⟨h43, rfl⟩)]
        constructor
        · rintro ⟨rfl, h⟩; rw [h43]; exact .plus h
        · intro h
          generalize hs' : c :: t = s at h
          cases h with
          | plain h => rw [← hs'] at h; exact absurd h (nobody (.inr h43) _)
          | plus h => simp only [List.cons.injEq] at hs'; exact ⟨rfl, hs'.2 ▸ h⟩
          | minus h => simp only [List.cons.injEq] at hs'; omega
      · have hn : number (c :: t) = (false, (magnitude (c :: t)).1,
            if (magnitude (c :: t)).2 = 0 then 0 else 0 + (magnitude (c :: t)).2) := by
          unfold number
          simp only [hsp, List.drop_zero]
          split
          · next h => simp only [List.cons.injEq] at h; exact absurd h.1 h45
          · next h => simp only [List.cons.injEq] at h; exact absurd h.1 h43
          · rfl
        rw [hn]
        simp only [Prod.mk.injEq]
        constructor
        · rintro ⟨rfl, h2, h3⟩
          refine .plain ((magnitude_iff _ n hne).1 (Prod.ext h2 ?_))
          split at h3
          · simp at h3
          · simp only; omega
        · intro h
          generalize hs' : c :: t = s at h
          cases h with
          | plain h =>
            rw [← hs'] at h ⊢
            rw [(magnitude_iff _ n hne).2 h]
            exact ⟨rfl, rfl, by simp⟩
          | plus h => simp only [List.cons.injEq] at hs'; exact absurd hs'.1 h43
          | minus h => simp only [List.cons.injEq] at hs'; exact absurd hs'.1 h45

theorem numeral_start {s neg n} (h : Numeral s neg n) : ∃ c t, s = c :: t ∧ isSpace c = false ∧
    (neg = true ↔ c = 45) := by
  have hd : ∀ c, 48 ≤ c → c ≤ 57 → isSpace c = false := by
    intro c h1 h2; unfold isSpace
    rw [decide_eq_false (by omega), decide_eq_false (show ¬ c ≤ 13 by omega), Bool.and_false]; rfl
  cases h with
  | plain h =>
    obtain ⟨c, t, h1, h2, h3⟩ := body_head h
    exact ⟨c, t, h1, hd c h2 h3, by simp; omega⟩
  | plus h => exact ⟨43, _, rfl, by decide, by simp⟩
  | minus h => exact ⟨45, _, rfl, by decide, by simp⟩

/-- The number that a numeral means. -/
def meant (neg : Bool) (n : Nat) : Int := if neg then -(n : Int) else n

/-- The numbers of a type. -/
def lo : IntType → Int
  | .int => -2 ^ 31 | .unsigned => 0 | .long => -2 ^ 63 | .ulong => 0
def hi : IntType → Int
  | .int => 2 ^ 31 - 1 | .unsigned => 2 ^ 32 - 1 | .long => 2 ^ 63 - 1 | .ulong => 2 ^ 64 - 1

/-- Types without negative numbers. -/
def noMinus : IntType → Bool
  | .unsigned | .ulong => true
  | _ => false

/-- The number that is kept when `z` is meant: the nearest `long` or `unsigned long`, of which the
types of 32 bits keep the lower half. -/
def kept (ty : IntType) (z : Int) : Int :=
  match ty with
  | .long => max (min z (2 ^ 63 - 1)) (-2 ^ 63)
  | .ulong => min z (2 ^ 64 - 1)
  | .int => (max (min z (2 ^ 63 - 1)) (-2 ^ 63) + 2 ^ 31) % 2 ^ 32 - 2 ^ 31
  | .unsigned => min z (2 ^ 64 - 1) % 2 ^ 32

/-- **Numbers as described.**  A text is accepted exactly if it is a numeral as /repo/clp.h:84-98
describes it, without minus for unsigned types, and nothing else before or after it; the value is
the number meant as far as the type goes (`kept`), whatever was in the parser before. -/
theorem parse_int (ty : IntType) (old : Nat) (arg : Bytes) (v : Int) :
    intValue ty old arg = some v ↔
      ∃ neg n, Numeral arg neg n ∧ (noMinus ty = true → neg = false) ∧ v = kept ty (meant neg n) := by
  have hodd : ty.code % 2 = 1 ↔ noMinus ty = true := by cases ty <;> decide
  by_cases hbad : arg = [] ∨ isSpace (arg.headD 0) = true ∨ (ty.code % 2 = 1 ∧ arg.headD 0 = 45)
  · have hl : intValue ty old arg = none := by
      have : scanInt ty old arg = (old, 0) := if_pos hbad
      unfold intValue parseInt
      rw [this]
      cases arg with
      | nil => simp
      | cons c t => simp
    rw [hl]
    constructor
    · intro h; cases h
    · rintro ⟨neg, n, h, hm, _⟩
      obtain ⟨c, t, h1, h2, h3⟩ := numeral_start h
      rw [h1] at hbad
      simp only [reduceCtorEq, List.headD_cons, h2, Bool.false_eq_true, false_or] at hbad
      have := h3.2 hbad.2
      rw [hm (hodd.1 hbad.1)] at this
      cases this
  · have hne : arg ≠ [] := fun e => hbad (.inl e)
    have hsp : isSpace (arg.headD 0) = false := Bool.eq_false_iff.2 fun e => hbad (.inr (.inl e))
    have h45 : noMinus ty = true → arg.headD 0 ≠ 45 := fun e h => hbad (.inr (.inr ⟨hodd.2 e, h⟩))
    cases hnum : number arg with
    | mk neg p =>
    obtain ⟨n, k⟩ := p
    have hiff : ∀ b m, Numeral arg b m ↔ b = neg ∧ m = n ∧ k = arg.length := by
      intro b m
      rw [← number_iff arg b m hne hsp, hnum]
      simp only [Prod.mk.injEq]
      constructor
      · rintro ⟨h1, h2, h3⟩; exact ⟨h1.symm, h2.symm, h3⟩
      · rintro ⟨h1, h2, h3⟩; exact ⟨h1.symm, h2.symm, h3⟩
    have hneg : k = arg.length → noMinus ty = true → neg = false := by
      intro hk hm
      obtain ⟨c, t, h1, h2, h3⟩ := numeral_start ((hiff neg n).2 ⟨rfl, rfl, hk⟩)
      cases neg with
      | false => rfl
      | true => exact absurd (by rw [h1]; exact h3.1 rfl) (h45 hm)
    have hval : intValue ty old arg = if k = arg.length then
        some (ty.get (if noMinus ty = true then (strtoul arg).1 else u64 (strtol arg).1)) else none := by
      have hs : scanInt ty old arg =
          (if noMinus ty = true then (strtoul arg).1 else u64 (strtol arg).1, k) := by
        unfold scanInt
        rw [if_neg hbad]
        by_cases hm : noMinus ty = true
        · rw [if_pos (hodd.2 hm), if_pos hm]; unfold strtoul; rw [hnum]
        · rw [if_neg (fun e => hm (hodd.1 e)), if_neg hm]; unfold strtol; rw [hnum]
      unfold intValue parseInt
      rw [hs]
      by_cases hk : k = arg.length
      · rw [if_pos hk, if_pos (by simp [hk, hne])]
      · rw [if_neg hk, if_neg (by simp [hk])]
    rw [hval]
    by_cases hk : k = arg.length
    · rw [if_pos hk]
      have hget : ty.get (if noMinus ty = true then (strtoul arg).1 else u64 (strtol arg).1) =
          kept ty (meant neg n) := by
        have hn := hneg hk
        unfold strtoul strtol meant
        rw [hnum]
        cases ty with
        | int =>
          simp only [noMinus, Bool.false_eq_true, if_false, IntType.get, kept, u64]
          split <;> split <;> omega
        | unsigned =>
          have : neg = false := hn rfl
          subst this
          simp only [noMinus, if_true, Bool.false_eq_true, if_false, IntType.get, kept]
          split <;> omega
        | long =>
          simp only [noMinus, Bool.false_eq_true, if_false, IntType.get, kept, u64, i64]
          split <;> split <;> omega
        | ulong =>
          have : neg = false := hn rfl
          subst this
          simp only [noMinus, if_true, Bool.false_eq_true, if_false, IntType.get, kept]
          split <;> omega
      rw [hget]
      constructor
      · intro h
        exact ⟨neg, n, (hiff _ _).2 ⟨rfl, rfl, hk⟩, hneg hk, (Option.some.inj h).symm⟩
      · rintro ⟨b, m, h, _, hv⟩
        obtain ⟨h1, h2, _⟩ := (hiff _ _).1 h
        rw [hv, h1, h2]
    · rw [if_neg hk]
      constructor
      · intro h; cases h
      · rintro ⟨b, m, h, _⟩
        exact absurd ((hiff _ _).1 h).2.2 hk

/-- A number of the type is kept as it is. -/
theorem kept_self (ty : IntType) (z : Int) (h1 : lo ty ≤ z) (h2 : z ≤ hi ty) : kept ty z = z := by
  cases ty <;> simp only [lo, hi, kept] at * <;> omega

/-- What is kept is always a number of the type. -/
theorem kept_range (ty : IntType) (z : Int) (h : noMinus ty = true → 0 ≤ z) :
    lo ty ≤ kept ty z ∧ kept ty z ≤ hi ty := by
  cases ty <;> simp only [lo, hi, kept, noMinus, Bool.false_eq_true, false_imp_iff, true_imp_iff] at * <;> omega

/-- A numeral means one number. -/
theorem numeral_unique {s b c n m} (h : Numeral s b n) (h' : Numeral s c m) : b = c ∧ n = m := by
  obtain ⟨x, t, h1, h2, _⟩ := numeral_start h
  have hne : s ≠ [] := by rw [h1]; simp
  have hsp : isSpace (s.headD 0) = false := by rw [h1]; exact h2
  have e := (number_iff s b n hne hsp).2 h
  rw [(number_iff s c m hne hsp).2 h'] at e
  simp only [Prod.mk.injEq, and_true] at e
  exact ⟨e.1.symm, e.2.symm⟩

/-- Numbers of a type written in decimal are read as themselves. -/
theorem parse_decimal (ty : IntType) (old : Nat) (z : Int) (h1 : lo ty ≤ z) (h2 : z ≤ hi ty) :
    intValue ty old (decimal z) = some z := by
  have hn := number_decimal z
  have hne : decimal z ≠ [] ∧ isSpace ((decimal z).headD 0) = false := by
    cases z with
    | ofNat n =>
      obtain ⟨d, ds, e, h, _⟩ := digit_head_facts n
      show digits n ≠ [] ∧ isSpace ((digits n).headD 0) = false
      rw [e]; exact ⟨by simp, h⟩
    | negSucc n => exact ⟨by simp [decimal], rfl⟩
  rw [parse_int]
  refine ⟨decide (z < 0), z.natAbs, (number_iff _ _ _ hne.1 hne.2).1 hn, ?_, ?_⟩
  · intro h
    cases ty <;> simp only [noMinus, Bool.false_eq_true, lo] at * <;> simpa using h1
  · have : meant (decide (z < 0)) z.natAbs = z := by
      unfold meant
      by_cases hz : z < 0 <;> simp [hz] <;> omega
    rw [this, kept_self ty z h1 h2]

/-- Numbers that a type cannot hold are accepted without a message and become others:
`--threads=4294967297` is one thread, and numbers beyond 2^63 become -1. -/
theorem int_wraps (old : Nat) : intValue .int old (decimal 4294967297) = some 1 ∧
    intValue .unsigned old (decimal 4294967296) = some 0 ∧
    intValue .int old (decimal 99999999999999999999) = some (-1) := by
  have f : ∀ (ty : IntType) (n : Nat), intValue ty old (digits n) = some (kept ty n) := by
    intro ty n
    obtain ⟨d, ds, e, h, _⟩ := digit_head_facts n
    rw [parse_int]
    exact ⟨false, n, (number_iff _ _ _ (by rw [e]; simp) (by rw [e]; exact h)).1 (number_digits n),
      fun _ => rfl, rfl⟩
  exact ⟨f .int 4294967297, f .unsigned 4294967296, f .int 99999999999999999999⟩

/-- 0x1F, +017, -5 and 08. -/
example : intValue .int 0 [48, 120, 49, 70] = some 31 ∧ intValue .ulong 7 [43, 48, 49, 55] = some 15 ∧
    intValue .long 0 [45, 53] = some (-5) ∧ intValue .unsigned 0 [45, 53] = none ∧
    intValue .int 0 [48, 56] = none ∧ intValue .int 0 [48, 120] = none ∧ intValue .int 0 [32, 53] = none ∧
    intValue .int 3 [] = none := by decide +kernel

/-- The factor of a suffix: thousands, millions, billions. -/
def factor : Bytes → Option Nat
  | [75] | [107] => some 1000
  | [77] | [109] => some 1000000
  | [66] | [98] | [71] | [103] => some 1000000000
  | _ => none

/-- **Numbers with suffixes.**  If `strtod` reads a part of a text that is not empty and does not
start with white space, the text is accepted exactly if nothing or one letter K, M, B or G, of either
case, follows that part, and the value is that of the part, multiplied by the factor; if it reads
nothing, the text is refused. -/
theorem suffix (D : Doubles) (old : Nat) (c : Nat) (s rest : Bytes) (hc : isSpace c = false)
    (hk : (D.strtod (c :: s ++ rest)).2 = (c :: s).length) (v : Nat) :
    parseSuffix D old (c :: s ++ rest) = (true, v) ↔
      (rest = [] ∧ v = (D.strtod (c :: s ++ rest)).1) ∨
      ∃ f, factor rest = some f ∧ v = D.mul (D.strtod (c :: s ++ rest)).1 f := by
  generalize hs : c :: s = t at hk
  have ht : t ++ rest = c :: (s ++ rest) := by rw [← hs]; rfl
  have hlen : t.length ≠ 0 := by rw [← hs]; simp
  have hcond : ¬ (t ++ rest = [] ∨ isSpace ((t ++ rest).headD 0) = true) := by
    rw [ht]; simp [hc]
  have hne : t ++ rest ≠ [] := fun e => hcond (.inl e)
  have hget : (t ++ rest)[t.length]? = rest.head? := by
    rw [List.getElem?_append_right (Nat.le_refl _), Nat.sub_self]
    cases rest <;> rfl
  cases hD : D.strtod (t ++ rest) with
  | mk d k =>
  rw [hD] at hk
  simp only at hk
  subst hk
  have hs : scanDouble D old (t ++ rest) = (d, t.length) := by
    unfold scanDouble; rw [if_neg hcond, hD]
  have hp : parseSuffix D old (t ++ rest) =
      (decide ((applySuffix D d t.length rest.head?).2 = t.length + rest.length),
        (applySuffix D d t.length rest.head?).1) := by
    unfold parseSuffix
    simp only [hs, hget, List.length_append]
    rw [decide_eq_true hne, Bool.true_and]
  rw [hp, Prod.mk.injEq, decide_eq_true_iff]
  unfold applySuffix
  have hpost : ∀ q : Prop, (t.length ≠ 0 ∧ q) ↔ q := fun q => and_iff_right hlen
  simp only [hpost]
  cases rest with
  | nil => simp [factor, eq_comm]
  | cons x r =>
    simp only [List.head?_cons, Option.some.injEq, List.length_cons]
    have hr : ∀ w f, factor (x :: r) = (if r = [] then some f else none) →
        ((D.mul d f, t.length + 1).2 = t.length + (r.length + 1) ∧ (D.mul d f, t.length + 1).1 = w ↔
          (x :: r = [] ∧ w = d) ∨ ∃ g, factor (x :: r) = some g ∧ w = D.mul d g) := by
      intro w f hf
      rw [hf]
      cases r with
      | nil => simp [eq_comm]
      | cons y r => simp
    by_cases h1 : x = 75 ∨ x = 107
    · rw [if_pos h1]
      exact hr v 1000 (by rcases h1 with rfl | rfl <;> cases r <;> rfl)
    · rw [if_neg h1]
      by_cases h2 : x = 77 ∨ x = 109
      · rw [if_pos h2]
        exact hr v 1000000 (by rcases h2 with rfl | rfl <;> cases r <;> rfl)
      · rw [if_neg h2]
        by_cases h3 : x = 66 ∨ x = 98 ∨ x = 71 ∨ x = 103
        · rw [if_pos h3]
          exact hr v 1000000000 (by rcases h3 with rfl | rfl | rfl | rfl <;> cases r <;> rfl)
        · rw [if_neg h3]
          have : factor (x :: r) = none := by
            unfold factor
            split <;> simp_all
          rw [this]
          simp

/-- A text of which `strtod` reads nothing, an empty one, or one with white space in front is
refused, also a suffix alone. -/
theorem suffix_refused (D : Doubles) (old : Nat) (arg : Bytes)
    (h : arg = [] ∨ isSpace (arg.headD 0) = true ∨ (D.strtod arg).2 = 0) :
    (parseSuffix D old arg).1 = false ∧ (parseDouble D old arg).1 = false := by
  cases arg with
  | nil => exact ⟨rfl, rfl⟩
  | cons c t =>
    have h0 : (scanDouble D old (c :: t)).2 = 0 := by
      unfold scanDouble
      split
      · rfl
      · next hb =>
        rcases h with h | h | h
        · cases h
        · exact absurd (.inr h) hb
        · exact h
    unfold parseSuffix parseDouble applySuffix
    simp [h0]

/-- A double is accepted exactly if `strtod` reads all of a text that is not empty and has no white
space in front. -/
theorem parse_double (D : Doubles) (old : Nat) (arg : Bytes) (v : Nat) :
    parseDouble D old arg = (true, v) ↔
      arg ≠ [] ∧ isSpace (arg.headD 0) = false ∧ D.strtod arg = (v, arg.length) := by
  by_cases hb : arg = [] ∨ isSpace (arg.headD 0) = true
  · have : (parseDouble D old arg).1 = false := (suffix_refused D old arg (by
      rcases hb with h | h
      · exact .inl h
      · exact .inr (.inl h))).2
    constructor
    · intro h; rw [h] at this; cases this
    · rintro ⟨h1, h2, _⟩
      rcases hb with h | h
      · exact absurd h h1
      · rw [h2] at h; cases h
  · have hne : arg ≠ [] := fun e => hb (.inl e)
    have hsp : isSpace (arg.headD 0) = false := Bool.eq_false_iff.2 fun e => hb (.inr e)
    cases hD : D.strtod arg with
    | mk d k =>
    have hs : scanDouble D old arg = (d, k) := by unfold scanDouble; rw [if_neg hb, hD]
    unfold parseDouble
    simp only [hs, hne, hsp, ne_eq, not_false_eq_true, decide_true, Bool.true_and, true_and,
      Prod.mk.injEq, decide_eq_true_eq]
    exact ⟨fun ⟨a, b⟩ => ⟨b, a⟩, fun ⟨a, b⟩ => ⟨b, a⟩⟩

/-- Whole numbers for doubles. -/
def whole : Doubles := ⟨fun s => ((strtoul s).1, (strtoul s).2), (· * ·)⟩

/-- 20M, 3k, 1kk, K. -/
example : parseSuffix whole 0 [50, 48, 77] = (true, 20000000) ∧ parseSuffix whole 0 [51, 107] = (true, 3000) ∧
    (parseSuffix whole 0 [49, 107, 107]).1 = false ∧ (parseSuffix whole 0 [75]).1 = false ∧
    parseSuffix whole 0 [55] = (true, 7) ∧ parseDouble whole 0 [55] = (true, 7) ∧
    (whole.strtod [50, 48, 77]).2 = [50, 48].length := by decide +kernel

end Verif.Props.C75
