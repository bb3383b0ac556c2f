import Verif.JsonNum.Model
import Verif.Json.Number

/-!
# Plain Json values: what the bytes stand for
-/
namespace Verif.JsonNum
open Verif.Json (Bytes digits decimal isDigit digits_all digits_head digits_small digits_big)

/-- Json values without their contents: arrays and objects are known by their block. -/
inductive Value where
  | null
  | str (s : Bytes)
  | arr (b : Option Nat)
  | obj (b : Option Nat)
  | int (i : Int)
  | uint (n : Nat)
  | dbl (w : Nat)
  | bool (b : Bool)

/-- The bytes of a `Json` stand for a value. -/
inductive Stands (m : Mem) : Rep → Value → Prop where
  | null : Stands m ⟨0, 0, 0⟩ .null
  | str (x len typ : _) (hx : x ≠ 0) (ht : typ ≤ 0) (hl : 2 ^ 31 > -typ) (h0 : 0 ≤ len)
      (hd : len.toNat ≤ (m.data x).length) (hs : m.size x = none) : Stands m ⟨x, len, typ⟩ (.str ((m.data x).take len.toNat))
  | arr0 (len) : Stands m ⟨0, len, 1⟩ (.arr none)
  | arr (a n len) (ha : a ≠ 0) (hn : m.size a = some n) : Stands m ⟨a, len, 1⟩ (.arr (some a))
  | obj0 (len) : Stands m ⟨0, len, 2⟩ (.obj none)
  | obj (a n len) (ha : a ≠ 0) (hn : m.size a = some n) : Stands m ⟨a, len, 2⟩ (.obj (some a))
  | int (i len) (h1 : -2 ^ 63 ≤ i) (h2 : i < 2 ^ 63) : Stands m ⟨u64 i, len, 3⟩ (.int i)
  | uint (n len) (h : n < 2 ^ 64) : Stands m ⟨n, len, 4⟩ (.uint n)
  | dbl (w len) (h : w < 2 ^ 64) : Stands m ⟨w, len, 5⟩ (.dbl w)
  | bool (b len) : Stands m ⟨b.toNat, len, 6⟩ (.bool b)

/-! ## Words -/

theorem i64_u64 {i : Int} (h1 : -2 ^ 63 ≤ i) (h2 : i < 2 ^ 63) : i64 (u64 i) = i := by
  unfold i64 u64; split <;> omega

theorem u64_lt (i : Int) : u64 i < 2 ^ 64 := by unfold u64; omega

theorem u64_inj {i j : Int} (h1 : -2 ^ 63 ≤ i) (h2 : i < 2 ^ 63) (h3 : -2 ^ 63 ≤ j) (h4 : j < 2 ^ 63) :
    u64 i = u64 j ↔ i = j := by
  unfold u64; omega

theorem u64_add (i t : Int) : u64 ((u64 i : Int) + t) = u64 (i + t) := by unfold u64; omega

theorem u64_sub (i t : Int) : u64 ((u64 i : Int) - t) = u64 (i - t) := by unfold u64; omega

theorem u64_neg (i : Int) : u64 (-(u64 i : Int)) = u64 (-i) := by unfold u64; omega

theorem isInt_iff (r : Rep) (h1 : -2 ^ 31 < r.typ) (h2 : r.typ ≤ 6) : isInt r = true ↔ r.typ = 3 ∨ r.typ = 4 := by
  unfold isInt u32; simp only [decide_eq_true_eq]; omega

theorem isNumber_iff (r : Rep) (h1 : -2 ^ 31 < r.typ) (h2 : r.typ ≤ 6) :
    isNumber r = true ↔ r.typ = 3 ∨ r.typ = 4 ∨ r.typ = 5 := by
  unfold isNumber u32; simp only [decide_eq_true_eq]; omega

/-! ## Numbers in strings -/

/-- The value of decimal digits. -/
def val (v : Nat) (bs : Bytes) : Nat := bs.foldl (fun v b => v * 10 + (b - 48)) v

theorem digitVal_dec {b : Nat} (h : isDigit b = true) : digitVal 10 b = some (b - 48) := by
  simp only [isDigit, decide_eq_true_eq] at h
  have h' : isDigit b = true := by simp [isDigit, h]
  simp only [digitVal, h', if_true]
  rw [if_pos (by omega)]

theorem readDigits_dec : ∀ (bs : Bytes) (v k : Nat), (∀ b ∈ bs, isDigit b = true) →
    readDigits 10 v k bs = (val v bs, k + bs.length)
  | [], v, k, _ => rfl
  | b :: bs, v, k, h => by
    simp only [readDigits, digitVal_dec (h b (by simp)), val, List.foldl_cons]
    rw [readDigits_dec bs _ _ (fun c hc => h c (by simp [hc]))]
    simp only [val, List.length_cons]; congr 1; omega

theorem val_append (v : Nat) (as bs : Bytes) : val v (as ++ bs) = val (val v as) bs := by
  simp [val, List.foldl_append]

theorem val_digits (n : Nat) : val 0 (digits n) = n := by
  induction n using Nat.strongRecOn with
  | ind n ih =>
    by_cases h : n < 10
    · rw [digits_small h]; simp [val]
    · rw [digits_big (by omega), val_append, ih (n / 10) (by omega)]; simp [val]; omega

theorem magnitude_digits (n : Nat) : magnitude (digits n) = (n, (digits n).length) := by
  have h10 : readDigits 10 0 0 (digits n) = (n, (digits n).length) := by
    rw [readDigits_dec _ _ _ (digits_all n), val_digits]; simp
  obtain ⟨d, ds, he, h0, hp, _⟩ := digits_head n
  unfold magnitude
  split
  · rename_i b bs heq
    rw [he] at heq
    simp only [List.cons.injEq] at heq
    rcases Nat.eq_zero_or_pos n with hz | hz
    · have := (h0 hz).2; simp [this] at heq
    · have := hp hz; omega
  · exact h10

theorem digits_ne (n : Nat) : (digits n).length ≠ 0 := by
  obtain ⟨d, ds, he, _⟩ := digits_head n
  simp [he]

theorem digit_head_facts (n : Nat) : ∃ d ds, digits n = d :: ds ∧ isSpace d = false ∧ d ≠ 45 ∧ d ≠ 43 := by
  obtain ⟨d, ds, he, _⟩ := digits_head n
  have := digits_all n d (by simp [he])
  simp only [isDigit, decide_eq_true_eq] at this
  exact ⟨d, ds, he, by simp [isSpace]; omega, by omega, by omega⟩

theorem number_digits (n : Nat) : number (digits n) = (false, n, (digits n).length) := by
  obtain ⟨d, ds, he, hs, h45, h43⟩ := digit_head_facts n
  have hm := magnitude_digits n
  have hl := digits_ne n
  have hsp : ((digits n).takeWhile isSpace).length = 0 := by rw [he]; simp [hs]
  unfold number
  simp only [hsp, List.drop_zero]
  split
  · rename_i t heq; rw [he] at heq; simp at heq; omega
  · rename_i t heq; rw [he] at heq; simp at heq; omega
  · simp [hm, hl]

theorem number_minus (n : Nat) : number (45 :: digits n) = (true, n, (digits n).length + 1) := by
  have hm := magnitude_digits n
  have hl := digits_ne n
  have hsp : ((45 :: digits n).takeWhile isSpace).length = 0 := by simp [isSpace]
  unfold number
  simp only [hsp, List.drop_zero]
  simp [hm, hl, Nat.add_comm]

theorem number_decimal (i : Int) :
    number (decimal i) = (decide (i < 0), i.natAbs, (decimal i).length) := by
  cases i with
  | ofNat n => simp only [decimal]; rw [number_digits]; simp
  | negSucc n => simp only [decimal]; rw [number_minus]; simp [Int.negSucc_lt_zero]

theorem cstr_decimal (i : Int) : cstr (decimal i) = decimal i := by
  have hd : ∀ n, ∀ b ∈ digits n, b ≠ 0 := by
    intro n b hb
    have := digits_all n b hb
    simp only [isDigit, decide_eq_true_eq] at this
    omega
  unfold cstr
  have hall : ∀ (l : Bytes), (∀ b ∈ l, decide (b ≠ 0) = true) → l.takeWhile (· ≠ 0) = l := by
    intro l hl
    induction l with
    | nil => rfl
    | cons c cs ih =>
      rw [List.takeWhile_cons, if_pos (hl c (by simp)), ih (fun b hb => hl b (by simp [hb]))]
  apply hall
  intro b hb
  simp only [decide_eq_true_eq]
  cases i with
  | ofNat n => exact hd n b hb
  | negSucc n =>
    simp only [decimal, List.mem_cons] at hb
    rcases hb with rfl | hb
    · decide
    · exact hd _ b hb

/-- White space in front is skipped. -/
theorem number_spaces (sp s : Bytes) (hsp : ∀ b ∈ sp, isSpace b = true) (hs : ∀ b, s.head? = some b → isSpace b = false)
    (k : Nat) (hk : k ≠ 0) (neg : Bool) (v : Nat) (h : number s = (neg, v, k)) :
    number (sp ++ s) = (neg, v, sp.length + k) := by
  have e0 : (s.takeWhile isSpace).length = 0 := by
    cases s with
    | nil => rfl
    | cons b bs => simp [hs b rfl]
  have e1 : ((sp ++ s).takeWhile isSpace).length = sp.length := by
    induction sp with
    | nil => simpa using e0
    | cons c cs ih =>
      simp only [List.cons_append, List.takeWhile_cons, hsp c (by simp), if_true, List.length_cons]
      rw [ih (fun b hb => hsp b (by simp [hb]))]
  have e2 : (sp ++ s).drop sp.length = s := by simp
  unfold number at h ⊢
  simp only [e1, e2]
  simp only [e0, List.drop_zero] at h
  split at h
  all_goals
    simp only [Prod.mk.injEq] at h ⊢
    obtain ⟨h1, h2, h3⟩ := h
    refine ⟨h1, h2, ?_⟩
    split at h3
    · omega
    · rename_i hne; rw [if_neg hne]; omega

/-- The digit with a value below 16, in lower case. -/
def hexChar (d : Nat) : Nat := if d < 10 then 48 + d else 87 + d

theorem digitVal_hexChar {base d : Nat} (hd : d < base) (hb : base ≤ 16) : digitVal base (hexChar d) = some d := by
  unfold digitVal hexChar
  by_cases h : d < 10
  · have : isDigit (48 + d) = true := by simp [isDigit]; omega
    simp [h, this, hd]
  · have h1 : isDigit (87 + d) = false := by simp [isDigit]; omega
    have h2 : 97 ≤ 87 + d ∧ 87 + d ≤ 122 := by omega
    simp only [h, if_false, h1, Bool.false_eq_true, h2, and_self, if_true]
    rw [if_pos (by omega)]
    congr 1; omega

theorem readDigits_base (base : Nat) (hb : base ≤ 16) : ∀ (ds : List Nat) (v k : Nat), (∀ d ∈ ds, d < base) →
    readDigits base v k (ds.map hexChar) = (ds.foldl (fun v d => v * base + d) v, k + ds.length)
  | [], v, k, _ => rfl
  | d :: ds, v, k, h => by
    simp only [List.map_cons, readDigits, digitVal_hexChar (h d (by simp)) hb, List.foldl_cons, List.length_cons]
    rw [readDigits_base base hb ds _ _ (fun c hc => h c (by simp [hc]))]
    congr 1; omega

/-! ## Keys -/

theorem keyLoop_eq : ∀ (bs : Bytes) (x : Nat), keyLoop x bs =
    if bs.all isDigit then some (if bs = [] then x else val x bs % 2 ^ 32) else none
  | [], x => by simp [keyLoop]
  | b :: bs, x => by
    by_cases hb : isDigit b = true
    · simp only [keyLoop, hb, if_true, List.all_cons, Bool.true_and]
      rw [keyLoop_eq bs]
      by_cases ha : bs.all isDigit = true
      · simp only [ha, if_true]
        have hv : ∀ (bs : Bytes) (x y : Nat), x % 2 ^ 32 = y % 2 ^ 32 → val x bs % 2 ^ 32 = val y bs % 2 ^ 32 := by
          intro bs
          induction bs with
          | nil => intro x y h; exact h
          | cons c cs ih => intro x y h; exact ih _ _ (by show (x * 10 + (c - 48)) % _ = (y * 10 + (c - 48)) % _; omega)
        by_cases he : bs = []
        · subst he; simp [val, Nat.mul_comm]
        · simp only [he, if_false]
          rw [hv bs _ (x * 10 + (b - 48)) (by omega)]
          simp [val]
      · simp [ha]
    · simp [keyLoop, hb]

/-- Texts of digits without a leading zero are the digits of their value. -/
theorem digits_val : ∀ (k : Nat) (s : Bytes), s.length ≤ k → s ≠ [] → (∀ b ∈ s, isDigit b = true) →
    (s.head? = some 48 → s.length = 1) → digits (val 0 s) = s := by
  intro k
  induction k with
  | zero => intro s hl hne; cases s <;> simp_all
  | succ k ih =>
    intro s hl hne hd h0
    obtain ⟨t, c, rfl⟩ : ∃ t c, s = t ++ [c] := ⟨s.dropLast, s.getLast hne, (List.dropLast_append_getLast hne).symm⟩
    have hc := hd c (by simp)
    simp only [isDigit, decide_eq_true_eq] at hc
    rw [val_append]
    by_cases ht : t = []
    · subst ht
      simp only [val, List.foldl_nil, List.foldl_cons, Nat.zero_mul, Nat.zero_add, List.nil_append]
      rw [digits_small (by omega)]
      congr 1; omega
    · have hh : (t ++ [c]).head? = t.head? := by cases t <;> simp_all
      have hpos : t.length ≠ 0 := by simpa using ht
      have h0' : t.head? ≠ some 48 := by
        intro h
        have := h0 (hh ▸ h)
        rw [List.length_append] at this
        simp only [List.length_cons, List.length_nil] at this; omega
      have ih' := ih t (by rw [List.length_append] at hl; simp only [List.length_cons, List.length_nil] at hl; omega) ht (fun b hb => hd b (by simp [hb])) (fun h => absurd h h0')
      have hv : val 0 t ≠ 0 := by
        intro hz
        rw [hz, digits_small (by omega)] at ih'
        rw [← ih'] at h0'
        simp at h0'
      have : val (val 0 t) [c] = val 0 t * 10 + (c - 48) := rfl
      rw [this, digits_big (by omega)]
      have e1 : (val 0 t * 10 + (c - 48)) / 10 = val 0 t := by omega
      have e2 : 48 + (val 0 t * 10 + (c - 48)) % 10 = c := by omega
      rw [e1, e2, ih']

theorem key_digits (n : Nat) : stringToIntKey (digits n) = some (n % 2 ^ 32) := by
  obtain ⟨d, ds, he, h0, hp, _⟩ := digits_head n
  have hall := digits_all n
  have hv := val_digits n
  rw [he] at hall hv ⊢
  have hd := hall d (by simp)
  have hd' := hd
  simp only [isDigit, decide_eq_true_eq] at hd'
  have hcond : ¬ (isDigit d = false ∨ (d = 48 ∧ ds ≠ [])) := by
    rintro (h | ⟨h, hne⟩)
    · rw [hd] at h; exact absurd h (by simp)
    · rcases Nat.eq_zero_or_pos n with hz | hz
      · exact hne (h0 hz).2
      · have := hp hz; omega
  have hds : ds.all isDigit = true := by
    rw [List.all_eq_true]; exact fun b hb => hall b (by simp [hb])
  simp only [stringToIntKey, hcond, if_false]
  rw [keyLoop_eq, if_pos hds]
  have hv' : val (d - 48) ds = n := by simpa [val] using hv
  by_cases hnil : ds = []
  · subst hnil
    simp only [if_true]
    have : d - 48 = n := by simpa [val] using hv'
    congr 1; omega
  · simp only [hnil, if_false, hv']

theorem key_iff (s : Bytes) (x : Nat) : stringToIntKey s = some x ↔ ∃ n, s = digits n ∧ x = n % 2 ^ 32 := by
  constructor
  · intro h
    cases s with
    | nil => simp [stringToIntKey] at h
    | cons b bs =>
      simp only [stringToIntKey] at h
      split at h
      · simp at h
      · rename_i hc
        have hb : isDigit b = true := by
          cases hbb : isDigit b with
          | true => rfl
          | false => exact absurd (Or.inl hbb) hc
        rw [keyLoop_eq] at h
        split at h
        · rename_i ha
          rw [List.all_eq_true] at ha
          have hs : digits (val 0 (b :: bs)) = b :: bs := by
            apply digits_val (b :: bs).length _ (Nat.le_refl _) (by simp)
            · intro c hcm
              simp only [List.mem_cons] at hcm
              rcases hcm with rfl | hcm
              · exact hb
              · exact ha c hcm
            · intro h48
              simp only [List.head?_cons, Option.some.injEq] at h48
              by_cases hne : bs = []
              · simp [hne]
              · exact absurd (Or.inr ⟨h48, hne⟩) hc
          refine ⟨_, hs.symm, ?_⟩
          have := key_digits (val 0 (b :: bs))
          rw [hs] at this
          simp only [stringToIntKey, hc, if_false] at this
          rw [keyLoop_eq, if_pos (by rw [List.all_eq_true]; exact ha)] at this
          simp only [Option.some.injEq] at this h
          omega
        · simp at h
  · rintro ⟨n, rfl, rfl⟩
    exact key_digits n

end Verif.JsonNum
