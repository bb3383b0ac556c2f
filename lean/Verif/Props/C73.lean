import Verif.JsonNum.Facts

/-!
# C73: Tests, conversions, comparison and arithmetic of plain Json values
-/
namespace Verif.Props.C73
open Verif.JsonNum
open Verif.Json (Bytes digits decimal)

variable {F : Floats} {m : Mem} {r : Rep} {v : Value}

theorem typ_range (h : Stands m r v) : -2 ^ 31 < r.typ ∧ r.typ ≤ 6 := by
  cases h <;> simp only [] <;> omega

/-- Elements of an array or object: those of its block, none without. -/
def elems (m : Mem) : Option Nat → Nat
  | none => 0
  | some a => (m.size a).getD 0

/-- **Tests.**  The tests of the type tell what kind of value it is. -/
theorem kinds (h : Stands m r v) :
    (isNull r = true ↔ v = .null) ∧
    (isInt r = true ↔ (∃ i, v = .int i) ∨ ∃ n, v = .uint n) ∧
    (isUnsigned r = true ↔ ∃ n, v = .uint n) ∧
    (isNonnegint r = true ↔ (∃ i, v = .int i ∧ 0 ≤ i) ∨ ∃ n, v = .uint n) ∧
    (isDouble r = true ↔ ∃ w, v = .dbl w) ∧
    (isNumber r = true ↔ (∃ i, v = .int i) ∨ (∃ n, v = .uint n) ∨ ∃ w, v = .dbl w) ∧
    (isBool r = true ↔ ∃ b, v = .bool b) ∧
    (isString r = true ↔ ∃ s, v = .str s) ∧
    (isArray r = true ↔ ∃ b, v = .arr b) ∧
    (isObject r = true ↔ ∃ b, v = .obj b) ∧
    (isPrimitive r = true ↔ v ≠ .null ∧ (∀ b, v ≠ .arr b) ∧ ∀ b, v ≠ .obj b) := by
  have hr := typ_range h
  rw [isInt_iff r hr.1 hr.2, isNumber_iff r hr.1 hr.2]
  cases h with
  | str x len typ hx ht hl h0 hd =>
    have h2 : ¬ typ = 4 := by omega
    have h3 : ¬ typ = 3 := by omega
    have h5 : ¬ typ = 5 := by omega
    have h6 : ¬ typ = 6 := by omega
    have h1 : ¬ typ = 1 := by omega
    have h7 : ¬ typ = 2 := by omega
    simp_all [isNull, isUnsigned, isNonnegint, isDouble, isBool, isString, isArray, isObject, isPrimitive]
  | int i len h1 h2 => 
    simp [isNull, isUnsigned, isNonnegint, isDouble, isBool, isString, isArray, isObject, isPrimitive,
      i64_u64 h1 h2]
  | _ =>
    simp_all [isNull, isUnsigned, isNonnegint, isDouble, isBool, isString, isArray, isObject, isPrimitive]

/-- The strings whose bytes look like those of a null with a pointer: strings without a block
that counts references.  `Json("")` makes one (/repo/string.cc:704-706). -/
def bare (r : Rep) : Prop := r.typ = 0 ∧ r.x ≠ 0

/-- What `empty()` should say (/repo/json.hh:1745-1746). -/
def isEmpty (m : Mem) : Value → Bool
  | .null => true
  | .arr b => decide (elems m b = 0)
  | .obj b => decide (elems m b = 0)
  | _ => false

/-- **Emptiness.**  `empty()` is right but for strings without a block, whose characters it
takes for an array or object. -/
theorem empty_iff (h : Stands m r v) :
    (¬ bare r → empty m r = some (isEmpty m v)) ∧
    (bare r → (∃ s, v = .str s) ∧ empty m r = none ∧ size m r = none) := by
  cases h with
  | str x len typ hx ht hl h0 hd hs =>
    refine ⟨fun hb => ?_, fun hb => ?_⟩
    · have : typ ≠ 0 := fun h => hb ⟨h, hx⟩
      simp only [empty, isEmpty]
      rw [if_neg]
      unfold u32; omega
    · have h0 : typ = 0 := hb.1
      subst h0
      simp [empty, size, u32, hx, hs]
  | _ => simp_all [bare, empty, isEmpty, elems, u32]

/-- `Json("")`: the text is empty, there is no block. -/
theorem empty_string (a : Nat) (ha : a ≠ 0) (hs : m.size a = none) :
    Stands m ⟨a, 0, 0⟩ (.str []) ∧ truthy ⟨a, 0, 0⟩ = true ∧ toB m ⟨a, 0, 0⟩ = some false ∧
      empty m ⟨a, 0, 0⟩ = none := by
  refine ⟨?_, ?_, ?_, ?_⟩
  · exact Stands.str a 0 0 ha (by omega) (by omega) (by omega) (by simp) hs
  · simp [truthy, ha]
  · simp [toB, isBool]
  · simp [empty, u32, ha, hs]

/-- What `to_b()` says (/repo/json.hh:1950-1955). -/
def asBool (m : Mem) : Value → Bool
  | .null => false
  | .str s => decide (s ≠ [])
  | .arr b => decide (elems m b ≠ 0)
  | .obj b => decide (elems m b ≠ 0)
  | .int i => decide (i ≠ 0)
  | .uint n => decide (n ≠ 0)
  | .dbl w => decide (w ≠ 0 ∧ w ≠ 2 ^ 63)
  | .bool b => b

/-- **Booleans.**  `to_b` is what its description says. -/
theorem to_b (h : Stands m r v) : toB m r = some (asBool m v) := by
  cases h with
  | str x len typ hx ht hl h0 hd hs =>
    have h1 : ¬ typ = 6 := by omega
    have h2 : ¬ (typ = 1 ∨ typ = 2) := by omega
    have h3 : ¬ (typ = 3 ∨ typ = 4) := by omega
    have h4 : ¬ typ = 5 := by omega
    simp only [toB, isBool, h1, h2, h3, h4, decide_false, Bool.false_eq_true, if_false, asBool]
    congr 1
    rw [decide_eq_decide]
    constructor
    · intro hne he
      have := congrArg List.length he
      simp at this
      have : len.toNat = 0 := by
        rcases this with h | h
        · omega
        · rw [h] at hd; simpa using hd
      omega
    · rintro hne rfl; simp at hne
  | int i len h1 h2 => simp [toB, isBool, asBool, i64_u64 h1 h2]
  | uint n len hn =>
    simp only [toB, isBool, asBool, i64]
    simp
    split <;> omega
  | dbl w len hw =>
    have : (w % 2 ^ 63 ≠ 0) ↔ (w ≠ 0 ∧ w ≠ 2 ^ 63) := by omega
    simp [toB, isBool, asBool, nonzero, ← this]
  | bool b len => cases b <;> simp [toB, isBool, asBool]
  | _ => simp_all [toB, isBool, asBool, empty, u32, elems]

/-- **Truth.**  `if (j)` takes arrays and objects, the double −0 and strings without a block
for true even if they are empty or zero; otherwise it agrees with `to_b`. -/
theorem truth (h : Stands m r v) : truthy r = true ↔
    asBool m v = true ∨ (∃ b, v = .arr b ∨ v = .obj b) ∨ v = .dbl (2 ^ 63) ∨ bare r := by
  have hb := to_b h
  cases h with
  | str x len typ hx ht hl h0 hd hs =>
    have h1 : ¬ typ = 6 := by omega
    have h2 : ¬ (typ = 1 ∨ typ = 2) := by omega
    have h3 : ¬ (typ = 3 ∨ typ = 4) := by omega
    have h4 : ¬ typ = 5 := by omega
    simp only [toB, isBool, h1, h2, h3, h4, decide_false, Bool.false_eq_true, if_false,
      Option.some.injEq] at hb
    rw [← hb]
    simp [truthy, hx, bare]
    omega
  | int i len h1 h2 => 
    simp [truthy, asBool, bare, u32, u64]; omega
  | uint n len hn => simp [truthy, asBool, bare, u32]
  | dbl w len hw => simp [truthy, asBool, bare, u32]; omega
  | bool b len => cases b <;> simp [truthy, asBool, bare, u32]
  | _ => simp_all [truthy, asBool, bare, u32]

/-- What `to_i()` says (/repo/json.hh:1765-1770), but for strings and doubles. -/
def asInt (m : Mem) : Value → Option Int
  | .null => some 0
  | .arr b => some (elems m b)
  | .obj b => some (elems m b)
  | .int i => some i
  | .uint n => some n
  | .bool b => some b.toNat
  | _ => none

/-- **Integers.**  `to_i` and `to_u` give the value of what is not a string or double if the
type can hold it, and otherwise the value modulo 2^64. -/
theorem to_i (h : Stands m r v) (z : Int) (hz : asInt m v = some z) (hs : z < 2 ^ 64) :
    (∃ i, toI F m r = some i ∧ (i - z) % 2 ^ 64 = 0 ∧ -2 ^ 63 ≤ i ∧ (z < 2 ^ 63 → i = z)) ∧
    (∃ n, toU F m r = some n ∧ ((n : Int) - z) % 2 ^ 64 = 0 ∧ (0 ≤ z → (n : Int) = z)) := by
  have hr := typ_range h
  have hi := isInt_iff r hr.1 hr.2
  cases h with
  | str => simp [asInt] at hz
  | dbl => simp [asInt] at hz
  | int i len h1 h2 =>
    simp only [asInt, Option.some.injEq] at hz; subst hz
    have : isInt ⟨u64 i, len, 3⟩ = true := hi.2 (Or.inl rfl)
    simp only [toI, toU, this, if_true, Option.some.injEq, i64_u64 h1 h2]
    refine ⟨⟨_, rfl, by omega, by omega, by omega⟩, ⟨_, rfl, ?_, ?_⟩⟩ <;> unfold u64 <;> omega
  | uint n len hn =>
    simp only [asInt, Option.some.injEq] at hz; subst hz
    have : isInt ⟨n, len, 4⟩ = true := hi.2 (Or.inr rfl)
    simp only [toI, toU, this, if_true, Option.some.injEq]
    refine ⟨⟨_, rfl, ?_, ?_, ?_⟩, ⟨_, rfl, by omega, by omega⟩⟩ <;> unfold i64 <;> split <;> omega
  | null =>
    simp only [asInt, Option.some.injEq] at hz; subst hz
    simp [toI, toU, isInt, u32]
  | bool b len =>
    simp only [asInt, Option.some.injEq] at hz; subst hz
    cases b <;> simp [toI, toU, isInt, u32, i64]
  | arr0 len =>
    simp only [asInt, Option.some.injEq] at hz; subst hz
    simp [toI, toU, isInt, u32, size, elems]
  | obj0 len =>
    simp only [asInt, Option.some.injEq] at hz; subst hz
    simp [toI, toU, isInt, u32, size, elems]
  | arr a n len ha hn =>
    simp only [asInt, Option.some.injEq, elems, hn, Option.getD_some] at hz; subst hz
    simp [toI, toU, isInt, u32, size, ha, hn]
  | obj a n len ha hn =>
    simp only [asInt, Option.some.injEq, elems, hn, Option.getD_some] at hz; subst hz
    simp [toI, toU, isInt, u32, size, ha, hn]

theorem str_parts {s : Bytes} (h : Stands m r (.str s)) :
    r.x ≠ 0 ∧ r.typ ≤ 0 ∧ -2 ^ 31 < r.typ ∧ text m r = s ∧ r.len = s.length := by
  cases h with
  | str x len typ hx ht hl h0 hd hs =>
    refine ⟨hx, ht, by simp only; omega, rfl, ?_⟩
    simp only [List.length_take]; omega

/-- **Numbers in strings.**  A string that is a number in decimal gives that number, or the
nearest one that the type can hold; `to_u` gives the number modulo 2^64 as long as its digits
are below 2^64. -/
theorem to_i_decimal (z : Int) (h : Stands m r (.str (decimal z))) :
    toI F m r = some (max (min z (2 ^ 63 - 1)) (-2 ^ 63)) ∧
    toU F m r = some (if 2 ^ 64 ≤ z.natAbs then 2 ^ 64 - 1 else (z % 2 ^ 64).toNat) := by
  obtain ⟨hx, ht, hl, htx, hlen⟩ := str_parts h
  have hi : isInt r = false := by
    cases he : isInt r with
    | false => rfl
    | true => have := (isInt_iff r hl (by omega)).1 he; omega
  have h1 : ¬ (r.typ = 1 ∨ r.typ = 2) := by omega
  have h6 : ¬ r.typ = 6 := by omega
  have h5 : ¬ r.typ = 5 := by omega
  constructor
  · simp only [toI, hi, Bool.false_eq_true, h1, h6, h5, hx, if_false, htx, cstr_decimal, strtol,
      number_decimal, hlen, if_true, Option.some.injEq]
    by_cases hz : z < 0 <;> simp [hz] <;> omega
  · simp only [toU, hi, Bool.false_eq_true, h1, h6, h5, hx, if_false, htx, cstr_decimal, strtoul,
      number_decimal, hlen, if_true, Option.some.injEq]
    by_cases hb : 2 ^ 64 ≤ z.natAbs
    · rw [if_pos hb, if_pos hb]
    · rw [if_neg hb, if_neg hb]
      by_cases hz : z < 0 <;> simp only [hz, decide_true, decide_false, if_true, Bool.false_eq_true,
        if_false, u64] <;> omega

/-- How strings are converted to integers. -/
theorem toI_str (s : Bytes) (h : Stands m r (.str s)) : toI F m r =
    if (strtol (cstr s)).2 = s.length then some (strtol (cstr s)).1
      else castI64 F (F.strtod (cstr s)) := by
  obtain ⟨hx, ht, hl, htx, hlen⟩ := str_parts h
  have hi : isInt r = false := by
    cases he : isInt r with
    | false => rfl
    | true => have := (isInt_iff r hl (by omega)).1 he; omega
  have h1 : ¬ (r.typ = 1 ∨ r.typ = 2) := by omega
  have h6 : ¬ r.typ = 6 := by omega
  have h5 : ¬ r.typ = 5 := by omega
  simp only [toI, hi, Bool.false_eq_true, h1, h6, h5, hx, if_false, htx, hlen]
  by_cases hc : (strtol (cstr s)).2 = s.length
  · rw [if_pos hc, if_pos (by omega)]
  · rw [if_neg hc, if_neg (by omega)]

theorem mem_cstr {b : Nat} : ∀ (s : Bytes), b ∈ cstr s → b ≠ 0
  | [], h => by simp [cstr] at h
  | c :: cs, h => by
    unfold cstr at h
    rw [List.takeWhile_cons] at h
    split at h
    · rename_i hc
      rcases List.mem_cons.1 h with rfl | h
      · simpa using hc
      · exact mem_cstr cs h
    · simp at h

theorem cstr_append (s t : Bytes) (hs : cstr s = s) : cstr (s ++ 0 :: t) = s ∧
    ((∀ b ∈ t, b ≠ 0) → cstr (s ++ t) = s ++ t) := by
  have hall : ∀ b ∈ s, b ≠ 0 := by
    intro b hb
    rw [← hs] at hb
    exact mem_cstr _ hb
  constructor
  · unfold cstr
    rw [List.takeWhile_append_of_pos (by simpa using hall)]
    simp
  · intro ht
    unfold cstr
    rw [List.takeWhile_append_of_pos (by simpa using hall)]
    congr 1
    induction t with
    | nil => rfl
    | cons c cs ih =>
      rw [List.takeWhile_cons, if_pos (by simpa using ht c (by simp)), ih (fun b hb => ht b (by simp [hb]))]

/-- Blanks, tabs, line ends, vertical tabs, form feeds and carriage returns are white space. -/
theorem space_iff (b : Nat) : isSpace b = true ↔ b ∈ [32, 9, 10, 11, 12, 13] := by
  simp only [isSpace, Bool.or_eq_true, Bool.and_eq_true, decide_eq_true_eq, List.mem_cons, List.not_mem_nil, or_false]
  omega

/-- White space before a number makes no difference. -/
theorem to_i_spaces (z : Int) (sp : Bytes) (hsp : ∀ b ∈ sp, b ∈ [32, 9, 10, 11, 12, 13])
    (h : Stands m r (.str (sp ++ decimal z))) :
    toI F m r = some (max (min z (2 ^ 63 - 1)) (-2 ^ 63)) := by
  replace hsp : ∀ b ∈ sp, isSpace b = true := fun b hb => (space_iff b).2 (hsp b hb)
  have hc : cstr (sp ++ decimal z) = sp ++ decimal z := by
    have h1 : cstr sp = sp := by
      have := (cstr_append [] sp rfl).2 (fun b hb => by
        have := hsp b hb
        rintro rfl; simp [isSpace] at this)
      simpa using this
    refine (cstr_append sp _ h1).2 ?_
    intro b hb
    have := cstr_decimal z
    rw [← this] at hb
    exact mem_cstr _ hb
  have hhead : ∀ b, (decimal z).head? = some b → isSpace b = false := by
    intro b hb
    cases z with
    | ofNat n =>
      obtain ⟨d, ds, he, hd, _⟩ := digit_head_facts n
      simp only [decimal, he, List.head?_cons, Option.some.injEq] at hb
      exact hb ▸ hd
    | negSucc n =>
      simp only [decimal, List.head?_cons, Option.some.injEq] at hb
      subst hb; rfl
  have hlen : (decimal z).length ≠ 0 := by
    cases z with
    | ofNat n => exact digits_ne n
    | negSucc n => simp [decimal]
  have hn := number_spaces sp _ hsp hhead _ hlen _ _ (number_decimal z)
  rw [toI_str _ h, hc]
  simp only [strtol, hn, List.length_append, if_true, Option.some.injEq]
  by_cases hz : z < 0 <;> simp [hz] <;> omega

/-- A string that starts with 0x is read as hexadecimal, and one that starts with 0 as octal. -/
theorem to_i_bases (ds : List Nat) (hne : ds ≠ []) (h16 : ∀ d ∈ ds, d < 16)
    (h : Stands m r (.str (48 :: 120 :: ds.map hexChar))) (ds8 : List Nat) (hne8 : ds8 ≠ [])
    (h8 : ∀ d ∈ ds8, d < 8) {r' : Rep} (h' : Stands m r' (.str (48 :: ds8.map hexChar))) :
    toI F m r = some (min (ds.foldl (fun v d => v * 16 + d) 0 : Nat) (2 ^ 63 - 1)) ∧
    toI F m r' = some (min (ds8.foldl (fun v d => v * 8 + d) 0 : Nat) (2 ^ 63 - 1)) := by
  have hch : ∀ d, hexChar d ≠ 0 := by intro d; unfold hexChar; split <;> omega
  have hlen : ds.length ≠ 0 := by simpa using hne
  constructor
  · have hc : cstr (48 :: 120 :: ds.map hexChar) = 48 :: 120 :: ds.map hexChar := by
      refine (cstr_append [48, 120] _ rfl).2 ?_
      intro b hb
      obtain ⟨d, _, rfl⟩ := List.mem_map.1 hb
      exact hch d
    have hn : number (48 :: 120 :: ds.map hexChar)
        = (false, ds.foldl (fun v d => v * 16 + d) 0, ds.length + 2) := by
      have : ((48 :: 120 :: ds.map hexChar).takeWhile isSpace).length = 0 := by simp [isSpace]
      unfold number
      simp only [this, List.drop_zero]
      simp [magnitude, readDigits_base 16 (by omega) ds 0 0 h16, hlen]
    rw [toI_str _ h, hc]
    simp [strtol, hn]
    omega
  · have hc : cstr (48 :: ds8.map hexChar) = 48 :: ds8.map hexChar := by
      refine (cstr_append [48] _ rfl).2 ?_
      intro b hb
      obtain ⟨d, _, rfl⟩ := List.mem_map.1 hb
      exact hch d
    have hn : number (48 :: ds8.map hexChar)
        = (false, ds8.foldl (fun v d => v * 8 + d) 0, ds8.length + 1) := by
      have : ((48 :: ds8.map hexChar).takeWhile isSpace).length = 0 := by simp [isSpace]
      have hr := readDigits_base 8 (by omega) (0 :: ds8) 0 0 (by
        intro d hd
        rcases List.mem_cons.1 hd with rfl | hd
        · omega
        · exact h8 d hd)
      simp only [List.map_cons, List.foldl_cons, List.length_cons] at hr
      have e0 : hexChar 0 = 48 := rfl
      rw [e0] at hr
      have hmag : magnitude (48 :: ds8.map hexChar) = (ds8.foldl (fun v d => v * 8 + d) 0, ds8.length + 1) := by
        cases ds8 with
        | nil => exact absurd rfl hne8
        | cons d ds' =>
          have hd := h8 d (by simp)
          have hx : ¬ (hexChar d = 120 ∨ hexChar d = 88) := by unfold hexChar; split <;> omega
          simp only [List.map_cons] at hr ⊢
          simp only [magnitude, hx, if_false, hr]
          simp
      unfold number
      simp only [this, List.drop_zero]
      simp [hmag]
    rw [toI_str _ h', hc]
    simp [strtol, hn]
    omega

/-- A null byte in a string ends the number, and it is then read as a double. -/
theorem to_i_nul (z : Int) (t : Bytes) (h : Stands m r (.str (decimal z ++ 0 :: t))) :
    toI F m r = castI64 F (F.strtod (decimal z)) := by
  rw [toI_str _ h, (cstr_append _ t (cstr_decimal z)).1]
  rw [if_neg]
  simp only [strtol, number_decimal]
  simp

/-- Doubles give their integer part, if the type can hold it. -/
theorem to_i_double (w : Nat) (h : Stands m r (.dbl w)) (t : Int) :
    (toI F m r = some t ↔ F.trunc w = some t ∧ -2 ^ 63 ≤ t ∧ t < 2 ^ 63) ∧
    ∀ n : Nat, (toU F m r = some n ↔ F.trunc w = some (n : Int) ∧ n < 2 ^ 64) := by
  cases h with
  | dbl w len hw =>
    have e1 : toI F m ⟨w, len, 5⟩ = castI64 F w := by simp [toI, isInt, u32]
    have e2 : toU F m ⟨w, len, 5⟩ = castU64 F w := by simp [toU, isInt, u32]
    rw [e1, e2]
    unfold castI64 castU64
    cases F.trunc w with
    | none => simp
    | some q =>
      simp only [Option.some.injEq]
      constructor
      · split <;> simp <;> omega
      · intro n; split <;> simp <;> omega

/-- What `to_s()` says (/repo/json.hh:1993-1998). -/
def asText (F : Floats) : Value → Bytes
  | .null => []
  | .str s => s
  | .arr _ => "[Array]".toList.map Char.toNat
  | .obj _ => "[Object]".toList.map Char.toNat
  | .int i => decimal i
  | .uint n => decimal n
  | .dbl w => F.print w
  | .bool b => (if b then "true" else "false").toList.map Char.toNat

/-- **Strings.**  `to_s` is what its description says. -/
theorem to_s (h : Stands m r v) : toS F m r = asText F v := by
  cases h with
  | str x len typ hx ht hl h0 hd hs => unfold toS; rw [if_pos ⟨ht, hx⟩]; rfl
  | int i len h1 h2 =>
    have : toS F m ⟨u64 i, len, 3⟩ = decimal (i64 (u64 i)) := rfl
    rw [this, i64_u64 h1 h2]; rfl
  | null => rfl
  | arr0 len => rfl
  | obj0 len => rfl
  | arr a n len ha hn => rfl
  | obj a n len ha hn => rfl
  | uint n len hn => rfl
  | dbl w len hw => rfl
  | bool b len => cases b <;> rfl

/-- **Round trip.**  An integer printed by `to_s` is read back by `to_i` and `to_u`. -/
theorem to_s_to_i (h : Stands m r v) {r' : Rep} (h' : Stands m r' (.str (toS F m r))) :
    (∀ i, v = .int i → toI F m r' = some i) ∧ (∀ n, v = .uint n → toU F m r' = some n) := by
  rw [to_s h] at h'
  constructor
  · rintro i rfl
    rw [(to_i_decimal i h').1]
    cases h
    congr 1; omega
  · rintro n rfl
    rw [(to_i_decimal (n : Int) h').2]
    cases h
    rw [if_neg (by omega)]
    congr 1; omega

/-- A string with a leading zero is read as an octal number, but as a decimal number (by
`strtod`) as soon as something follows it. -/
theorem octal (h : Stands m r (.str [48, 49, 48])) {r' : Rep}
    (h' : Stands m r' (.str [48, 49, 48, 32])) :
    toI F m r = some 8 ∧ toI F m r' = castI64 F (F.strtod [48, 49, 48, 32]) := by
  constructor
  · rw [toI_str _ h, if_pos (by decide)]; rfl
  · rw [toI_str _ h', if_neg (by decide)]; rfl

/-- **Extraction.**  `to_i(x)` stores an integer in `x` modulo the type of `x` and returns true:
it stores the value exactly if the type can hold it. -/
theorem to_ref (bits : Nat) (signed : Bool) (hb : bits = 32 ∨ bits = 64) (h : Stands m r v) (z : Int)
    (hz : v = .int z ∨ ∃ n, v = .uint n ∧ z = n) :
    ∃ y, toRef F bits signed r = some (some y) ∧ holds bits signed y ∧ (y - z) % 2 ^ bits = 0 ∧
      (y = z ↔ holds bits signed z) := by
  have hr := typ_range h
  have hi := isInt_iff r hr.1 hr.2
  rcases hz with rfl | ⟨n, rfl, rfl⟩
  · cases h with
    | int i len h1 h2 =>
      have : isInt ⟨u64 z, len, 3⟩ = true := hi.2 (Or.inl rfl)
      simp only [toRef, this, if_true]
      refine ⟨_, rfl, ?_⟩
      rcases hb with rfl | rfl <;> cases signed <;>
        simp only [conv, holds, i64_u64 h1 h2, if_true, Bool.false_eq_true, if_false, true_and,
          false_and] <;> (try unfold u64) <;> (try split) <;> omega
  · cases h with
    | uint n len hn =>
      have : isInt ⟨n, len, 4⟩ = true := hi.2 (Or.inr rfl)
      simp only [toRef, this, if_true]
      refine ⟨_, rfl, ?_⟩
      rcases hb with rfl | rfl <;> cases signed <;>
        simp only [conv, holds, i64, if_true, Bool.false_eq_true, if_false, true_and,
          false_and] <;> (try split) <;> (try split) <;> omega

/-- A double beyond the type of `x` is converted before it is compared, which is undefined
(/repo/json.hh:1796). -/
theorem to_ref_undefined (bits : Nat) (signed : Bool) (w : Nat) (h : Stands m r (.dbl w)) (t : Int)
    (ht : F.trunc w = some t) (hh : ¬ holds bits signed t) : toRef F bits signed r = none := by
  cases h with
  | dbl w len hw => simp [toRef, isInt, u32, isDouble, ht, hh]

/-- **Comparison.**  Values are equal if they are the same null, text or boolean, the same whole
number however it is kept, doubles that compare equal, or arrays or objects with the same block
(or both without). -/
def same (F : Floats) : Value → Value → Prop
  | .null, .null => True
  | .str s, .str t => s = t
  | .arr a, .arr b => a = b
  | .obj a, .obj b => a = b
  | .int i, .int j => i = j
  | .int i, .uint n => i = n
  | .uint n, .int i => i = n
  | .uint n, .uint k => n = k
  | .dbl w, .dbl u => F.eq w u = true
  | .bool b, .bool c => b = c
  | _, _ => False

theorem eq_iff {a b : Rep} {v u : Value} (ha : Stands m a v) (hb : Stands m b u) :
    eq F m a b = true ↔ same F v u := by
  have hra := typ_range ha
  have hia := isInt_iff a hra.1 hra.2
  have hrb := typ_range hb
  have hib := isInt_iff b hrb.1 hrb.2
  unfold eq
  by_cases hne : (a.typ > 0 ∨ b.typ > 0) ∧ a.typ ≠ b.typ
  · rw [if_pos hne]
    simp only [Bool.and_eq_true, decide_eq_true_eq, hia, hib]
    cases ha <;> cases hb <;> simp_all [same] <;> first | omega | skip
    all_goals (unfold u64 i64; constructor <;> intro hh <;> (try split at hh) <;> (try split) <;> omega)
  · rw [if_neg hne]
    cases ha <;> cases hb <;> simp_all [same, u64_inj, text] <;> first | omega | skip
    · rw [if_neg (by omega), if_neg (by omega), if_neg (by omega)]
      exact decide_eq_true_iff
    · rename_i b1 _ b2 _
      cases b1 <;> cases b2 <;> simp

/-- Comparison is an equivalence if comparison of doubles is; two arrays with the same elements
in different blocks are not equal, nor are an empty array with a block and one without, nor the
integer and the double of the same value. -/
theorem eq_equivalence (hF : ∀ w, F.eq w w = true) (hS : ∀ w u, F.eq w u = true → F.eq u w = true)
    (hT : ∀ w u t, F.eq w u = true → F.eq u t = true → F.eq w t = true) :
    Equivalence (same F) := by
  refine ⟨?_, ?_, ?_⟩
  · intro v; cases v <;> simp [same, hF]
  · intro v u; cases v <;> cases u <;> simp_all [same]
  · intro v u t
    cases v <;> cases u <;> simp [same] <;> cases t <;> simp [same] <;> first | omega | skip
    all_goals first | exact hT _ _ _ | (intros; simp_all)

theorem not_structural : ∃ (m : Mem) (a b c d : Rep),
    Stands m a (.arr (some 8)) ∧ Stands m b (.arr (some 16)) ∧ Stands m c (.arr none) ∧
    m.size 8 = m.size 16 ∧ elems m (some 8) = 0 ∧
    eq F m a b = false ∧ eq F m a c = false ∧
    Stands m d (.int 1) ∧ ∀ w e, Stands m e (.dbl w) → eq F m d e = false := by
  refine ⟨⟨fun _ => [], fun _ => some 0⟩, ⟨8, 0, 1⟩, ⟨16, 0, 1⟩, ⟨0, 0, 1⟩, mkInt 0 1,
    .arr 8 0 0 (by omega) rfl, .arr 16 0 0 (by omega) rfl, .arr0 0, rfl, rfl, rfl, rfl,
    .int 1 0 (by omega) (by omega), ?_⟩
  intro w e he
  have := @eq_iff F _ _ _ _ _ (Stands.int (m := ⟨fun _ => [], fun _ => some 0⟩) 1 0 (by omega) (by omega)) he
  cases hh : eq F ⟨fun _ => [], fun _ => some 0⟩ (mkInt 0 1) e with
  | false => rfl
  | true => exact absurd (this.1 hh) (by simp [same])

/-- The whole number that arithmetic starts from: null counts as 0. -/
def whole : Value → Option Int
  | .null => some 0
  | .int i => some i
  | _ => none

/-- A whole number in 64 bits: from −2^63 to 2^63 − 1, modulo 2^64. -/
def wrap (z : Int) : Int := (z + 2 ^ 63) % 2 ^ 64 - 2 ^ 63

theorem wrap_eq (z : Int) : (wrap z - z) % 2 ^ 64 = 0 ∧ -2 ^ 63 ≤ wrap z ∧ wrap z < 2 ^ 63 := by
  unfold wrap; omega

/-- Sums that fit are exact. -/
theorem wrap_self {z : Int} (h1 : -2 ^ 63 ≤ z) (h2 : z < 2 ^ 63) : wrap z = z := by
  unfold wrap; omega

theorem stands_wrap (z len : Int) : Stands m ⟨u64 z, len, 3⟩ (.int (wrap z)) := by
  have h := wrap_eq z
  have : u64 z = u64 (wrap z) := by unfold u64 at *; omega
  rw [this]; exact .int _ _ h.2.1 h.2.2

theorem isInt3 (x : Nat) (len : Int) : isInt ⟨x, len, 3⟩ = true := by simp [isInt, u32]
theorem isInt5 (x : Nat) (len : Int) : isInt ⟨x, len, 5⟩ = false := by simp [isInt, u32]

/-- **Arithmetic.**  Adding a whole number to a null or an integer gives their sum in 64 bits,
subtracting it the difference; `++`, `--` and `-` follow. -/
theorem arith (t : Int) (h : Stands m r v) (i : Int) (hi : whole v = some i) :
    (∃ r', addInt F t r = some r' ∧ Stands m r' (.int (wrap (i + t)))) ∧
    (∃ r', subInt F t r = some r' ∧ Stands m r' (.int (wrap (i - t)))) ∧
    (∃ r', inc F r = some r' ∧ Stands m r' (.int (wrap (i + 1)))) ∧
    (∃ r', dec F r = some r' ∧ Stands m r' (.int (wrap (i - 1)))) ∧
    (∃ r', neg F r = some r' ∧ Stands m r' (.int (wrap (-i)))) := by
  have hf : ∃ len, forceNumber r = some ⟨u64 i, len, 3⟩ := by
    cases h <;> simp [whole] at hi
    · subst hi; exact ⟨0, rfl⟩
    · rename_i len _ _; subst hi; exact ⟨len, by simp [forceNumber]⟩
  obtain ⟨len, hf⟩ := hf
  have hadd : ∀ t, addInt F t r = some ⟨u64 (i + t), len, 3⟩ := by
    intro t; simp only [addInt, hf, isInt3, if_true, u64_add]
  refine ⟨⟨_, hadd t, stands_wrap _ _⟩, ⟨⟨u64 (i - t), len, 3⟩, ?_, stands_wrap _ _⟩,
    ⟨_, hadd 1, stands_wrap _ _⟩, ⟨_, hadd (-1), stands_wrap _ _⟩,
    ⟨⟨u64 (-i), len, 3⟩, ?_, stands_wrap _ _⟩⟩
  · simp only [subInt, hf, isInt3, if_true, u64_sub]
  · simp only [neg, hf, isInt3, if_true, u64_neg]

/-- Subtraction of and from doubles is that of doubles. -/
theorem sub_double (t : Int) (w : Nat) (hF : ∀ a b, F.sub a b < 2 ^ 64) (h : Stands m r v) :
    (∀ d, v = .dbl d → ∃ r', subInt F t r = some r' ∧ Stands m r' (.dbl (F.sub d (F.ofInt t)))) ∧
    (∀ d, v = .dbl d → ∃ r', subDouble F w r = some r' ∧ Stands m r' (.dbl (F.sub d w))) ∧
    (∀ i, v = .int i → ∃ r', subDouble F w r = some r' ∧ Stands m r' (.dbl (F.sub (F.ofInt i) w))) ∧
    (v = .null → ∃ r', subDouble F w r = some r' ∧ Stands m r' (.dbl (F.sub 0 w))) ∧
    (∀ d, v = .dbl d → F.neg d < 2 ^ 64 → ∃ r', neg F r = some r' ∧ Stands m r' (.dbl (F.neg d))) := by
  refine ⟨?_, ?_, ?_, ?_, ?_⟩
  · rintro d rfl
    cases h with
    | dbl _ len _ =>
      exact ⟨⟨F.sub d (F.ofInt t), len, 5⟩, by simp [subInt, forceNumber, isInt5], .dbl _ _ (hF _ _)⟩
  · rintro d rfl
    cases h with
    | dbl _ len _ =>
      exact ⟨⟨F.sub d w, len, 5⟩, by simp [subDouble, forceDouble], .dbl _ _ (hF _ _)⟩
  · rintro i rfl
    cases h with
    | int _ len h1 h2 =>
      exact ⟨⟨F.sub (F.ofInt i) w, len, 5⟩, by simp [subDouble, forceDouble, i64_u64 h1 h2],
        .dbl _ _ (hF _ _)⟩
  · rintro rfl
    cases h
    exact ⟨⟨F.sub 0 w, 0, 5⟩, by simp [subDouble, forceDouble], .dbl _ _ (hF _ _)⟩
  · rintro d rfl hn
    cases h with
    | dbl _ len _ =>
      exact ⟨⟨F.neg d, len, 5⟩, by simp [neg, forceNumber, isInt5], .dbl _ _ hn⟩

/-- Adding a whole number to a double, or a double to a double, an integer or a null (which
counts as 0), is addition of doubles. -/
theorem arith_double (t : Int) (w : Nat) (hF : ∀ a b, F.add a b < 2 ^ 64) (h : Stands m r v) :
    (∀ d, v = .dbl d → ∃ r', addInt F t r = some r' ∧ Stands m r' (.dbl (F.add d (F.ofInt t)))) ∧
    (∀ d, v = .dbl d → ∃ r', addDouble F w r = some r' ∧ Stands m r' (.dbl (F.add d w))) ∧
    (∀ i, v = .int i → ∃ r', addDouble F w r = some r' ∧ Stands m r' (.dbl (F.add (F.ofInt i) w))) ∧
    (v = .null → ∃ r', addDouble F w r = some r' ∧ Stands m r' (.dbl (F.add 0 w))) := by
  refine ⟨?_, ?_, ?_, ?_⟩
  · rintro d rfl
    cases h with
    | dbl _ len _ =>
      exact ⟨⟨F.add d (F.ofInt t), len, 5⟩, by simp [addInt, forceNumber, isInt5], .dbl _ _ (hF _ _)⟩
  · rintro d rfl
    cases h with
    | dbl _ len _ =>
      exact ⟨⟨F.add d w, len, 5⟩, by simp [addDouble, forceDouble], .dbl _ _ (hF _ _)⟩
  · rintro i rfl
    cases h with
    | int _ len h1 h2 =>
      exact ⟨⟨F.add (F.ofInt i) w, len, 5⟩, by simp [addDouble, forceDouble, i64_u64 h1 h2],
        .dbl _ _ (hF _ _)⟩
  · rintro rfl
    cases h
    exact ⟨⟨F.add 0 w, 0, 5⟩, by simp [addDouble, forceDouble], .dbl _ _ (hF _ _)⟩

/-- **Unsigned numbers take no part.**  Arithmetic stops at its precondition for everything but
nulls, integers kept as signed, and doubles, in particular for numbers kept as unsigned. -/
theorem arith_refused (t : Int) (w : Nat) (h : Stands m r v) :
    (addInt F t r = none ↔ whole v = none ∧ ∀ d, v ≠ .dbl d) ∧
    (subInt F t r = none ↔ whole v = none ∧ ∀ d, v ≠ .dbl d) ∧
    (addDouble F w r = none ↔ whole v = none ∧ ∀ d, v ≠ .dbl d) ∧
    (neg F r = none ↔ whole v = none ∧ ∀ d, v ≠ .dbl d) := by
  cases h with
  | str x len typ hx ht hl h0 hd hs =>
    have h1 : ¬ typ = 3 := by omega
    have h2 : ¬ typ = 5 := by omega
    simp [addInt, subInt, addDouble, neg, forceNumber, forceDouble, hx, h1, h2, whole]
  | _ => simp [addInt, subInt, addDouble, neg, forceNumber, forceDouble, whole, isInt3, isInt5]

/-- **`j += x` does not look at `x`.**  If `x` is a whole number, `j += x` doubles `j` and
`j -= x` makes it 0, whatever `x` is. -/
theorem add_own {x : Rep} {u : Value} (h : Stands m r v) (i : Int) (hi : whole v = some i)
    (hx : Stands m x u) (hu : (∃ j, u = .int j) ∨ ∃ n, u = .uint n) :
    (∃ r', addJson F r x = some r' ∧ Stands m r' (.int (wrap (i + i)))) ∧
    (∃ r', subJson F r x = some r' ∧ Stands m r' (.int 0)) := by
  have hk := kinds hx
  have hxi : isInt x = true := hk.2.1.2 hu
  have hrx : i64 r.x = i ∧ ((r.x : Int) = i ∨ (r.x : Int) = i + 2 ^ 64) := by
    cases h <;> simp [whole] at hi
    · subst hi; simp [i64]
    · rename_i h1 h2
      subst hi
      refine ⟨i64_u64 h1 h2, ?_⟩
      simp only [u64]; omega
  have hw : wrap (i + r.x) = wrap (i + i) := by
    rcases hrx.2 with he | he <;> rw [he] <;> unfold wrap <;> omega
  have hw' : wrap (i - r.x) = 0 := by
    rcases hrx.2 with he | he <;> rw [he] <;> unfold wrap <;> omega
  have hw0 : wrap (i - i) = 0 := by unfold wrap; omega
  unfold addJson subJson
  by_cases hxu : isUnsigned x = true
  · rw [if_pos hxu, if_pos hxu]
    have := arith (F := F) (r.x : Int) h i hi
    rw [hw, hw'] at this
    exact ⟨this.1, this.2.1⟩
  · rw [if_neg hxu, if_neg hxu, if_pos hxi, if_pos hxi, hrx.1]
    have := arith (F := F) i h i hi
    rw [hw0] at this
    exact ⟨this.1, this.2.1⟩

/-- Adding a double or null from a `Json` is right. -/
theorem add_json {x : Rep} {w : Nat} (hx : Stands m x (.dbl w)) :
    addJson F r x = addDouble F w r ∧ subJson F r x = subDouble F w r ∧
      addJson F r mkNull = some r ∧ subJson F r mkNull = some r := by
  cases hx
  simp [addJson, subJson, isUnsigned, isNull, asD, isDouble, isInt, mkNull, u32]

-- 5 += 3 gives 10, 5 -= 3 gives 0, null += 3 gives 0
example : (addJson F (mkInt 0 5) (mkInt 0 3)) = some (mkInt 0 10) ∧
    (subJson F (mkInt 0 5) (mkInt 0 3)) = some (mkInt 0 0) ∧
    addJson F mkNull (mkInt 0 3) = some (mkInt 0 0) := ⟨rfl, rfl, rfl⟩

/-- **Keys.**  A string finds an element of an array exactly if it is a number in decimal without
needless zeros; the element is that with the number modulo 2^32. -/
theorem get_key (n : Nat) (s : Bytes) (i : Nat) :
    getKey n s = some i ↔ ∃ k, s = digits k ∧ i = k % 2 ^ 32 ∧ i < n := by
  unfold getKey
  constructor
  · intro h
    split at h
    · rename_i j hj
      split at h
      · simp only [Option.some.injEq] at h; subst h
        obtain ⟨k, h1, h2⟩ := (key_iff s j).1 hj
        exact ⟨k, h1, h2, by assumption⟩
      · simp at h
    · simp at h
  · rintro ⟨k, h1, h2, h3⟩
    rw [(key_iff s i).2 ⟨k, h1, h2⟩]
    simp [h3]

/-- `get("4294967296")` is the first element, although there is no such element. -/
theorem get_key_wraps (n : Nat) (hn : 0 < n) : getKey n (digits 4294967296) = some 0 :=
  (get_key n _ 0).2 ⟨_, rfl, by decide, hn⟩

/-! ## The hypotheses can be met -/

/-- A memory with the text "-12" at 8, "010 " at 16, and an array of three elements at 32. -/
def sample : Mem :=
  ⟨fun a => if a = 8 then [45, 49, 50] else if a = 16 then [48, 49, 48, 32] else [],
   fun a => if a = 32 then some 3 else none⟩

theorem sample_minus : Stands sample ⟨8, 3, -24⟩ (.str (decimal (-12))) := by
  have h : decimal (-12) = (sample.data 8).take (3 : Int).toNat := by decide +kernel
  rw [h]
  exact .str 8 3 (-24) (by omega) (by omega) (by omega) (by omega) (by decide) rfl

example : Stands sample ⟨8, 3, -24⟩ (.str (decimal (-12))) :=
  sample_minus
example : toI F sample ⟨8, 3, -24⟩ = some (-12) := (to_i_decimal (-12) sample_minus).1
example : Stands sample ⟨16, 3, 0⟩ (.str [48, 49, 48]) ∧ Stands sample ⟨16, 4, 0⟩ (.str [48, 49, 48, 32]) :=
  ⟨.str 16 3 0 (by omega) (by omega) (by omega) (by omega) (by decide) rfl,
   .str 16 4 0 (by omega) (by omega) (by omega) (by omega) (by decide) rfl⟩
example : Stands sample ⟨32, 5, 1⟩ (.arr (some 32)) ∧ elems sample (some 32) = 3 ∧
    toI F sample ⟨32, 5, 1⟩ = some 3 ∧ truthy ⟨32, 5, 1⟩ = true :=
  ⟨.arr 32 3 5 (by omega) rfl, rfl, rfl, rfl⟩
-- `to_i(int&)` of 2^32 + 7 stores 7
example : Stands sample (mkInt 0 4294967303) (.int 4294967303) ∧
    toRef F 32 true (mkInt 0 4294967303) = some (some 7) :=
  ⟨.int _ _ (by omega) (by omega), by rfl⟩
example : eq F sample (mkInt 0 7) (mkUnsigned 1 7) = true ∧
    eq F sample (mkInt 0 (-1)) (mkUnsigned 1 (2 ^ 64 - 1)) = false := ⟨rfl, rfl⟩
/-- Operations that meet the hypotheses about doubles. -/
def floats : Floats :=
  ⟨fun a b => (a + b) % 2 ^ 64, fun a b => a % 2 ^ 64 - b, fun a => a % 2 ^ 64, fun a b => decide (a = b),
   fun i => u64 i, fun w => some w, fun _ => 0, fun w => digits w⟩
example : Equivalence (same floats) :=
  eq_equivalence (by simp [floats]) (by simp [floats]) (by simp [floats])
example : (∀ a b, floats.add a b < 2 ^ 64) ∧ (∀ a b, floats.sub a b < 2 ^ 64) := by
  constructor <;> intro a b <;> simp only [floats] <;> omega
example : ∃ t, floats.trunc (2 ^ 40) = some t ∧ ¬ holds 32 true t := ⟨2 ^ 40, rfl, by decide⟩
example : Stands ⟨fun _ => [32, 9, 55], fun _ => none⟩ ⟨8, 3, 0⟩ (.str ([32, 9] ++ decimal 7)) := by
  have h : [32, 9] ++ decimal 7 = ([32, 9, 55] : Bytes).take (3 : Int).toNat := by decide +kernel
  rw [h]
  exact .str (m := ⟨fun _ => [32, 9, 55], fun _ => none⟩) 8 3 0 (by omega) (by omega) (by omega) (by omega) (by decide) rfl
-- 0xff and 017
example : ([15, 15] : List Nat).map hexChar = [102, 102] ∧ ([1, 7] : List Nat).map hexChar = [49, 55] := ⟨rfl, rfl⟩
example : getKey 20 [49, 55] = some 17 ∧ getKey 20 [48, 55] = none := ⟨rfl, rfl⟩

end Verif.Props.C73
