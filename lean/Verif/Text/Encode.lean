import Verif.Text.Base64

/-!
# Percent, hexadecimal and C escapes

`String_base::encode_uri_component` (/repo/string_base.hh:638-654), `String::to_hex` (/repo/string.cc:1008-1017) and
`String::printable` (/repo/string.cc:964-1006).

Simplifications: those of `Base64`.  `isalnum` is that of the C locale.  `extend` succeeds.
-/
namespace Verif.Text

/-- `upper_hex_nibble`, /repo/string_base.hh:72-74. -/
def nibble (n : Nat) : Nat := n + if n > 9 then 65 - 10 else 48

/-- The characters that stay, /repo/string_base.hh:644. -/
def unreserved (c : Nat) : Bool := isDigit c || isAlpha c || c == 45 || c == 95 || c == 46 || c == 126

/-- The loop of `encode_uri_component`, /repo/string_base.hh:642-653: what was written, what is between `last` and `s`, the rest. -/
def uriLoop (out last : Bytes) : Bytes → Bytes
  | [] => out ++ last
  | c :: s =>
    if unreserved c then uriLoop out (last ++ [c]) s
    else uriLoop (out ++ last ++ [37, nibble (c >>> 4), nibble (c &&& 15)]) [] s

/-- `encode_uri_component`, /repo/string_base.hh:638-654. -/
def encodeUri (s : Bytes) : Bytes := uriLoop [] [] s

/-- `hexval`, /repo/string.cc:1010. -/
def hexval : Bytes := [48, 49, 50, 51, 52, 53, 54, 55, 56, 57, 65, 66, 67, 68, 69, 70]

/-- `to_hex`, /repo/string.cc:1008-1017. -/
def toHex : Bytes → Bytes
  | [] => []
  | c :: s => hexval.getD (c >>> 4) 0 :: hexval.getD (c &&& 15) 0 :: toHex s

/-- `sprintf(buf, "\\%03o", c)` of a byte. -/
def octal (c : Nat) : Bytes := [92, 48 + c / 64, 48 + c / 8 % 8, 48 + c % 8]

/-- What `hard_printable` writes for a byte, /repo/string.cc:972-984. -/
def escape (type c : Nat) : Bytes :=
  if type = 2 ∧ (c = 92 ∨ c = 34) then [92, c]
  else if c ≥ 32 ∧ c < 127 then [c]
  else if c < 32 ∧ type = 2 then
    if c ≥ 9 ∧ c ≤ 13 then [92, [116, 110, 118, 102, 114].getD (c - 9) 0] else octal c
  else if c < 32 ∧ type ≠ 1 then [94, c + 64]
  else octal c

/-- `hard_printable`, /repo/string.cc:964-987: the first bytes are copied. -/
def hardPrintable (s : Bytes) (pos type : Nat) : Bytes := s.take pos ++ (s.drop pos).flatMap (escape type)

/-- `printable`, /repo/string.cc:997-1006: from the first byte that is not between 32 and 126. -/
def printable (type : Nat) (s : Bytes) : Bytes :=
  match s.findIdx? (fun c => decide (c < 32) || decide (c > 126)) with
  | some i => hardPrintable s i type
  | none => s

/-! ## What the encodings mean -/

/-- The value of a hexadecimal digit, in either case. -/
def hexDigit (c : Nat) : Option Nat :=
  if 48 ≤ c ∧ c ≤ 57 then some (c - 48)
  else if 65 ≤ c ∧ c ≤ 70 then some (c - 55)
  else if 97 ≤ c ∧ c ≤ 102 then some (c - 87)
  else none

/-- Percent-decoding. -/
def unpercent : Bytes → Option Bytes
  | [] => some []
  | c :: s =>
    if c = 37 then
      match s with
      | x :: y :: s =>
        match hexDigit x, hexDigit y, unpercent s with
        | some h, some l, some r => some ((16 * h + l) :: r)
        | _, _, _ => none
      | _ => none
    else (unpercent s).map (c :: ·)

/-- The bytes of a string of hexadecimal digits. -/
def unhex : Bytes → Option Bytes
  | [] => some []
  | [_] => none
  | x :: y :: s =>
    match hexDigit x, hexDigit y, unhex s with
    | some h, some l, some r => some ((16 * h + l) :: r)
    | _, _, _ => none

/-- The value of an octal digit. -/
def octDigit (c : Nat) : Option Nat := if 48 ≤ c ∧ c ≤ 55 then some (c - 48) else none

/-- The letters of C escapes. -/
def cLetter (c : Nat) : Option Nat :=
  if c = 92 ∨ c = 34 then some c
  else if c = 116 then some 9
  else if c = 110 then some 10
  else if c = 118 then some 11
  else if c = 102 then some 12
  else if c = 114 then some 13
  else none

/-- A C escape, after the backslash: the byte and the rest. -/
def cEscape : Bytes → Option (Nat × Bytes)
  | [] => none
  | c :: s =>
    match cLetter c with
    | some v => some (v, s)
    | none =>
      match s with
      | d :: e :: s =>
        match octDigit c, octDigit d, octDigit e with
        | some x, some y, some z => some (64 * x + 8 * y + z, s)
        | _, _, _ => none
      | _ => none

/-- Reading C escapes; the fuel bounds the number of characters. -/
def unescape : Nat → Bytes → Option Bytes
  | 0, _ => none
  | _ + 1, [] => some []
  | n + 1, c :: s =>
    if c = 92 then
      match cEscape s with
      | some (v, s) => (unescape n s).map (v :: ·)
      | none => none
    else (unescape n s).map (c :: ·)

/-! ## Proofs -/

theorem hexDigit_nibble {n : Nat} (h : n < 16) : hexDigit (nibble n) = some n := by
  have : ∀ n : Fin 16, hexDigit (nibble n.val) = some n.val := by decide
  exact this ⟨n, h⟩

theorem hexval_nibble {n : Nat} (h : n < 16) : hexval.getD n 0 = nibble n := by
  have : ∀ n : Fin 16, hexval.getD n.val 0 = nibble n.val := by decide
  exact this ⟨n, h⟩

theorem nibble_alnum {n : Nat} (h : n < 16) : (isDigit (nibble n) || isAlpha (nibble n)) = true := by
  have : ∀ n : Fin 16, (isDigit (nibble n.val) || isAlpha (nibble n.val)) = true := by decide
  exact this ⟨n, h⟩

theorem high_low (c : Nat) : c >>> 4 = c / 16 ∧ c &&& 15 = c % 16 :=
  ⟨Nat.shiftRight_eq_div_pow c 4, Nat.and_two_pow_sub_one_eq_mod c 4⟩

/-- What one byte becomes. -/
def uriByte (c : Nat) : Bytes := if unreserved c then [c] else [37, nibble (c / 16), nibble (c % 16)]

theorem uriLoop_eq (s : Bytes) : ∀ out last, uriLoop out last s = out ++ last ++ s.flatMap uriByte := by
  induction s with
  | nil => intro out last; simp [uriLoop]
  | cons c s ih =>
    intro out last
    rw [uriLoop, (high_low c).1, (high_low c).2, List.flatMap_cons, uriByte]
    split
    · rw [ih]; simp
    · rw [ih]; simp

theorem unpercent_other {c : Nat} {s : Bytes} (h : c ≠ 37) : unpercent (c :: s) = (unpercent s).map (c :: ·) := by
  match s with
  | [] => simp [unpercent, h]
  | [x] => simp [unpercent, h]
  | x :: y :: s => rw [unpercent, if_neg h]

theorem unpercent_uri {s : Bytes} (hs : ∀ c ∈ s, c < 256) : unpercent (s.flatMap uriByte) = some s := by
  induction s with
  | nil => rfl
  | cons c s ih =>
    have hc := hs c List.mem_cons_self
    have ih := ih (fun c h => hs c (List.mem_cons_of_mem _ h))
    rw [List.flatMap_cons, uriByte]
    split
    · rename_i h
      have : c ≠ 37 := by rintro rfl; revert h; decide
      rw [List.singleton_append, unpercent_other this, ih]; rfl
    · simp only [List.cons_append, List.nil_append, unpercent, if_true]
      rw [hexDigit_nibble (by omega), hexDigit_nibble (by omega), ih]
      simp only [Option.some.injEq, List.cons.injEq, and_true]
      omega

theorem toHex_spec {s : Bytes} (hs : ∀ c ∈ s, c < 256) : unhex (toHex s) = some s := by
  induction s with
  | nil => rfl
  | cons c s ih =>
    have hc := hs c List.mem_cons_self
    rw [toHex, (high_low c).1, (high_low c).2, hexval_nibble (by omega), hexval_nibble (by omega), unhex,
      hexDigit_nibble (by omega), hexDigit_nibble (by omega), ih (fun c h => hs c (List.mem_cons_of_mem _ h))]
    simp only [Option.some.injEq, List.cons.injEq, and_true]
    omega

/-- Each byte is written so that it is read back, whatever follows. -/
theorem unescape_one {c : Nat} (hc : c < 256) (n : Nat) (t : Bytes) :
    unescape (n + 1) (escape 2 c ++ t) = (unescape n t).map (c :: ·) := by
  by_cases h1 : c = 92 ∨ c = 34
  · rcases h1 with rfl | rfl <;> rfl
  by_cases h2 : 32 ≤ c ∧ c < 127
  · have e : escape 2 c = [c] := by unfold escape; rw [if_neg (by tauto), if_pos (by omega)]
    rw [e, List.singleton_append, unescape, if_neg (by tauto)]
  by_cases h3 : 9 ≤ c ∧ c ≤ 13
  · have : ∀ c : Fin 14, 9 ≤ c.val → escape 2 c.val = [92, (escape 2 c.val).getD 1 0] ∧ cLetter ((escape 2 c.val).getD 1 0) = some c.val := by decide
    obtain ⟨e1, e2⟩ := this ⟨c, by omega⟩ h3.1
    rw [e1]
    simp only [List.cons_append, List.nil_append, unescape, if_true, cEscape, e2]
  · have e : escape 2 c = octal c := by
      unfold escape
      rw [if_neg (by tauto), if_neg (by omega)]
      by_cases h : c < 32
      · rw [if_pos (by omega), if_neg (by omega)]
      · rw [if_neg (by omega), if_neg (by omega)]
    have l : ∀ d : Fin 8, cLetter (48 + d.val) = none ∧ octDigit (48 + d.val) = some d.val := by decide
    have l1 := l ⟨c / 64, by omega⟩
    have l2 := l ⟨c / 8 % 8, by omega⟩
    have l3 := l ⟨c % 8, by omega⟩
    simp only at l1 l2 l3
    rw [e, octal]
    simp only [List.cons_append, List.nil_append, unescape, if_true, cEscape, l1.1, l1.2, l2.2, l3.2]
    rw [show 64 * (c / 64) + 8 * (c / 8 % 8) + c % 8 = c by omega]

theorem unescape_all {s : Bytes} (hs : ∀ c ∈ s, c < 256) {n : Nat} (hn : s.length < n) : unescape n (s.flatMap (escape 2)) = some s := by
  induction s generalizing n with
  | nil =>
    obtain ⟨n, rfl⟩ := Nat.exists_eq_succ_of_ne_zero (by omega : n ≠ 0)
    rfl
  | cons c s ih =>
    obtain ⟨n, rfl⟩ := Nat.exists_eq_succ_of_ne_zero (by omega : n ≠ 0)
    rw [List.flatMap_cons, unescape_one (hs c List.mem_cons_self), ih (fun c h => hs c (List.mem_cons_of_mem _ h))
      (by simp only [List.length_cons] at hn; omega)]
    rfl

theorem escape_printable (type : Nat) {c : Nat} (hc : c < 256) : ∀ x ∈ escape type c, 32 ≤ x ∧ x ≤ 126 := by
  have hd : ∀ x ∈ octal c, 32 ≤ x ∧ x ≤ 126 := by
    intro x hx
    simp only [octal, List.mem_cons, List.not_mem_nil, or_false] at hx
    omega
  intro x hx
  unfold escape at hx
  split at hx
  · rename_i h
    simp only [List.mem_cons, List.not_mem_nil, or_false] at hx
    omega
  · split at hx
    · simp only [List.mem_cons, List.not_mem_nil, or_false] at hx; omega
    · split at hx
      · split at hx
        · rename_i h
          have : ∀ c : Fin 14, ∀ x ∈ [92, [116, 110, 118, 102, 114].getD (c.val - 9) 0], 32 ≤ x ∧ x ≤ 126 := by decide
          exact this ⟨c, by omega⟩ x hx
        · exact hd x hx
      · split at hx
        · simp only [List.mem_cons, List.not_mem_nil, or_false] at hx; omega
        · exact hd x hx

end Verif.Text
