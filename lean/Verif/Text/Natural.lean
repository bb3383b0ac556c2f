import Mathlib.Data.List.Basic

/-!
# The natural order of strings

`String_generic::natural_compare`, /repo/string.cc:146-255: compare two strings so that numbers inside them are ordered by value.

Simplifications:
* Bytes are numbers; nothing depends on their being below 256.
* `isdigit`, `isalpha`, `isspace` and `tolower` are those of the C locale; no call of `setlocale` is in the code.
* A pointer into `a` is the bytes already read, the last first, and the bytes that follow; `aperiod` is the number of bytes before it.
* The result is an integer without bounds; it is a difference of bytes or of lengths.
* The loop counts down from the length of `a`; `Verif.Text.result_zero` and `Verif.Text.result_order` show that it ends before that.
-/
namespace Verif.Text

abbrev Bytes := List Nat

/-- `isdigit` of the C locale. -/
def isDigit (c : Nat) : Bool := decide (48 ≤ c) && decide (c ≤ 57)

/-- `isalpha` of the C locale. -/
def isAlpha (c : Nat) : Bool := (decide (65 ≤ c) && decide (c ≤ 90)) || (decide (97 ≤ c) && decide (c ≤ 122))

/-- `isspace` of the C locale. -/
def isSpace (c : Nat) : Bool := (decide (9 ≤ c) && decide (c ≤ 13)) || c == 32

/-- `tolower` of the C locale. -/
def toLower (c : Nat) : Nat := if 65 ≤ c ∧ c ≤ 90 then c + 32 else c

/-- The pointer is inside the string and at a digit, /repo/string.cc:180-181. -/
def good : Bytes → Bool
  | [] => false
  | c :: _ => isDigit c

/-- Whether the number that starts here is negative, /repo/string.cc:162-166, by the bytes before it. -/
def negativeAt : Bytes → Bool
  | [45] => true
  | 45 :: c :: _ => isSpace c
  | _ => false

/-- Skip `0`s; the number of them and the rest, /repo/string.cc:169-174. -/
def zeros : Bytes → Nat × Bytes
  | 48 :: s => ((zeros s).1 + 1, (zeros s).2)
  | s => (0, s)

/-- Walk over digits, with the first difference, /repo/string.cc:177-188. -/
def walk : Bytes → Bytes → Int → Bytes × Bytes × Int
  | x :: a, y :: b, d =>
    if isDigit x && isDigit y then walk a b (if d = 0 then (x : Int) - y else d) else (x :: a, y :: b, d)
  | a, b, d => (a, b, d)

/-- A period that is followed by something other than a space, /repo/string.cc:193-200, after the digits that are left. -/
def address (s : Bytes) : Bool :=
  match s.dropWhile isDigit with
  | 46 :: c :: _ => !isSpace c
  | _ => false

/-- A period and a digit, /repo/string.cc:219-222. -/
def fraction : Bytes → Bool
  | 46 :: c :: _ => isDigit c
  | _ => false

/-- Where the loop goes on: the rest of both strings, `aperiod` and `aperiod_negative`. -/
structure After where
  a : Bytes
  b : Bytes
  period : Option Nat
  periodNegative : Bool

/-- The comparison of two numbers, /repo/string.cc:156-232.  `pa` holds the bytes of `a` before the number. -/
def numbers (pa a b : Bytes) (period : Option Nat) (periodNegative : Bool) : Int ⊕ After :=
  let negative := negativeAt pa
  let za := zeros a
  let zb := zeros b
  let longer : Int := (za.1 : Int) - zb.1
  let w := walk za.2 zb.2 0
  let ga := good w.1
  let gb := good w.2.1
  let d := w.2.2
  let decimal := period == some pa.length && !address w.1 && !address w.2.1
  let neg := if decimal then periodNegative else negative
  if decimal && longer != 0 then .inl (if neg then 1 else -1)
  else
    let ga := if decimal && d != 0 then gb else ga
    if ga != gb then .inl (if neg == ga then -1 else 1)
    else if d ≠ 0 then .inl (if neg == decide (0 < d) then -1 else 1)
    else if longer ≠ 0 then .inl longer
    else if period.isNone then
      let fa := fraction w.1
      let fb := fraction w.2.1
      if fa != fb then .inl (if neg == fb then 1 else -1)
      else if fa then .inr ⟨w.1, w.2.1, some (pa.length + (a.length - w.1.length) + 1), neg⟩
      else .inr ⟨w.1, w.2.1, none, periodNegative⟩
    else .inr ⟨w.1, w.2.1, period, periodNegative⟩

/-- The loop and the end, /repo/string.cc:154-254. -/
def loop : Nat → Bytes → Bytes → Bytes → Option Nat → Bool → Int → Int
  | n + 1, pa, x :: a, y :: b, period, pn, raw =>
    if isDigit x && isDigit y then
      match numbers pa (x :: a) (y :: b) period pn with
      | .inl r => r
      | .inr t => loop n (((x :: a).take ((x :: a).length - t.a.length)).reverse ++ pa) t.a t.b t.period t.periodNegative raw
    else if isDigit x then (if isAlpha y then -1 else 1)
    else if isDigit y then (if isAlpha x then 1 else -1)
    else if toLower x ≠ toLower y then (toLower x : Int) - toLower y
    else loop n (x :: pa) a b (if x = 46 then period else none) pn (if raw = 0 then (x : Int) - y else raw)
  | _, _, a, b, _, _, raw => if a.length ≠ b.length then (a.length : Int) - b.length else raw

/-- `String_generic::natural_compare`, /repo/string.cc:146-255. -/
def naturalCompare (a b : Bytes) : Int := loop a.length [] a b none false 0

end Verif.Text
