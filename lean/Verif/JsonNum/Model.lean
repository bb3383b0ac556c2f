import Verif.Json.Model

/-!
# Plain Json values: tests, conversions, comparison and arithmetic

A `Json` is sixteen bytes: a word (a number, the bits of a double, a pointer), four bytes
that are the length of a string or unused, and a type; for strings the type is the distance
to the block with the reference count, which is negative, or zero for strings without such a
block (/repo/json.hh:32-42, 45-49, 367-375 and /repo/string.hh:177-180).  The functions below
work on these bytes.

Simplifications:
* the text of a string and the size of an array or object are looked up by the pointer in a
  memory that does not change here (property C50 and C72 are about that memory);
* arithmetic of doubles, their comparison, printing, and `strtod` are parameters (`Floats`);
  doubles are their bits;
* functions answer `none` where the program would stop at a precondition (they are checked
  unless configured otherwise, /repo/configure.ac:433-442), convert a double to an integer type
  that cannot hold it, which is undefined, or take something else for an array or object.
-/
namespace Verif.JsonNum
open Verif.Json (Bytes digits decimal isDigit)

/-- `rep_type`, /repo/json.hh:367-375. -/
structure Rep where
  x : Nat
  len : Int
  typ : Int
  deriving DecidableEq, Repr

/-- What pointers lead to: the bytes from an address on, and the `size` of an array or
object, if there is one. -/
structure Mem where
  data : Nat → Bytes
  size : Nat → Option Nat

/-- Operations on doubles.  `trunc` is the integer part, if there is one. -/
structure Floats where
  add : Nat → Nat → Nat
  sub : Nat → Nat → Nat
  neg : Nat → Nat
  eq : Nat → Nat → Bool
  ofInt : Int → Nat
  trunc : Nat → Option Int
  strtod : Bytes → Nat
  print : Nat → Bytes

/-- Conversion to `unsigned`. -/
def u32 (i : Int) : Nat := (i % 2 ^ 32).toNat

/-- Conversion to `uint64_t`. -/
def u64 (i : Int) : Nat := (i % 2 ^ 64).toNat

/-- A word as `int64_t`. -/
def i64 (n : Nat) : Int := if n < 2 ^ 63 then n else (n : Int) - 2 ^ 64

/-- The text of a string. -/
def text (m : Mem) (r : Rep) : Bytes := (m.data r.x).take r.len.toNat

/-! ## Construction, /repo/json.hh:1483-1548 and 1613-1640; `junk` is the unused part -/

def mkNull : Rep := ⟨0, 0, 0⟩
def mkInt (junk : Int) (i : Int) : Rep := ⟨u64 i, junk, 3⟩
def mkUnsigned (junk : Int) (n : Nat) : Rep := ⟨n, junk, 4⟩
def mkDouble (junk : Int) (w : Nat) : Rep := ⟨w, junk, 5⟩
def mkBool (junk : Int) (b : Bool) : Rep := ⟨b.toNat, junk, 6⟩
def mkArray : Rep := ⟨0, 0, 1⟩

/-! ## Tests -/

/-- /repo/json.hh:1663-1666 -/
def truthy (r : Rep) : Bool :=
  if r.x ≠ 0 then decide (r.typ ≥ 0) || decide (r.len ≠ 0)
  else decide (u32 (r.typ - 1) < u32 (3 - 1))

/-- /repo/json.hh:1682-1684 -/
def isNull (r : Rep) : Bool := decide (r.x = 0) && decide (r.typ = 0)

/-- /repo/json.hh:1685-1687 -/
def isInt (r : Rep) : Bool := decide (u32 (r.typ - 3) ≤ u32 (4 - 3))

/-- /repo/json.hh:1691-1693 -/
def isUnsigned (r : Rep) : Bool := decide (r.typ = 4)

/-- /repo/json.hh:1700-1703 -/
def isNonnegint (r : Rep) : Bool :=
  decide (r.typ = 4) || (decide (r.typ = 3) && decide (i64 r.x ≥ 0))

/-- /repo/json.hh:1704-1706 -/
def isDouble (r : Rep) : Bool := decide (r.typ = 5)

/-- /repo/json.hh:1710-1712 -/
def isNumber (r : Rep) : Bool := decide (u32 (r.typ - 3) ≤ u32 (5 - 3))

/-- /repo/json.hh:1716-1718 -/
def isBool (r : Rep) : Bool := decide (r.typ = 6)

/-- /repo/json.hh:1722-1724 -/
def isString (r : Rep) : Bool := decide (r.x ≠ 0) && decide (r.typ ≤ 0)

/-- /repo/json.hh:1728-1730 -/
def isArray (r : Rep) : Bool := decide (r.typ = 1)

/-- /repo/json.hh:1734-1736 -/
def isObject (r : Rep) : Bool := decide (r.typ = 2)

/-- /repo/json.hh:1741-1743 -/
def isPrimitive (r : Rep) : Bool := decide (r.typ ≥ 3) || (decide (r.x ≠ 0) && decide (r.typ ≤ 0))

/-- /repo/json.hh:1747-1750 -/
def empty (m : Mem) (r : Rep) : Option Bool :=
  if u32 r.typ < u32 3 then
    if r.x = 0 then some true else (m.size r.x).map fun n => decide (n = 0)
  else some false

/-- /repo/json.hh:1753-1756 -/
def size (m : Mem) (r : Rep) : Option Nat :=
  if u32 r.typ < u32 3 then if r.x ≠ 0 then m.size r.x else some 0 else none

/-! ## `strtol` and `strtoul` with base 0 -/

/-- `isspace` of the C locale. -/
def isSpace (b : Nat) : Bool := decide (b = 32) || (decide (9 ≤ b) && decide (b ≤ 13))

/-- The value of a digit. -/
def digitVal (base b : Nat) : Option Nat :=
  let d := if isDigit b then b - 48
    else if 97 ≤ b ∧ b ≤ 122 then b - 87
    else if 65 ≤ b ∧ b ≤ 90 then b - 55 else 36
  if d < base then some d else none

/-- Reads digits: the value, and how many there are. -/
def readDigits (base : Nat) : Nat → Nat → Bytes → Nat × Nat
  | v, k, [] => (v, k)
  | v, k, b :: bs =>
    match digitVal base b with
    | some d => readDigits base (v * base + d) (k + 1) bs
    | none => (v, k)

/-- A number after the sign: the value, and the length of its text (0 if there is none). -/
def magnitude (s : Bytes) : Nat × Nat :=
  match s with
  | 48 :: b :: bs =>
    if b = 120 ∨ b = 88 then
      let (v, k) := readDigits 16 0 0 bs
      if k = 0 then (0, 1) else (v, k + 2)
    else readDigits 8 0 0 s
  | _ => readDigits 10 0 0 s

/-- A number with white space and sign: whether there is a minus, the value, and the length of
the text (0 if there is no number). -/
def number (s : Bytes) : Bool × Nat × Nat :=
  let sp := (s.takeWhile isSpace).length
  match s.drop sp with
  | 45 :: t => let (v, k) := magnitude t; (true, v, if k = 0 then 0 else sp + 1 + k)
  | 43 :: t => let (v, k) := magnitude t; (false, v, if k = 0 then 0 else sp + 1 + k)
  | t => let (v, k) := magnitude t; (false, v, if k = 0 then 0 else sp + k)

/-- `strtol`: the value is kept within the type. -/
def strtol (s : Bytes) : Int × Nat :=
  let (neg, v, k) := number s
  (if neg then max (-(v : Int)) (-2 ^ 63) else min (v : Int) (2 ^ 63 - 1), k)

/-- `strtoul`: a minus is taken modulo the type. -/
def strtoul (s : Bytes) : Nat × Nat :=
  let (neg, v, k) := number s
  (if v ≥ 2 ^ 64 then 2 ^ 64 - 1 else if neg then u64 (-(v : Int)) else v, k)

/-- `c_str` as C functions see it: up to the first null byte. -/
def cstr (s : Bytes) : Bytes := s.takeWhile (· ≠ 0)

/-! ## Conversions -/

/-- A double converted to `int64_t`. -/
def castI64 (F : Floats) (w : Nat) : Option Int :=
  match F.trunc w with
  | some t => if -2 ^ 63 ≤ t ∧ t < 2 ^ 63 then some t else none
  | none => none

/-- A double converted to `uint64_t`. -/
def castU64 (F : Floats) (w : Nat) : Option Nat :=
  match F.trunc w with
  | some t => if 0 ≤ t ∧ t < 2 ^ 64 then some t.toNat else none
  | none => none

/-- `to_i`, /repo/json.hh:1772-1777, and `hard_to_i`, /repo/json.cc:387-417. -/
def toI (F : Floats) (m : Mem) (r : Rep) : Option Int :=
  if isInt r then some (i64 r.x)
  else if r.typ = 1 ∨ r.typ = 2 then (size m r).map fun n => (n : Int)
  else if r.typ = 6 then some (i64 r.x)
  else if r.typ = 5 then castI64 F r.x
  else if r.x = 0 then some 0
  else
    let b := text m r
    let (v, k) := strtol (cstr b)
    if (k : Int) = r.len then some v else castI64 F (F.strtod (cstr b))

/-- `to_u`, /repo/json.hh:1779-1784, and `hard_to_u`, /repo/json.cc:419-448. -/
def toU (F : Floats) (m : Mem) (r : Rep) : Option Nat :=
  if isInt r then some r.x
  else if r.typ = 1 ∨ r.typ = 2 then size m r
  else if r.typ = 6 then some r.x
  else if r.typ = 5 then castU64 F r.x
  else if r.x = 0 then some 0
  else
    let b := text m r
    let (v, k) := strtoul (cstr b)
    if (k : Int) = r.len then some v else castU64 F (F.strtod (cstr b))

/-- Whether a double is not zero: all bits but the sign. -/
def nonzero (w : Nat) : Bool := decide (w % 2 ^ 63 ≠ 0)

/-- `to_b`, /repo/json.hh:1957-1962, and `hard_to_b`, /repo/json.cc:472-488. -/
def toB (m : Mem) (r : Rep) : Option Bool :=
  if isBool r then some (decide (r.x ≠ 0))
  else if r.typ = 1 ∨ r.typ = 2 then (empty m r).map fun b => !b
  else if r.typ = 3 ∨ r.typ = 4 then some (decide (i64 r.x ≠ 0))
  else if r.typ = 5 then some (nonzero r.x)
  else some (decide (r.len ≠ 0))

/-- `bool_data`, /repo/string.cc:87: "false\0true\0". -/
def boolData : Bytes := [102, 97, 108, 115, 101, 0, 116, 114, 117, 101, 0]

/-- `String(bool)`, /repo/string.hh:447-450. -/
def boolString (x : Nat) : Bytes := (boolData.drop (if x = 0 then 0 else 6)).take (5 - x)

/-- `to_s`, /repo/json.hh:2000-2005, and `hard_to_s`, /repo/json.cc:490-512. -/
def toS (F : Floats) (m : Mem) (r : Rep) : Bytes :=
  if r.typ ≤ 0 ∧ r.x ≠ 0 then text m r
  else if r.typ = 1 then [91, 65, 114, 114, 97, 121, 93]
  else if r.typ = 2 then [91, 79, 98, 106, 101, 99, 116, 93]
  else if r.typ = 6 then boolString (if r.x ≠ 0 then 1 else 0)
  else if r.typ = 3 then decimal (i64 r.x)
  else if r.typ = 4 then decimal (r.x : Int)
  else if r.typ = 5 then F.print r.x
  else if r.x = 0 then [] else text m r

/-- A whole number converted to an integer type with so many bits. -/
def conv (bits : Nat) (signed : Bool) (z : Int) : Int :=
  let y := z % 2 ^ bits
  if signed = true ∧ 2 ^ (bits - 1) ≤ y then y - 2 ^ bits else y

/-- Whether an integer type can hold a number. -/
def holds (bits : Nat) (signed : Bool) (z : Int) : Prop :=
  if signed = true then -2 ^ (bits - 1) ≤ z ∧ z < 2 ^ (bits - 1) else 0 ≤ z ∧ z < 2 ^ bits

instance (bits : Nat) (signed : Bool) (z : Int) : Decidable (holds bits signed z) := by
  unfold holds; infer_instance

/-- `to_i(T& x)`, /repo/json.hh:1792-1861: the value given, or nothing if it returns false. -/
def toRef (F : Floats) (bits : Nat) (signed : Bool) (r : Rep) : Option (Option Int) :=
  if isInt r then some (some (conv bits signed (if signed = true then i64 r.x else (r.x : Int))))
  else if isDouble r then
    match F.trunc r.x with
    | some t =>
      if holds bits signed t then
        if F.eq r.x (F.ofInt t) then some (some t) else some none
      else none
    | none => none
  else some none

/-! ## Comparison, /repo/json.cc:546-563 -/

def eq (F : Floats) (m : Mem) (a b : Rep) : Bool :=
  if (a.typ > 0 ∨ b.typ > 0) ∧ a.typ ≠ b.typ then
    decide (a.x = b.x) && decide (i64 a.x ≥ 0) && isInt a && isInt b
  else if a.typ = 3 ∨ a.typ = 4 ∨ a.typ = 6 then decide (a.x = b.x)
  else if a.typ = 5 then F.eq a.x b.x
  else if a.typ > 0 ∨ a.x = 0 ∨ b.x = 0 then decide (a.x = b.x)
  else decide (text m a = text m b)

/-! ## Arithmetic -/

/-- `force_number`, /repo/json.hh:2055-2059. -/
def forceNumber (r : Rep) : Option Rep :=
  if (r.typ = 0 ∧ r.x = 0) ∨ r.typ = 3 ∨ r.typ = 5 then
    if r.typ = 0 ∧ r.x = 0 then some { r with typ := 3 } else some r
  else none

/-- `force_double`, /repo/json.hh:2061-2072. -/
def forceDouble (F : Floats) (r : Rep) : Option Rep :=
  if (r.typ = 0 ∧ r.x = 0) ∨ r.typ = 3 ∨ r.typ = 5 then
    if r.typ = 0 ∧ r.x = 0 then some { r with typ := 5 }
    else if r.typ = 3 then some { r with x := F.ofInt (i64 r.x), typ := 5 }
    else if r.typ = 4 then some { r with x := F.ofInt r.x, typ := 5 }
    else some r
  else none

/-- `add(T x)`, /repo/json.hh:3029-3037, for integer types. -/
def addInt (F : Floats) (t : Int) (r : Rep) : Option Rep :=
  match forceNumber r with
  | none => none
  | some r =>
    if isInt r then some { r with x := u64 (r.x + t) }
    else some { r with x := F.add r.x (F.ofInt t) }

/-- `subtract(T x)`, /repo/json.hh:3043-3051. -/
def subInt (F : Floats) (t : Int) (r : Rep) : Option Rep :=
  match forceNumber r with
  | none => none
  | some r =>
    if isInt r then some { r with x := u64 (r.x - t) }
    else some { r with x := F.sub r.x (F.ofInt t) }

/-- `add(double x)`, /repo/json.hh:3024-3028. -/
def addDouble (F : Floats) (w : Nat) (r : Rep) : Option Rep :=
  match forceDouble F r with
  | none => none
  | some r => some { r with x := F.add r.x w }

/-- `subtract(double x)`, /repo/json.hh:3038-3042. -/
def subDouble (F : Floats) (w : Nat) (r : Rep) : Option Rep :=
  match forceDouble F r with
  | none => none
  | some r => some { r with x := F.sub r.x w }

/-- `++` and `--`, /repo/json.hh:3012-3023. -/
def inc (F : Floats) (r : Rep) : Option Rep := addInt F 1 r
def dec (F : Floats) (r : Rep) : Option Rep := addInt F (-1) r

/-- `as_d`, /repo/json.hh:1932-1940. -/
def asD (F : Floats) (r : Rep) : Option Nat :=
  if isDouble r ∨ isInt r then
    if isDouble r then some r.x
    else if r.typ = 3 then some (F.ofInt (i64 r.x)) else some (F.ofInt r.x)
  else none

/-- `r += x`, /repo/json.hh:3094-3102, as it is written: what is added is a part of `r`. -/
def addJson (F : Floats) (r x : Rep) : Option Rep :=
  if isUnsigned x then addInt F r.x r
  else if isInt x then addInt F (i64 r.x) r
  else if !isNull x then
    match asD F x with
    | some w => addDouble F w r
    | none => none
  else some r

/-- `r -= x`, /repo/json.hh:3103-3111. -/
def subJson (F : Floats) (r x : Rep) : Option Rep :=
  if isUnsigned x then subInt F r.x r
  else if isInt x then subInt F (i64 r.x) r
  else if !isNull x then
    match asD F x with
    | some w => subDouble F w r
    | none => none
  else some r

/-- `-x`, /repo/json.hh:3116-3123. -/
def neg (F : Floats) (r : Rep) : Option Rep :=
  match forceNumber r with
  | none => none
  | some r =>
    if isInt r then some { r with x := u64 (-(r.x : Int)) }
    else some { r with x := F.neg r.x }

/-! ## Keys of arrays -/

/-- The loop of `string_to_int_key`, /repo/json.cc:223-226, for `unsigned`. -/
def keyLoop (x : Nat) : Bytes → Option Nat
  | [] => some x
  | b :: bs => if isDigit b then keyLoop ((10 * x + (b - 48)) % 2 ^ 32) bs else none

/-- `string_to_int_key`, /repo/json.cc:216-227. -/
def stringToIntKey (s : Bytes) : Option Nat :=
  match s with
  | [] => none
  | b :: bs =>
    if isDigit b = false ∨ (b = 48 ∧ bs ≠ []) then none else keyLoop (b - 48) bs

/-- `get(Str)` of an array with so many elements, /repo/json.hh:2090-2098 and
/repo/json.cc:514-523: the index of the element, or nothing for null. -/
def getKey (n : Nat) (s : Bytes) : Option Nat :=
  match stringToIntKey s with
  | some i => if i < n then some i else none
  | none => none

end Verif.JsonNum
