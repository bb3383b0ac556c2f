import Verif.JsonNum.Model

/-!
# Values of command line options

`parse_int` (/repo/clp.c:1108-1141), `parse_double` (/repo/clp.c:1143-1159) and
`clp_parse_suffixdouble` (/repo/misc.cc:20-40).

Simplifications:
* a text is its bytes without the null byte at the end; none of them is null;
* `long` has 64 bits, and the machine is little-endian, so the lower half of `val.ul` is `val.u`
  and the assignment in line 1129 changes nothing;
* `HAVE_STRTOUL` is set; `strtod` and the products of doubles are parameters; doubles are their bits;
* messages are not modelled.
-/
namespace Verif.Options.Values
open Verif.Json (Bytes)
open Verif.JsonNum (isSpace strtol strtoul u64 i64)

/-- The types that `parse_int` serves, by the number it is given (/repo/clp.c:564-567). -/
inductive IntType where
  | int | unsigned | long | ulong
  deriving DecidableEq, Repr

def IntType.code : IntType → Nat
  | .int => 0
  | .unsigned => 1
  | .long => 2
  | .ulong => 3

/-- The first part of `parse_int`, /repo/clp.c:1111-1127: the word in `clp->val`, and how far `val` is. -/
def scanInt (ty : IntType) (old : Nat) (arg : Bytes) : Nat × Nat :=
  if arg = [] ∨ isSpace (arg.headD 0) = true ∨ (ty.code % 2 = 1 ∧ arg.headD 0 = 45) then (old, 0)
  else if ty.code % 2 = 1 then strtoul arg
  else (u64 (strtol arg).1, (strtol arg).2)

/-- `parse_int`, /repo/clp.c:1108-1141: whether it succeeds, and the word in `clp->val`. -/
def parseInt (ty : IntType) (old : Nat) (arg : Bytes) : Bool × Nat :=
  (decide (arg ≠ []) && decide ((scanInt ty old arg).2 = arg.length), (scanInt ty old arg).1)

/-- What a program finds in `clp->val.i`, `.u`, `.l`, `.ul` (/repo/clp.h:201-205). -/
def IntType.get : IntType → Nat → Int
  | .int, w => if w % 2 ^ 32 < 2 ^ 31 then ((w % 2 ^ 32 : Nat) : Int) else ((w % 2 ^ 32 : Nat) : Int) - 2 ^ 32
  | .unsigned, w => ((w % 2 ^ 32 : Nat) : Int)
  | .long, w => i64 w
  | .ulong, w => w

/-- The value that an option with this text has. -/
def intValue (ty : IntType) (old : Nat) (arg : Bytes) : Option Int :=
  if (parseInt ty old arg).1 = true then some (ty.get (parseInt ty old arg).2) else none

/-- `strtod`: the value and how many bytes it read; and the product of a double and a number. -/
structure Doubles where
  strtod : Bytes → Nat × Nat
  mul : Nat → Nat → Nat

/-- The first part of both, /repo/clp.c:1146-1151 and /repo/misc.cc:23-27. -/
def scanDouble (D : Doubles) (old : Nat) (arg : Bytes) : Nat × Nat :=
  if arg = [] ∨ isSpace (arg.headD 0) = true then (old, 0) else D.strtod arg

/-- `parse_double`, /repo/clp.c:1143-1159. -/
def parseDouble (D : Doubles) (old : Nat) (arg : Bytes) : Bool × Nat :=
  (decide (arg ≠ []) && decide ((scanDouble D old arg).2 = arg.length), (scanDouble D old arg).1)

/-- The suffix, /repo/misc.cc:28-33; `c` is `*post`, or `none` at the end. -/
def applySuffix (D : Doubles) (d post : Nat) (c : Option Nat) : Nat × Nat :=
  if post ≠ 0 ∧ (c = some 75 ∨ c = some 107) then (D.mul d 1000, post + 1)
  else if post ≠ 0 ∧ (c = some 77 ∨ c = some 109) then (D.mul d 1000000, post + 1)
  else if post ≠ 0 ∧ (c = some 66 ∨ c = some 98 ∨ c = some 71 ∨ c = some 103) then (D.mul d 1000000000, post + 1)
  else (d, post)

/-- `clp_parse_suffixdouble`, /repo/misc.cc:20-40. -/
def parseSuffix (D : Doubles) (old : Nat) (vstr : Bytes) : Bool × Nat :=
  let p := scanDouble D old vstr
  let q := applySuffix D p.1 p.2 vstr[p.2]?
  (decide (vstr ≠ []) && decide (q.2 = vstr.length), q.1)

end Verif.Options.Values
