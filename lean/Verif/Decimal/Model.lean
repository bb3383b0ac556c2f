import Verif.Key.Model

/-!
# Decimal key strings

Model of `quick_istr` (/repo/misc.hh:50-105).  The buffer is filled backwards, so the model
conses digits onto the string built so far.  A write below the start of the 32-byte buffer, or
an increment that runs past the start of the string, is the outcome `none`.
-/
namespace Verif.Decimal
open Verif.Key (Bytes)

/-- The loop of `set`, /repo/misc.hh:61-67: `acc` is the part of the buffer from `bbuf_` on,
without the final zero.  `minlen` is an `int`. -/
def setLoop (x : Nat) (minlen : Int) (acc : Bytes) : Option Bytes :=
  if acc.length ≥ 31 then none
  else
    let acc := (UInt8.ofNat (x % 10) + 48) :: acc
    if minlen - 1 > 0 ∨ x / 10 ≠ 0 then setLoop (x / 10) (minlen - 1) acc
    else some acc
termination_by 31 - acc.length
decreasing_by simp only [List.length_cons]; omega

/-- `set(x, minlen)`, /repo/misc.hh:61-67; `x` is an `unsigned long`. -/
def set (x : Nat) (minlen : Int) : Option Bytes := setLoop (x % 2 ^ 64) minlen []

/-- `increment_from_end`, /repo/misc.hh:86-95, on the reversed string.  `char` may be signed or
not: the digits and their successors are below 128. -/
def incrRev : Bytes → Option Bytes
  | [] => none
  | d :: ds =>
    if d + 1 ≤ 57 then some ((d + 1) :: ds)
    else (incrRev ds).map fun ds => 48 :: ds

/-- `increment_from_end`, /repo/misc.hh:86-95, on the string that ends at `ends`. -/
def increment (s : Bytes) : Option Bytes := (incrRev s.reverse).map List.reverse

/-- `binary_increment_from_end`, /repo/misc.hh:96-104, on the reversed string. -/
def binIncrRev : Bytes → Option Bytes
  | [] => none
  | d :: ds =>
    if d + 1 ≠ 0 then some ((d + 1) :: ds)
    else (binIncrRev ds).map fun ds => 0 :: ds

/-- `binary_increment_from_end`, /repo/misc.hh:96-104. -/
def binIncrement (s : Bytes) : Option Bytes := (binIncrRev s.reverse).map List.reverse

end Verif.Decimal
