import Verif.Key.Model

/-!
# Rows in the string layout

Model of `value_string` (/repo/value_string.hh).  A byte of a row that was allocated but never
written, or was copied from past the end of the old row, is `none`; `update` reports whether it
read past the end of the old row, and a write past the end of the new row is the outcome `none`.
Sums of offsets and lengths are taken not to wrap in 32 bits (values are shorter than 2^31).
-/
namespace Verif.Row.Str
open Verif.Key (Byte Bytes)

/-- `value_string`, /repo/value_string.hh:66-68. -/
structure Row where
  ts : BitVec 64
  s : List (Option Byte)

/-- `make_index`, /repo/value_string.hh:75-77. -/
def makeIndex (offset length : Nat) : Nat := (offset + length * 2 ^ 16) % 2 ^ 32

/-- `index_offset`, /repo/value_string.hh:79-81. -/
def indexOffset (idx : Nat) : Nat := idx % 2 ^ 16

/-- `index_length`, /repo/value_string.hh:83-85. -/
def indexLength (idx : Nat) : Nat := idx / 2 ^ 16

/-- `col(idx)`, /repo/value_string.hh:107-114. -/
def Row.col (r : Row) (idx : Nat) : List (Option Byte) :=
  if idx = 0 then r.s
  else
    let off := min r.s.length (indexOffset idx)
    (r.s.drop off).take (min (r.s.length - off) (indexLength idx))

/-- The first loop of `update`, /repo/value_string.hh:136-142: `(vallen, cut)`. -/
def sizes : List (Nat × Bytes) → Nat × Nat → Nat × Nat
  | [], vc => vc
  | (idx, v) :: ups, (vallen, cut) =>
    sizes ups (max vallen (indexOffset idx + v.length), if idx = 0 then v.length else cut)

/-- `memcpy(dst + off, v, v.length())`, inside `dst`. -/
def write (dst : List (Option Byte)) (off : Nat) (v : Bytes) : List (Option Byte) :=
  dst.take off ++ v.map some ++ dst.drop (off + v.length)

/-- The second loop of `update`, /repo/value_string.hh:148-151. -/
def writeAll : List (Option Byte) → List (Nat × Bytes) → Option (List (Option Byte))
  | dst, [] => some dst
  | dst, (idx, v) :: ups =>
    if indexOffset idx + v.length ≤ dst.length then writeAll (write dst (indexOffset idx) v) ups else none

/-- `update`, /repo/value_string.hh:133-153.  The flag is set if bytes past the end of the old row
were read. -/
def Row.update (r : Row) (ups : List (Nat × Bytes)) (ts : BitVec 64) : Option (Bool × Row) :=
  let (vallen, cut) := sizes ups (0, r.s.length)
  let vallen := max vallen cut
  match writeAll (r.s.take cut ++ List.replicate (vallen - min cut r.s.length) none) ups with
  | none => none
  | some s => some (decide (r.s.length < cut), { ts := ts, s := s })

/-- `create`, /repo/value_string.hh:155-159. -/
def create (ups : List (Nat × Bytes)) (ts : BitVec 64) : Option (Bool × Row) :=
  Row.update { ts := 0, s := [] } ups ts

/-- `create1`, /repo/value_string.hh:161-169. -/
def create1 (v : Bytes) (ts : BitVec 64) : Row := { ts := ts, s := v.map some }

end Verif.Row.Str
