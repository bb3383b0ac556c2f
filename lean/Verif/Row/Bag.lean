import Verif.Key.Model

/-!
# Rows in the bag layout

Model of `value_bag<uint16_t>` (/repo/value_bag.hh), the default row type
(/repo/kvrow.hh:33-36).

A row's memory after the timestamp is `ncol_`, then `ncol_ + 1` offsets `pos_`, then the bytes
of the columns; offsets count from `ncol_`.  The model keeps the three parts separately.  A new
row is filled from the front, so the model appends to the parts that exist so far.  A copy of
negative length, a read outside the old row or a write outside the new one is the outcome `none`.
-/
namespace Verif.Row.Bag
open Verif.Key (Bytes)

/-- `value_bag<uint16_t>`, /repo/value_bag.hh:30-36, 79-81. -/
structure Row where
  ts : BitVec 64
  ncol : Nat
  pos : List Nat
  data : Bytes
  deriving DecidableEq

/-- `sizeof(bagdata) + ncol * sizeof(offset_type)`: the offset of the first column's bytes. -/
def hdr (ncol : Nat) : Nat := 4 + 2 * ncol

/-- Conversion to `offset_type`. -/
def off16 (x : Int) : Nat := (x % 65536).toNat

/-- `pos_[i]`. -/
def Row.at (r : Row) (i : Nat) : Nat := r.pos.getD i 0

/-- The bytes `s_ + p` up to `s_ + p + n`; `none` outside the column data. -/
def Row.read (r : Row) (p n : Nat) : Option Bytes :=
  if n = 0 then some []
  else if hdr r.ncol ≤ p ∧ p + n ≤ hdr r.ncol + r.data.length then some ((r.data.drop (p - hdr r.ncol)).take n)
  else none

/-- The default constructor, /repo/value_bag.hh:85-90. -/
def empty : Row := { ts := 0, ncol := 0, pos := [4], data := [] }

/-- `size()`, /repo/value_bag.hh:97-100. -/
def Row.size (r : Row) : Nat := 8 + r.at r.ncol

/-- `column_length(i)`, /repo/value_bag.hh:107-110. -/
def Row.columnLength (r : Row) (i : Nat) : Nat := off16 ((r.at (i + 1) : Int) - r.at i)

/-- `col(i)`, /repo/value_bag.hh:112-118. -/
def Row.col (r : Row) (i : Nat) : Option Bytes :=
  if i < r.ncol then r.read (r.at i) (r.columnLength i) else some []

/-- The first loop of `update`, /repo/value_bag.hh:142-153: the new size and column count. -/
def newSize (r : Row) : List (Nat × Bytes) → Int → Nat → Int × Nat
  | [], sz, ncol => (sz, ncol)
  | (i, v) :: ups, sz, ncol =>
    if i < r.ncol then newSize r ups (sz + v.length - r.columnLength i) ncol
    else newSize r ups (sz + v.length) (i + 1)

/-- `n` more columns set to the empty string at offset `sz`, /repo/value_bag.hh:190-194. -/
def fill (pos : List Nat) (n sz : Nat) : List Nat := pos ++ List.replicate n (off16 sz)

/-- The copy of the columns `col ≤ i < endCol` of the old row, /repo/value_bag.hh:176-187, as the
new offsets and the bytes; `sz` is where the bytes go.  (With `delta == 0` the code copies the
offsets unchanged.) -/
def copyOld (r : Row) (col endCol sz : Nat) : Option (List Nat × Bytes) :=
  let amt : Int := r.at endCol - r.at col
  if amt < 0 then none
  else
    match r.read (r.at col) amt.toNat with
    | none => none
    | some bytes =>
      some (((r.pos.drop col).take (endCol - col)).map fun (p : Nat) => off16 (p + (sz - r.at col : Int)), bytes)

/-- The step that copies old columns up to `thisCol`, /repo/value_bag.hh:174-188: the column
reached and what has been written so far. -/
def copyStep (r : Row) (ncol thisCol col : Nat) (pos : List Nat) (data : Bytes) : Option (Nat × List Nat × Bytes) :=
  if col ≠ thisCol ∧ col < r.ncol then
    match copyOld r col (min thisCol r.ncol) (hdr ncol + data.length) with
    | none => none
    | some (ps, bytes) => some (min thisCol r.ncol, pos.take col ++ ps, data ++ bytes)
  else some (col, pos, data)

/-- One round of the second loop of `update` up to the change, /repo/value_bag.hh:172-194: copy
old columns and mark empty ones until column `thisCol`. -/
def advance (r : Row) (ncol : Nat) (cap : Int) (thisCol col : Nat) (pos : List Nat) (data : Bytes) :
    Option (List Nat × Bytes) :=
  match copyStep r ncol thisCol col pos data with
  | none => none
  | some (col, pos, data) =>
    if thisCol < col ∨ ncol < thisCol ∨ (data.length : Int) > cap then none
    else some (fill (pos.take col) (thisCol - col) (hdr ncol + data.length), data)

/-- The second loop of `update`, /repo/value_bag.hh:172-207.  `cap` is the number of column bytes
allocated, `col` the column reached, `pos` and `data` what has been written so far. -/
def build (r : Row) (ncol : Nat) (cap : Int) :
    List (Nat × Bytes) → Nat → List Nat → Bytes → Option (List Nat × Bytes)
  | [], col, pos, data =>
    match advance r ncol cap ncol col pos data with
    | none => none
    | some (pos, data) => some (pos ++ [off16 (hdr ncol + data.length : Nat)], data)
  | (i, v) :: ups, col, pos, data =>
    match advance r ncol cap i col pos data with
    | none => none
    | some (pos, data) =>
      if i = ncol then some (pos ++ [off16 (hdr ncol + data.length : Nat)], data)
      else if ((data ++ v).length : Int) > cap then none
      else build r ncol cap ups (i + 1) (pos ++ [off16 (hdr ncol + data.length : Nat)]) (data ++ v)

/-- `update(first, last, ts)`, /repo/value_bag.hh:138-209; the updates are (column, value) pairs. -/
def Row.update (r : Row) (ups : List (Nat × Bytes)) (ts : BitVec 64) : Option Row :=
  let (sz, n) := newSize r ups r.size r.ncol
  let sz := if n > r.ncol then sz + (n - r.ncol : Nat) * 2 else sz
  -- what is allocated for column bytes
  let cap : Int := sz % 2 ^ 64 - 8 - hdr n
  let general : Option Row :=
    match build r n cap ups 0 [] [] with
    | none => none
    | some (pos, data) => some { ts := ts, ncol := off16 n, pos := pos, data := data }
  match ups with
  | [(i, v)] =>
    if n = r.ncol ∧ sz = r.size ∧ v.length ≤ 16 then
      if hdr r.ncol ≤ r.at i ∧ r.at i + v.length ≤ hdr r.ncol + r.data.length then
        let p := r.at i - hdr r.ncol
        some { r with ts := ts, data := r.data.take p ++ v ++ r.data.drop (p + v.length) }
      else none
    else general
  | _ => general

/-- `create`, /repo/value_bag.hh:218-223. -/
def create (ups : List (Nat × Bytes)) (ts : BitVec 64) : Option Row := empty.update ups ts

/-- `create1`, /repo/value_bag.hh:225-235. -/
def create1 (v : Bytes) (ts : BitVec 64) : Row :=
  { ts := ts, ncol := 1, pos := [6, off16 (6 + v.length)], data := v }

end Verif.Row.Bag
