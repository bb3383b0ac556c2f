import Verif.Key.Model

/-!
# Rows in the array layouts

Model of `value_array` (/repo/value_array.hh, /repo/value_array.cc) and
`value_versioned_array` (/repo/value_versioned_array.hh, /repo/value_versioned_array.cc).

A row holds one pointer per column, null for an empty column.  Column strings live in a heap:
a pointer is the number of the allocation.  `freed` lists the columns handed to
`deallocate_column` or `deallocate_column_rcu`.  An access outside a row's columns is the
outcome `none`.  Timestamps are left out of the model of `value_array` apart from being stored.
-/
namespace Verif.Row.Array
open Verif.Key (Bytes)

/-- Column strings: `next` is the next allocation. -/
structure Heap where
  next : Nat
  str : Nat → Bytes
  freed : List Nat

/-- `make_column`, /repo/value_array.hh:97-106. -/
def Heap.make (h : Heap) (v : Bytes) : Option Nat × Heap :=
  if v = [] then (none, h)
  else (some h.next, { h with next := h.next + 1, str := fun p => if p = h.next then v else h.str p })

/-- `deallocate_column` and `deallocate_column_rcu`, /repo/value_array.hh:108-118. -/
def Heap.free (h : Heap) : Option Nat → Heap
  | none => h
  | some p => { h with freed := p :: h.freed }

/-- `value_array`, /repo/value_array.hh:61-63. -/
structure Row where
  ts : BitVec 64
  cols : List (Option Nat)

/-- `col(i)`, /repo/value_array.hh:82-87. -/
def Row.col (r : Row) (h : Heap) (i : Nat) : Bytes :=
  match r.cols.getD i none with
  | some p => h.str p
  | none => []

/-- The column assignments of `value_array::update`, /repo/value_array.cc:39-40. -/
def assignAll (h : Heap) : List (Option Nat) → List (Nat × Bytes) → Option (List (Option Nat) × Heap)
  | cols, [] => some (cols, h)
  | cols, (i, v) :: ups =>
    if i < cols.length then
      let (p, h) := h.make v
      assignAll h (cols.set i p) ups
    else none

/-- `update`, /repo/value_array.cc:30-42. -/
def Row.update (r : Row) (h : Heap) (ups : List (Nat × Bytes)) (ts : BitVec 64) : Option (Row × Heap) :=
  match ups.getLast? with
  | none => none
  | some (last, _) =>
    let ncol := max r.cols.length (last + 1)
    match assignAll h (r.cols ++ List.replicate (ncol - r.cols.length) none) ups with
    | none => none
    | some (cols, h) => some ({ ts := ts, cols := cols }, h)

/-- `deallocate_rcu_after_update`, /repo/value_array.cc:56-60, for the columns. -/
def Row.freeAfterUpdate (r : Row) (h : Heap) : List (Nat × Bytes) → Heap
  | [] => h
  | (i, _) :: ups =>
    if i < r.cols.length then r.freeAfterUpdate (h.free (r.cols.getD i none)) ups else h

/-- `create1`, /repo/value_array.hh:126-132. -/
def create1 (h : Heap) (v : Bytes) (ts : BitVec 64) : Row × Heap :=
  let (p, h) := h.make v
  ({ ts := ts, cols := [p] }, h)

/-- `create`, /repo/value_array.hh:120-124. -/
def create (h : Heap) (ups : List (Nat × Bytes)) (ts : BitVec 64) : Option (Row × Heap) :=
  Row.update { ts := 0, cols := [] } h ups ts

/-- `deallocate_rcu`, /repo/value_array.cc:50-54, for the columns. -/
def Row.freeAll (r : Row) (h : Heap) : Heap := r.cols.foldl Heap.free h

/-- The replacement of a stored row by `apply_put` (/repo/kvrow.hh:201-205): update the row and
retire what the new one does not use. -/
def put (r : Row) (h : Heap) (ups : List (Nat × Bytes)) (ts : BitVec 64) : Option (Row × Heap) :=
  match r.update h ups ts with
  | none => none
  | some (r', h') => some (r', r.freeAfterUpdate h' ups)

/-! ### The versioned array -/

/-- `value_versioned_array`, /repo/value_versioned_array.hh:108-112.  `cols` has `ncol_cap_`
elements. -/
structure VRow where
  ts : BitVec 64
  ncol : Nat
  cols : List (Option Nat)

/-- `col(i)`, /repo/value_versioned_array.hh:146-151. -/
def VRow.col (r : VRow) (h : Heap) (i : Nat) : Bytes :=
  if i < r.ncol then
    match r.cols.getD i none with
    | some p => h.str p
    | none => []
  else []

/-- The column assignments of `value_versioned_array::update`,
/repo/value_versioned_array.cc:74-78. -/
def replaceAll (h : Heap) : List (Option Nat) → List (Nat × Bytes) → Option (List (Option Nat) × Heap)
  | cols, [] => some (cols, h)
  | cols, (i, v) :: ups =>
    if i < cols.length then
      let (p, h) := (h.free (cols.getD i none)).make v
      replaceAll h (cols.set i p) ups
    else none

/-- `update`, /repo/value_versioned_array.cc:50-85, apart from the version.  The flag tells
whether a new row was made. -/
def VRow.update (r : VRow) (h : Heap) (ups : List (Nat × Bytes)) (ts : BitVec 64) (alwaysCopy : Bool) :
    Option (Bool × VRow × Heap) :=
  match ups.getLast? with
  | none => none
  | some (last, _) =>
    let ncol := last + 1
    let copy := ncol > r.cols.length || alwaysCopy
    if copy && ncol < r.ncol then none
    else
      let row : VRow :=
        if copy then { ts := ts, ncol := ncol, cols := r.cols.take r.ncol ++ List.replicate (ncol - r.ncol) none }
        else
          { r with
            ncol := max r.ncol ncol
            cols := if ncol > r.ncol then
                r.cols.take r.ncol ++ List.replicate (ncol - r.ncol) none ++ r.cols.drop ncol
              else r.cols }
      match replaceAll h row.cols ups with
      | none => none
      | some (cols, h) => some (copy, { row with cols := cols }, h)

/-- `make_sized_row`, /repo/value_versioned_array.cc:20-27. -/
def sizedRow (ncol : Nat) (ts : BitVec 64) : VRow := { ts := ts, ncol := ncol, cols := List.replicate ncol none }

/-- `deallocate`, /repo/value_versioned_array.cc:87-91, for the columns. -/
def VRow.freeAll (r : VRow) (h : Heap) : Heap := (r.cols.take r.ncol).foldl Heap.free h

/-- The storage a snapshot uses, /repo/value_versioned_array.cc:31-35. -/
def VRow.storageFor (r : VRow) (h : Heap) : Option VRow → VRow × Heap
  | none => (sizedRow r.ncol r.ts, h)
  | some s => if s.cols.length < r.ncol then (sizedRow r.ncol r.ts, s.freeAll h) else (s, h)

/-- `snapshot(storage, f)`, /repo/value_versioned_array.cc:29-48, when no update is running:
the new storage and the heap. -/
def VRow.snapshot (r : VRow) (h : Heap) (storage : Option VRow) (f : List Nat) : Option (VRow × Heap) :=
  let (st, h) := r.storageFor h storage
  match f with
  | [i] =>
    if i < st.cols.length ∧ i < r.cols.length then
      some ({ st with ncol := r.ncol, cols := st.cols.set i (r.cols.getD i none) }, h)
    else none
  | _ => some ({ st with ncol := r.ncol, cols := r.cols.take r.ncol ++ st.cols.drop r.ncol }, h)

end Verif.Row.Array
