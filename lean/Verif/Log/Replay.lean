import Verif.Log.Record
import Verif.Msgpack.Parser
import Verif.Row.Bag

/-!
# Replaying log records

Model of `logrecord::run`, `parse_changeset` and `logrecord::apply`, /repo/log.cc:492-602, for one key.  What
the table holds for the key is a chain of delta markers, newest first, ending in a row or in nothing.  A delta
marker is a modification that arrived before the row it modifies.

Simplifications:
* The row types are abstract (`Rows`); `bagRows` is the instance for the default row type.
* A delta marker keeps its change set exactly (the code stores it as a row of one column, which a bag row
  can do below 64 KB).
* `none` is undefined behaviour: a failed assertion or over-read in the parser, or undefined behaviour of
  the row operations.  Modifying a row that is itself a delta marker is also `none`; its timestamp is odd and
  logged previous timestamps are even, so this does not arise.
* Freeing the rows replaced is not modelled.
-/
namespace Verif.Log
open Verif.Key (Bytes)

/-- What replay needs to know about the row type. -/
structure Rows (V : Type) where
  /-- `parse_changeset`. -/
  parse : Bytes → Option (List (Nat × Bytes))
  ts : V → Nat
  create : List (Nat × Bytes) → Nat → Option V
  create1 : Bytes → Nat → V
  update : V → List (Nat × Bytes) → Nat → Option V

/-- The commands that are replayed, /repo/log.hh:120-126. -/
inductive Cmd where
  | put | replace | modify | remove
  deriving DecidableEq, Repr

/-- A `logrecord` of a key. -/
structure Upd where
  cmd : Cmd
  ts : Nat
  prev : Nat
  val : Bytes
  deriving DecidableEq, Repr

/-- The bytes of a `row_marker` of type `mt_remove`, /repo/kvproto.hh:47-50. -/
def removeMarker : Bytes := [1, 0, 0, 0]

/-- What `run` does to the record before applying it, /repo/log.cc:494-499. -/
def Upd.prepare (u : Upd) : Upd := if u.cmd = .remove then { u with ts := u.ts ||| 1, val := removeMarker } else u

/-- A delta marker: `row_delta_marker` and the change set behind it. -/
structure Delta where
  ts : Nat
  prev : Nat
  cs : Bytes
  deriving DecidableEq, Repr

/-- What is stored for the key. -/
structure Cell (V : Type) where
  deltas : List Delta
  base : Option V

/-- The marker made of a modification, /repo/log.cc:566-577. -/
def Upd.mark (u : Upd) : Delta := ⟨u.ts ||| 1, u.prev, u.val⟩

/-- The timestamp of the first row of a chain. -/
def headTs {V : Type} (R : Rows V) : List Delta → Option V → Option Nat
  | d :: _, _ => some d.ts
  | [], b => b.map R.ts

/-- The change at the point found, /repo/log.cc:541-578. -/
def change {V : Type} (R : Rows V) (tl : List Delta) (base : Option V) (u : Upd) : Option (List Delta × Option V) :=
  match u.cmd with
  | .replace => some ([], some (R.create1 u.val u.ts))
  | .put | .remove => (R.parse u.val).bind fun ch => (R.create ch u.ts).map fun v => ([], some v)
  | .modify =>
    if headTs R tl base = some u.prev then
      match tl, base with
      | [], some v => (R.parse u.val).bind fun ch => (R.update v ch u.ts).map fun v' => ([], some v')
      | _, _ => none
    else some (u.mark :: tl, base)

/-- The loop that resolves delta markers, /repo/log.cc:580-601; here the oldest marker comes first. -/
def resolve {V : Type} (R : Rows V) : List Delta → Option V → Option (List Delta × Option V)
  | [], b => some ([], b)
  | d :: ds, none => some (d :: ds, none)
  | d :: ds, some v =>
    if d.prev = R.ts v then
      (R.parse d.cs).bind fun ch => (R.update v ch (d.ts - 1)).bind fun v' => resolve R ds (some v')
    else some (d :: ds, some v)

/-- `apply`, /repo/log.cc:526-602. -/
def Cell.apply {V : Type} (R : Rows V) (c : Cell V) (u : Upd) : Option (Cell V) :=
  let hd := c.deltas.takeWhile (fun d => decide (u.ts < d.ts))
  let tl := c.deltas.dropWhile (fun d => decide (u.ts < d.ts))
  if (headTs R tl c.base).any (fun t => decide (u.ts ≤ t)) then some c
  else
    (change R tl c.base u).bind fun (tl', base') =>
      (resolve R (hd ++ tl').reverse base').map fun (ds, b) => ⟨ds.reverse, b⟩

/-- `run`, /repo/log.cc:492-507, seen from the key's cell. -/
def Cell.run {V : Type} (R : Rows V) (c : Cell V) (u : Upd) : Option (Cell V) := c.apply R u.prepare

/-- Replaying records one after the other. -/
def Cell.replay {V : Type} (R : Rows V) (c : Cell V) : List Upd → Option (Cell V)
  | [] => some c
  | u :: us => (c.run R u).bind fun c' => c'.replay R us

/-- `parse_changeset`, /repo/log.cc:509-524; the index is cut to 32 bits. -/
def parseChanges : Nat → Bytes → Option (List (Nat × Bytes))
  | _, [] => some []
  | 0, _ :: _ => none
  | n + 1, b :: bs =>
    (Msgpack.readInt (b :: bs)).bind fun (i, r) => (Msgpack.readStr r).bind fun (v, r') =>
      (parseChanges n r').map fun l => ((i % 2 ^ 32).toNat, v) :: l

/-- `parse_changeset` with enough fuel: every turn reads at least two bytes. -/
def parseChangeset (bs : Bytes) : Option (List (Nat × Bytes)) := parseChanges bs.length bs

/-- Rows of the default type, /repo/kvrow.hh:33-36. -/
def bagRows : Rows Row.Bag.Row where
  parse := parseChangeset
  ts := fun r => r.ts.toNat
  create := fun ch t => Row.Bag.create ch (BitVec.ofNat 64 t)
  create1 := fun v t => Row.Bag.create1 v (BitVec.ofNat 64 t)
  update := fun r ch t => r.update ch (BitVec.ofNat 64 t)

end Verif.Log
