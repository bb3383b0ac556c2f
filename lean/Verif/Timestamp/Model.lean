import Verif.CircularInt.Model
import Verif.Key.Model

/-!
# Timestamps of row versions

Model of how updates obtain timestamps: `threadinfo::update_timestamp` and `observe_phantoms`
(/repo/kvthread.hh:125-140), `query::run_put/apply_put/run_replace/apply_replace/run_remove/
apply_remove` (/repo/kvrow.hh:152-265), and the phantom epochs of leaves.

The state has each thread's clock `ts_`, the timestamp of each key's row, and the phantom epoch of
each leaf.  Leaves are numbers; `home k` is the leaf responsible for key `k`.  Which keys a split
moves is left open: `split` lets any subset go to the new leaf.  Each update is one step, since
it runs while its leaf is locked.  The step `absorb` is one step although the code performs it
without the other leaf's lock; see `Props/C15.lean` for what that costs.
-/
namespace Verif.Timestamp
open Verif.CircularInt (less lessEqual)
open Verif.Key (Bytes)

abbrev Ts := BitVec 64

/-- `observe_phantoms`, /repo/kvthread.hh:137-140: the new clock. -/
def observe (c p : Ts) : Ts := if less c p then p else c

/-- `update_timestamp(x)`, /repo/kvthread.hh:131-136: the new clock, which is the timestamp. -/
def update (c x : Ts) : Ts := if lessEqual c x then (x ||| 1) + 1 else c

/-- The new phantom epoch of the leaf after a removal at time `c`, /repo/kvrow.hh:261-263. -/
def raise (p c : Ts) : Ts := if lessEqual p c then c + 2 else p

/-- The phantom epoch of a leaf that takes over the keys of a leaf with phantom epoch `p`,
/repo/masstree_remove.hh:102-105 and 195-206. -/
def absorbed (p' p : Ts) : Ts := if less p' p then p else p'

structure St where
  clock : Nat → Ts
  row : Bytes → Option Ts
  home : Bytes → Nat
  phantom : Nat → Ts

/-- What happened to a key: a version was stored, or its version was removed. -/
inductive Kind where
  | stored
  | removed
  deriving DecidableEq

structure Event where
  key : Bytes
  kind : Kind
  ts : Ts

/-- The function that is `f` except for `y` at `x`. -/
def upd {α β : Type} [DecidableEq α] (f : α → β) (x : α) (y : β) : α → β := fun z => if z = x then y else f z

/-- The clock of thread `t` after it assigned the timestamp of a put or replace of key `k`.  A found row
may be a marker; the second assignment on the path `goto insert` returns the same clock. -/
def St.putClock (s : St) (t : Nat) (k : Bytes) : Ts :=
  match s.row k with
  | none => observe (s.clock t) (s.phantom (s.home k))
  | some x => update (s.clock t) x

/-- `run_put` and `run_replace`, /repo/kvrow.hh:165-239. -/
def St.put (s : St) (t : Nat) (k : Bytes) : St :=
  { s with clock := upd s.clock t (s.putClock t k), row := upd s.row k (some (s.putClock t k)) }

/-- `run_remove`, /repo/kvrow.hh:241-265, for a key with a row of timestamp `x`. -/
def St.remove (s : St) (t : Nat) (k : Bytes) (x : Ts) : St :=
  { s with
    clock := upd s.clock t (update (s.clock t) x)
    row := upd s.row k none
    phantom := upd s.phantom (s.home k) (raise (s.phantom (s.home k)) (update (s.clock t) x)) }

/-- A leaf split, or the creation of a layer: some keys of leaf `a` go to the new leaf `b`, which
copies the phantom epoch, /repo/masstree_split.hh:197 and /repo/masstree_struct.hh:310. -/
def St.split (s : St) (a b : Nat) (moved : Bytes → Bool) : St :=
  { s with
    home := fun k => if s.home k = a ∧ moved k then b else s.home k
    phantom := upd s.phantom b (s.phantom a) }

/-- The removal of an empty leaf or layer `a`, whose keys become the responsibility of leaf `b`. -/
def St.absorb (s : St) (a b : Nat) : St :=
  { s with
    home := fun k => if s.home k = a then b else s.home k
    phantom := upd s.phantom b (absorbed (s.phantom b) (s.phantom a)) }

inductive Op where
  | put (t : Nat) (k : Bytes)
  | remove (t : Nat) (k : Bytes)
  | split (a b : Nat) (moved : Bytes → Bool)
  | absorb (a b : Nat)

/-- One step: the new state and what happened to a key, if anything. -/
def St.step (s : St) : Op → St × Option Event
  | .put t k => (s.put t k, some ⟨k, .stored, s.putClock t k⟩)
  | .remove t k =>
    match s.row k with
    | none => (s, none)
    | some x => (s.remove t k x, some ⟨k, .removed, update (s.clock t) x⟩)
  | .split a b moved => (s.split a b moved, none)
  | .absorb a b => (s.absorb a b, none)

/-- A new leaf is responsible for no key yet. -/
def Op.Ok (s : St) : Op → Prop
  | .split _ b _ => ∀ k, s.home k ≠ b
  | _ => True

/-- The events of a sequence of steps, oldest first, and the final state. -/
def St.run (s : St) : List Op → St × List Event
  | [] => (s, [])
  | op :: ops => (((s.step op).1.run ops).1, (s.step op).2.toList ++ ((s.step op).1.run ops).2)

def OkRun (s : St) : List Op → Prop
  | [] => True
  | op :: ops => op.Ok s ∧ OkRun (s.step op).1 ops

end Verif.Timestamp
