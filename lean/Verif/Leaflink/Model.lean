import Mathlib.Logic.Function.Basic

/-!
# The doubly linked list of leaves

Interleavings of `lock_next`, `link_split` and `unlink` (/repo/btree_leaflink.hh:39-96).  One step is one access to a
shared pointer; a compare-and-swap is one step.  Leaves are numbers and are never reused (memory is not reused while
somebody may hold a pointer to it, see C13).  The low bit of `next_` is kept in `mark`.

An operation on a leaf `n` is done by the thread that holds `n`'s lock, so there is at most one at a time for each leaf; a
leaf made by a split is locked by the thread that splits until it is linked (/repo/masstree_split.hh:198, the new leaf
copies the locked version word).
-/
namespace Verif.Leaflink

/-- How far the operation on a leaf has come.  `nx` is the result of `lock_next`, `p` the value read from `prev_`. -/
inductive Op where
  | idle
  /-- `link_split(n, nr)`: at the start -/
  | s0 (nr : Nat)
  /-- before `lock_next` -/
  | s1 (nr : Nat)
  /-- before `nr->next_.ptr = next` -/
  | s2 (nr : Nat) (nx : Option Nat)
  /-- before `next->prev_ = nr` -/
  | s3 (nr : Nat) (nx : Option Nat)
  /-- before `n->next_.ptr = nr` -/
  | s4 (nr : Nat) (nx : Option Nat)
  /-- `unlink(n)`: before `lock_next` -/
  | u1
  /-- before `prev = n->prev_` -/
  | u2 (nx : Option Nat)
  /-- before the compare-and-swap -/
  | u3 (nx : Option Nat) (p : Nat)
  /-- before `next->prev_ = prev` -/
  | u4 (nx : Option Nat) (p : Nat)
  /-- before `prev->next_.ptr = next` -/
  | u5 (nx : Option Nat) (p : Nat)
deriving DecidableEq, Repr

/-- Not allocated; allocated by a split that has not yet linked it; in the list; taken out. -/
inductive Status where
  | free
  | pending
  | live
  | dead
deriving DecidableEq, Repr

structure State where
  /-- `next_.ptr` without its low bit -/
  next : Nat → Option Nat
  /-- the low bit of `next_.ptr` -/
  mark : Nat → Bool
  /-- `prev_` -/
  prev : Nat → Option Nat
  op : Nat → Op
  /-- The rest records what the operations mean: the status of each leaf, its neighbours among the live leaves, and the
  list of live leaves. -/
  status : Nat → Status
  ls : Nat → Option Nat
  lp : Nat → Option Nat
  all : List Nat

/-- A layer with the single leaf 0. -/
def State.init : State where
  next := fun _ => none
  mark := fun _ => false
  prev := fun _ => none
  op := fun _ => .idle
  status := fun x => if x = 0 then .live else .free
  ls := fun _ => none
  lp := fun _ => none
  all := [0]

open Function (update)

/-- An assignment through a pointer that may be null. -/
def assign (f : Nat → Option Nat) : Option Nat → Nat → (Nat → Option Nat)
  | none, _ => f
  | some b, x => update f b (some x)

/-- The list with `nr` after `n`. -/
def insertAfter (n nr : Nat) (l : List Nat) : List Nat := l.flatMap fun x => if x = n then [n, nr] else [x]

/-- Whether `n` is a leaf that a split has not yet linked, so that its lock is held. -/
def State.linking (s : State) (n : Nat) : Prop := ∃ m nx, s.op m = .s4 n nx

/-- The steps.  `key` gives the lowest key of each leaf. -/
inductive Step (key : Nat → Nat) : State → State → Prop where
  /-- A thread that holds the lock of `n` begins to split it; the keys of `nr` lie between those of `n` and of the leaves
  behind `n`. -/
  | split {s : State} (n nr : Nat) (hn : s.status n = .live) (ho : s.op n = .idle) (hl : ¬ s.linking n)
      (hr : s.status nr = .free) (hk : key n < key nr) (hk' : ∀ x, s.status x = .live → key n < key x → key nr < key x) :
      Step key s { s with op := update s.op n (.s0 nr), status := update s.status nr .pending }
  /-- `nr->prev_ = n`, /repo/btree_leaflink.hh:62. -/
  | s0 {s : State} (n nr : Nat) (ho : s.op n = .s0 nr) :
      Step key s { s with prev := update s.prev nr (some n), op := update s.op n (.s1 nr) }
  /-- `lock_next` finds null, /repo/btree_leaflink.hh:41-45. -/
  | s1null {s : State} (n nr : Nat) (ho : s.op n = .s1 nr) (hx : s.next n = none) :
      Step key s { s with op := update s.op n (.s2 nr none) }
  /-- `lock_next` succeeds. -/
  | s1 {s : State} (n nr b : Nat) (ho : s.op n = .s1 nr) (hx : s.next n = some b) (hm : s.mark n = false) :
      Step key s { s with mark := update s.mark n true, op := update s.op n (.s2 nr (some b)) }
  /-- `nr->next_.ptr = next`, /repo/btree_leaflink.hh:64. -/
  | s2 {s : State} (n nr : Nat) (nx : Option Nat) (ho : s.op n = .s2 nr nx) :
      Step key s { s with
        next := update s.next nr nx, mark := update s.mark nr false, op := update s.op n (.s3 nr nx) }
  /-- `if (next) next->prev_ = nr`, /repo/btree_leaflink.hh:65-66.  From here on `nr` counts as live. -/
  | s3 {s : State} (n nr : Nat) (nx : Option Nat) (ho : s.op n = .s3 nr nx) :
      Step key s { s with
        prev := assign s.prev nx nr, op := update s.op n (.s4 nr nx), status := update s.status nr .live,
        ls := update (update s.ls n (some nr)) nr nx, lp := assign (update s.lp nr (some n)) nx nr,
        all := insertAfter n nr s.all }
  /-- `n->next_.ptr = nr`, /repo/btree_leaflink.hh:68. -/
  | s4 {s : State} (n nr : Nat) (nx : Option Nat) (ho : s.op n = .s4 nr nx) :
      Step key s { s with
        next := update s.next n (some nr), mark := update s.mark n false, op := update s.op n .idle }
  /-- A thread that holds the lock of `n` begins to unlink it; `remove_leaf` does so only if `prev_` is not null
  (/repo/masstree_remove.hh:182). -/
  | unlink {s : State} (n : Nat) (hn : s.status n = .live) (ho : s.op n = .idle) (hl : ¬ s.linking n)
      (hp : s.prev n ≠ none) :
      Step key s { s with op := update s.op n .u1 }
  /-- `lock_next` finds null. -/
  | u1null {s : State} (n : Nat) (ho : s.op n = .u1) (hx : s.next n = none) :
      Step key s { s with op := update s.op n (.u2 none) }
  /-- `lock_next` succeeds. -/
  | u1 {s : State} (n b : Nat) (ho : s.op n = .u1) (hx : s.next n = some b) (hm : s.mark n = false) :
      Step key s { s with mark := update s.mark n true, op := update s.op n (.u2 (some b)) }
  /-- `prev = n->prev_`, /repo/btree_leaflink.hh:87. -/
  | u2 {s : State} (n p : Nat) (nx : Option Nat) (ho : s.op n = .u2 nx) (hp : s.prev n = some p) :
      Step key s { s with op := update s.op n (.u3 nx p) }
  /-- The compare-and-swap succeeds, /repo/btree_leaflink.hh:88-89. -/
  | u3 {s : State} (n p : Nat) (nx : Option Nat) (ho : s.op n = .u3 nx p) (hx : s.next p = some n)
      (hm : s.mark p = false) :
      Step key s { s with mark := update s.mark p true, op := update s.op n (.u4 nx p) }
  /-- The compare-and-swap fails. -/
  | u3fail {s : State} (n p : Nat) (nx : Option Nat) (ho : s.op n = .u3 nx p)
      (hx : ¬ (s.next p = some n ∧ s.mark p = false)) :
      Step key s { s with op := update s.op n (.u2 nx) }
  /-- `if (next) next->prev_ = prev`, /repo/btree_leaflink.hh:92-93. -/
  | u4 {s : State} (n p : Nat) (nx : Option Nat) (ho : s.op n = .u4 nx p) :
      Step key s { s with prev := assign s.prev nx p, op := update s.op n (.u5 nx p) }
  /-- `prev->next_.ptr = next`, /repo/btree_leaflink.hh:95. -/
  | u5 {s : State} (n p : Nat) (nx : Option Nat) (ho : s.op n = .u5 nx p) :
      Step key s { s with
        next := update s.next p nx, mark := update s.mark p false, op := update s.op n .idle,
        status := update s.status n .dead, ls := update (update s.ls p nx) n none, lp := update (assign s.lp nx p) n none,
        all := s.all.filter fun x => x ≠ n }

inductive Reachable (key : Nat → Nat) : State → Prop where
  | init : Reachable key State.init
  | step {s s' : State} (h : Reachable key s) (h' : Step key s s') : Reachable key s'

end Verif.Leaflink
