import Verif.NodeVersion.Model

/-!
# One leaf with its lock holder

What a thread that holds a leaf's lock may store into the leaf, one step per store, and when it has to mark the version word
for it.  The lock is exclusive (C10), so there is one writer at a time; which thread it is does not matter.

Leaf fields: /repo/masstree_struct.hh:268-283.  `perm` is the list of the active slots in key order (`kpermuter`, C05).
Stores are sequentially consistent.
-/
namespace Verif.LeafRead

open Verif.NodeVersion

/-- The fields of a leaf that a reader looks at: the permutation, `ikey0_`, `keylenx_`, `lv_`, and the suffix container
`ksuf_`/`iksuf_` in use (`cur`), with the contents of all containers. -/
structure Mem (V : Type) where
  perm : List Nat
  ikey : Nat → Nat
  lenx : Nat → Nat
  lv : Nat → V
  cur : Nat
  bag : Nat → Nat → List UInt8

/-- `ksuf_keylenx`, /repo/masstree_struct.hh:261. -/
def ksufLenx : Nat := 64

/-- What the lock holder is doing: nobody holds the lock; somebody does; the holder is filling slot `p`. -/
inductive Work where
  | free
  | held
  | writing (p : Nat)
deriving DecidableEq

/-- `removing` is `modstate_ != modstate_insert`, /repo/masstree_struct.hh:264-269.  `next` is larger than all containers
ever used; `sessions` counts the times the lock was released. -/
structure State (V : Type) where
  v : Ver
  removing : Bool
  work : Work
  mem : Mem V
  next : Nat
  sessions : Nat

/-- Change one element of a table. -/
def upd {A : Type} (f : Nat → A) (p : Nat) (x : A) : Nat → A := fun q => if q = p then x else f q

inductive Step {V : Type} : State V → State V → Prop where
  /-- /repo/nodeversion.hh:94-109. -/
  | lock {s : State V} (hw : s.work = .free) (hl : locked s.v = false) : Step s { s with v := lockWord s.v, work := .held }
  /-- `mark_*`, /repo/nodeversion.hh:143-184. -/
  | mark {s : State V} (m : Mark) (hw : s.work ≠ .free) : Step s { s with v := m.apply s.v }
  /-- The modification state changes only while the version is marked: /repo/masstree_insert.hh:41-45 and
  /repo/masstree_remove.hh:163-166. -/
  | mode {s : State V} (r : Bool) (hw : s.work ≠ .free) (hd : isDirty s.v = true) : Step s { s with removing := r }
  /-- Begin to insert into a slot that is not active, /repo/masstree_insert.hh:48-55 and, after exchanging inactive slots,
  /repo/masstree_split.hh:185-195.  Before, the state has been set to inserting. -/
  | begin {s : State V} (p : Nat) (hw : s.work = .held) (hm : s.removing = false) (hp : p ∉ s.mem.perm) :
      Step s { s with work := .writing p }
  /-- The stores of `assign`, /repo/masstree_struct.hh:497-506. -/
  | ikey {s : State V} (p x : Nat) (hw : s.work = .writing p) :
      Step s { s with mem := { s.mem with ikey := upd s.mem.ikey p x } }
  | lenx {s : State V} (p x : Nat) (hw : s.work = .writing p) :
      Step s { s with mem := { s.mem with lenx := upd s.mem.lenx p x } }
  | fill {s : State V} (p : Nat) (x : V) (hw : s.work = .writing p) :
      Step s { s with mem := { s.mem with lv := upd s.mem.lv p x } }
  /-- `assign_ksuf`, the suffix fits the container, /repo/masstree_struct.hh:729-731. -/
  | suffix {s : State V} (p : Nat) (b : List UInt8) (hw : s.work = .writing p) :
      Step s { s with mem := { s.mem with bag := upd s.mem.bag s.mem.cur (upd (s.mem.bag s.mem.cur) p b) } }
  /-- `assign_ksuf`, the suffixes of the active slots are copied to a new container, which then replaces the old one,
  /repo/masstree_struct.hh:733-769. -/
  | container {s : State V} (p : Nat) (b : List UInt8) (new : Nat → List UInt8) (hw : s.work = .writing p)
      (hn : ∀ q ∈ s.mem.perm, s.mem.lenx q = ksufLenx → new q = s.mem.bag s.mem.cur q) :
      Step s { s with
        mem := { s.mem with cur := s.next, bag := upd s.mem.bag s.next (upd new p b) }, next := s.next + 1 }
  /-- `finish_insert`, /repo/masstree_insert.hh:129-136. -/
  | publish {s : State V} (p i : Nat) (hw : s.work = .writing p) :
      Step s { s with mem := { s.mem with perm := s.mem.perm.insertIdx i p }, work := .held }
  /-- `finish` without inserting, /repo/masstree_insert.hh:139-152. -/
  | abandon {s : State V} (p : Nat) (hw : s.work = .writing p) : Step s { s with work := .held }
  /-- Replace the value of an active slot (/repo/masstree_tcursor.hh:127-129), or the pointer to a layer
  (/repo/masstree_get.hh:108). -/
  | replace {s : State V} (p : Nat) (x : V) (hw : s.work ≠ .free) (hp : p ∈ s.mem.perm) :
      Step s { s with mem := { s.mem with lv := upd s.mem.lv p x } }
  /-- `finish_remove`, /repo/masstree_remove.hh:168-170.  Before, the state has been set to removing. -/
  | remove {s : State V} (p : Nat) (hw : s.work = .held) (hm : s.removing = true) :
      Step s { s with mem := { s.mem with perm := s.mem.perm.erase p } }
  /-- Any stores at all while the version is marked: a new layer (/repo/masstree_insert.hh:112-120), the left part of a split
  (/repo/masstree_split.hh:262-267), a removed leaf. -/
  | wild {s : State V} (m : Mem V) (w : Work) (n : Nat) (hw : s.work ≠ .free) (hd : isDirty s.v = true) (hf : w ≠ .free)
      (hp : ∀ p, w = .writing p → p ∉ m.perm) (hn : m.cur < n) : Step s { s with mem := m, work := w, next := n }
  /-- /repo/nodeversion.hh:132-141. -/
  | unlock {s : State V} (hw : s.work = .held) :
      Step s { s with v := unlockWord s.v, work := .free, sessions := s.sessions + 1 }

/-- The states in which a leaf may become reachable: a leaf made by a split is already locked and its slot for the new key is
being filled (/repo/masstree_split.hh:109-113). -/
structure Init {V : Type} (s : State V) : Prop where
  writing : ∀ p, s.work = .writing p → p ∉ s.mem.perm
  mode : ∀ p, s.work = .writing p → s.removing = false ∨ isDirty s.v = true
  next : s.mem.cur < s.next

/-- A run of the leaf: at every time nothing happens to it or the lock holder takes a step. -/
structure Run (V : Type) where
  at_ : Nat → State V
  init : Init (at_ 0)
  step : ∀ t, at_ (t + 1) = at_ t ∨ Step (at_ t) (at_ (t + 1))

end Verif.LeafRead
