import Mathlib.Logic.Function.Basic
import Verif.Rcu.Limbo

/-!
# Epochs shared by all threads

Interleavings of the epoch protocol: `rcu_start`, `rcu_stop`, `rcu_quiesce` (/repo/kvthread.hh:263-277), `record_rcu`
(/repo/kvthread.hh:340-345), `hard_rcu_quiesce` (/repo/kvthread.cc:106-141), `min_active_epoch`
(/repo/kvthread.hh:368-377) and `epochinc` (/repo/mtd.cc:930-935).

* One step is one access to a shared variable.  An epoch is represented by its number `k` of increments; the machine
  word is `word k`, and all comparisons the code makes are made on words.
* The threads are 0, …, `n - 1`, in the order of the list `allthreads`.
* Objects are numbers and are never reused: memory that is allocated again is a new object.
* `linked o` says that `o` can be found in the tree.  A thread in a section can `acquire` a linked object and then hold
  it until it leaves the section.
* The order in which one thread frees its objects is the subject of `Verif.Rcu.Limbo`; here it may free any of its
  objects that pass the test.
-/
namespace Verif.Rcu.Epochs
open Verif.Rcu

/-- The value of `globalepoch` after `k` increments, /repo/mtd.cc:86 and 933. -/
def word (k : Nat) : Epoch := BitVec.ofNat 64 (2 * k + 1)

/-- What a thread is doing: outside any section; in `rcu_start` between the load and the store, having loaded `g`; in a
section. -/
inductive Pc where
  | idle
  | loaded (g : Nat)
  | inside
deriving DecidableEq, Repr

/-- What a call of `epochinc` is doing: not running; having loaded `globalepoch`; having stored it; in the loop of
`min_active_epoch` before thread `i` with minimum `acc` (a value in units of increments). -/
inductive Tick where
  | idle
  | loaded (g : Nat)
  | stored
  | scan (acc i : Nat)
deriving DecidableEq, Repr

/-- Variations of the system.  `tso`: the store of `gc_epoch_` in `rcu_start` may stay in the store buffer.  `late`: an
object may remain linked, while the epoch advances, after it was retired.  `overlap`: calls of `epochinc` may overlap. -/
structure Cfg where
  n : Nat
  tso : Bool
  late : Bool
  overlap : Bool

structure State where
  /-- `globalepoch` -/
  ge : Nat
  /-- `active_epoch` -/
  ae : Nat
  pc : Nat → Pc
  /-- `gc_epoch_` in memory; `none` is 0 -/
  gc : Nat → Option Nat
  /-- a store to `gc_epoch_` still in the store buffer -/
  buf : Nat → Option Nat
  /-- the value of `active_epoch` loaded by `hard_rcu_quiesce` in this section -/
  bound : Nat → Option Nat
  tick : Nat → Tick
  linked : Nat → Bool
  /-- by whom and in which epoch an object was retired -/
  retired : Nat → Option (Nat × Nat)
  freed : Nat → Bool
  /-- which objects a thread holds -/
  holds : Nat → Nat → Bool
  /-- which objects were retired while a thread was in the section it is still in -/
  since : Nat → Nat → Bool

/-- The start: nobody is in a section, the objects of `l` are linked. -/
def State.init (l : Nat → Bool) : State where
  ge := 0
  ae := 0
  pc := fun _ => .idle
  gc := fun _ => none
  buf := fun _ => none
  bound := fun _ => none
  tick := fun _ => .idle
  linked := l
  retired := fun _ => none
  freed := fun _ => false
  holds := fun _ _ => false
  since := fun _ _ => false

/-- The longest a thread may stay in a section, in increments of the epoch, including the time between the load and
the store in `rcu_start`. -/
def maxStay : Nat := 2 ^ 60

/-- The result of the comparison in `min_active_epoch`, /repo/kvthread.hh:373-374. -/
def smaller (te acc : Nat) : Bool := (word te - word acc).msb

/-- The new minimum after a thread with the given `gc_epoch_`. -/
def pick : Option Nat → Nat → Nat
  | none, acc => acc
  | some g, acc => if smaller g acc then g else acc

open Function (update)

/-- The steps. -/
inductive Step (c : Cfg) : State → State → Prop where
  /-- `rcu_start`, the load (/repo/kvthread.hh:264); from inside a section it is `rcu_quiesce`, which gives up what the
  thread holds. -/
  | load {s : State} (t : Nat) (ht : t < c.n) (hp : ∀ g, s.pc t ≠ .loaded g) :
      Step c s { s with
        pc := update s.pc t (.loaded s.ge), bound := update s.bound t none,
        holds := update s.holds t fun _ => false, since := update s.since t fun _ => false }
  /-- `rcu_start`, the store (/repo/kvthread.hh:265-266). -/
  | store {s : State} (t g : Nat) (hp : s.pc t = .loaded g) (hc : c.tso = false) :
      Step c s { s with pc := update s.pc t .inside, gc := update s.gc t (some g) }
  /-- The same store, into the store buffer. -/
  | buffer {s : State} (t g : Nat) (hp : s.pc t = .loaded g) (hc : c.tso = true) :
      Step c s { s with pc := update s.pc t .inside, buf := update s.buf t (some g) }
  | flush {s : State} (t g : Nat) (hb : s.buf t = some g) :
      Step c s { s with gc := update s.gc t (some g), buf := update s.buf t none }
  /-- `rcu_stop`, the last store (/repo/kvthread.hh:271). -/
  | stop {s : State} (t : Nat) (hp : s.pc t = .inside) :
      Step c s { s with
        pc := update s.pc t .idle, gc := update s.gc t none, buf := update s.buf t none, bound := update s.bound t none,
        holds := update s.holds t fun _ => false, since := update s.since t fun _ => false }
  /-- A thread finds an object. -/
  | acquire {s : State} (t o : Nat) (hp : s.pc t = .inside) (hl : s.linked o = true) :
      Step c s { s with holds := update s.holds t (update (s.holds t) o true) }
  /-- A thread puts a new object into the tree. -/
  | link {s : State} (t o : Nat) (hp : s.pc t = .inside) (hr : s.retired o = none) :
      Step c s { s with linked := update s.linked o true }
  /-- A thread takes an object out of the tree. -/
  | unlink {s : State} (t o : Nat) (hp : s.pc t = .inside) :
      Step c s { s with linked := update s.linked o false }
  /-- `record_rcu`: the epoch is that of the load at /repo/kvthread.hh:343. -/
  | retire {s : State} (t o : Nat) (hp : s.pc t = .inside) (hr : s.retired o = none) :
      Step c s { s with
        retired := update s.retired o (some (t, s.ge)),
        since := fun u x => if x = o then decide (s.pc u = .inside) else s.since u x }
  /-- `hard_rcu_quiesce`, the load of `active_epoch` (/repo/kvthread.cc:111). -/
  | bound {s : State} (t : Nat) (hp : s.pc t = .inside) :
      Step c s { s with bound := update s.bound t (some s.ae) }
  /-- `clean_until` frees an object whose epoch passes the test (/repo/kvthread.cc:85-97). -/
  | free {s : State} (t o b e : Nat) (hp : s.pc t = .inside) (hb : s.bound t = some b) (hr : s.retired o = some (t, e))
      (hf : s.freed o = false) (hs : safe (word b - 1) (word e) = true) :
      Step c s { s with freed := update s.freed o true }
  /-- `epochinc`, the load of `globalepoch` (/repo/mtd.cc:933). -/
  | tickLoad {s : State} (h : Nat) (hi : s.tick h = .idle) (ho : c.overlap = false → ∀ h', s.tick h' = .idle) :
      Step c s { s with tick := update s.tick h (.loaded s.ge) }
  /-- `epochinc`, the store of `globalepoch`.  The premises are assumptions about the execution: nobody stays in a section
  for too long, and, unless `late`, nothing is both retired and linked at this moment. -/
  | tickStore {s : State} (h g : Nat) (hl : s.tick h = .loaded g)
      (hstay : ∀ t g', s.gc t = some g' ∨ s.pc t = .loaded g' → g + 1 ≤ g' + maxStay)
      (hlate : c.late = false → ∀ o, s.linked o = true → s.retired o = none) :
      Step c s { s with ge := g + 1, tick := update s.tick h .stored }
  /-- `min_active_epoch`, the load of `globalepoch` (/repo/kvthread.hh:369). -/
  | scanStart {s : State} (h : Nat) (hl : s.tick h = .stored) :
      Step c s { s with tick := update s.tick h (.scan s.ge 0) }
  /-- `min_active_epoch`, one round of the loop (/repo/kvthread.hh:370-375). -/
  | scan {s : State} (h acc i : Nat) (hl : s.tick h = .scan acc i) (hi : i < c.n) :
      Step c s { s with tick := update s.tick h (.scan (pick (s.gc i) acc) (i + 1)) }
  /-- `epochinc`, the store of `active_epoch` (/repo/mtd.cc:934). -/
  | tickDone {s : State} (h acc : Nat) (hl : s.tick h = .scan acc c.n) :
      Step c s { s with ae := acc, tick := update s.tick h .idle }

inductive Reachable (c : Cfg) : State → Prop where
  | init (l : Nat → Bool) : Reachable c (State.init l)
  | step {s s' : State} (h : Reachable c s) (h' : Step c s s') : Reachable c s'

end Verif.Rcu.Epochs
