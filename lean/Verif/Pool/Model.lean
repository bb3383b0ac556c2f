import Mathlib.Logic.Function.Basic

/-!
# The memory pools of threads

`threadinfo::pool_allocate`, `pool_deallocate`, `free_rcu` for pool blocks (/repo/kvthread.hh:226-251, 326-338), `refill_pool`
and `initialize_pool` (/repo/kvthread.cc:192-254).

Every thread has for each number of cache lines from 1 to 20 a list of free blocks, linked through the first word of each
block.  Blocks are cut out of large areas got from the system, and go to the list of the thread that frees them, which need not
be the one that allocated them.

Memory is a word for each address.  A write of a word changes the word at its address only: all addresses that occur are
multiples of 8.  Not modelled: `HAVE_MEMDEBUG` headers (`memdebug_size` is 0 without, /repo/memdebug.hh:58-64), counters.
-/
namespace Verif.Pool

/-- `CACHE_LINE_SIZE`. -/
def line : Nat := 64

/-- The number of lines for `sz` bytes, /repo/kvthread.hh:227. -/
def lines (sz : Nat) : Nat := (sz + line - 1) / line

/-- `pool_max_nlines`, /repo/kvthread.hh:312. -/
def maxLines : Nat := 20

/-- `initialize_pool` from the loop on, /repo/kvthread.cc:195-199. -/
def initLoop (p sz unit : Nat) (mem : Nat → Nat) (next off : Nat) : Nat → Nat :=
  if h : 0 < unit ∧ off + unit ≤ sz then
    initLoop p sz unit (Function.update mem next (p + off)) (p + off) (off + unit)
  else Function.update mem next 0
termination_by sz + 1 - off
decreasing_by omega

/-- `initialize_pool`, /repo/kvthread.cc:192-200. -/
def initPool (p sz unit : Nat) (mem : Nat → Nat) : Nat → Nat := initLoop p sz unit mem p unit

structure State where
  /-- `use_pool()`, /repo/kvthread.hh:350-356: true except under valgrind. -/
  pools : Bool
  mem : Nat → Nat
  /-- `pool t nl` is `pool_[nl - 1]` of thread `t`; 0 is null. -/
  pool : Nat → Nat → Nat
  /-- Bytes got from the system. -/
  owned : Nat → Prop
  /-- The blocks in use, with the sizes asked for. -/
  live : Nat → Option Nat

/-- The pool of thread `t` for `nl` lines begins with `p`. -/
def State.setPool (s : State) (t nl p : Nat) : State :=
  { s with pool := fun t' nl' => if t' = t ∧ nl' = nl then p else s.pool t' nl' }

/-- `refill_pool` when there are pools, with an area of `size` bytes at `a`: /repo/kvthread.cc:252-253. -/
def State.refill (s : State) (t nl a size : Nat) : State :=
  { s.setPool t nl a with
    mem := initPool a size (nl * line) s.mem
    owned := fun x => s.owned x ∨ a ≤ x ∧ x < a + size }

/-- `refill_pool` when there are none, with a block at `a`: /repo/kvthread.cc:205-210. -/
def State.refillOne (s : State) (t nl a : Nat) : State :=
  { s.setPool t nl a with
    mem := Function.update s.mem a 0
    owned := fun x => s.owned x ∨ a ≤ x ∧ x < a + nl * line }

/-- The rest of `pool_allocate`, /repo/kvthread.hh:231-238, when the list is not empty. -/
def State.pop (s : State) (t sz : Nat) : State :=
  let p := s.pool t (lines sz)
  { s.setPool t (lines sz) (s.mem p) with live := Function.update s.live p (some sz) }

/-- A block of `nl` lines is put in front of the list, /repo/kvthread.hh:245-246 and 334-336. -/
def State.push (s : State) (t nl p : Nat) : State :=
  { s.setPool t nl p with
    mem := Function.update s.mem p (s.pool t nl)
    live := Function.update s.live p none }

/-- What the system may return for an area: it is new, aligned and does not contain address 0. -/
structure Fresh (s : State) (a size : Nat) : Prop where
  pos : 0 < a
  align : line ∣ a
  new : ∀ x, a ≤ x → x < a + size → ¬ s.owned x

/-- What a step does, seen from outside. -/
inductive Ev where
  /-- Thread `t` asks for `sz` bytes and gets `p`. -/
  | alloc (t sz p : Nat)
  /-- Thread `t` frees `p`. -/
  | free (t p : Nat)
  /-- Some thread writes `v` at `a`. -/
  | write (a v : Nat)

/-- `memtag_pool_mask`, /repo/mtcounters.hh:30. -/
def poolMask : Nat := 0xFF

inductive Step : State → Ev → State → Prop where
  /-- `pool_allocate`, the list is not empty, /repo/kvthread.hh:226-239. -/
  | alloc {s : State} (t sz : Nat) (h0 : 0 < sz) (hm : lines sz ≤ maxLines) (hp : s.pool t (lines sz) ≠ 0) :
      Step s (.alloc t sz (s.pool t (lines sz))) (s.pop t sz)
  /-- The list is empty: a new area.  `posix_memalign` aligns to a line at least, and `refill_pool` gives up if there is no
  memory; areas are those of a super page or of 2 MB, /repo/kvthread.cc:212-253. -/
  | allocRefill {s : State} (t sz a size : Nat) (hu : s.pools = true) (h0 : 0 < sz) (hm : lines sz ≤ maxLines)
      (hp : s.pool t (lines sz) = 0) (hf : Fresh s a size) (hs : maxLines * line ≤ size) :
      Step s (.alloc t sz ((s.refill t (lines sz) a size).pool t (lines sz))) ((s.refill t (lines sz) a size).pop t sz)
  /-- The list is empty and there are no pools (under valgrind), /repo/kvthread.cc:205-210.  `malloc` aligns to 16 bytes only. -/
  | allocOne {s : State} (t sz a : Nat) (hu : s.pools = false) (h0 : 0 < sz) (hm : lines sz ≤ maxLines)
      (hp : s.pool t (lines sz) = 0) (ha : 0 < a) (hf : ∀ x, a ≤ x → x < a + lines sz * line → ¬ s.owned x) :
      Step s (.alloc t sz ((s.refillOne t (lines sz) a).pool t (lines sz))) ((s.refillOne t (lines sz) a).pop t sz)
  /-- `pool_deallocate`: a block is freed by any thread, with a size of as many lines, /repo/kvthread.hh:240-246. -/
  | free {s : State} (t p sz sz' : Nat) (hu : s.pools = true) (hl : s.live p = some sz) (hs : lines sz' = lines sz) :
      Step s (.free t p) (s.push t (lines sz') p)
  /-- Without pools `pool_deallocate` returns the block to the system, /repo/kvthread.hh:247-248. -/
  | freeOne {s : State} (t p sz : Nat) (hu : s.pools = false) (hl : s.live p = some sz) :
      Step s (.free t p)
        { s with
          owned := fun x => s.owned x ∧ ¬ (p ≤ x ∧ x < p + lines sz * line)
          live := Function.update s.live p none }
  /-- `pool_deallocate_rcu` (/repo/kvthread.hh:252-259) recorded the block with the sum of its tag and its number of lines, and
  `free_rcu` (/repo/kvthread.hh:326-338) takes the number from the sum.  When the record is in limbo the block is still in use
  here.  If the number were 0, or the sum that of callbacks, the block would not go to the pool. -/
  | freeRcu {s : State} (t p sz sz' tag : Nat) (hl : s.live p = some sz) (hs : lines sz' = lines sz)
      (hm : lines sz' ≤ maxLines) (ht : tag &&& poolMask = 0) : Step s (.free t p) (s.push t (tag + lines sz' &&& poolMask) p)
  /-- A thread writes into a block in use. -/
  | write {s : State} (p sz a v : Nat) (hl : s.live p = some sz) (ha : p ≤ a) (hb : a < p + lines sz * line) :
      Step s (.write a v) { s with mem := Function.update s.mem a v }

/-- No pools, no blocks. -/
structure Init (s : State) : Prop where
  pool : ∀ t nl, s.pool t nl = 0
  owned : ∀ x, ¬ s.owned x
  live : ∀ p, s.live p = none

/-- The steps of a run, in order. -/
inductive Run : State → List Ev → State → Prop where
  | nil {s : State} : Run s [] s
  | cons {s s1 s2 : State} {e : Ev} {l : List Ev} (h : Step s e s1) (hr : Run s1 l s2) : Run s (e :: l) s2

/-- The tags of blocks of pools, /repo/mtcounters.hh:26-27. -/
def tagLeaf : Nat := 0x1000
def tagInternode : Nat := 0x1100

/-- `iceil(x, 64)`, /repo/compiler.hh:698-701. -/
def ceil64 (x : Nat) : Nat := x + (if x % 64 ≠ 0 then 64 - x % 64 else 0)

/-- The size that `leaf::make` asks for, where a leaf without suffixes is of `S` bytes: /repo/masstree_struct.hh:300. -/
def leafSize (S ksufsize : Nat) : Nat := ceil64 (S + min ksufsize 128)

/-- `extrasize64_` of a new leaf, /repo/masstree_struct.hh:290. -/
def leafExtra (S sz : Nat) : Int := (sz / 64 : Nat) - ((S + 63) / 64 : Nat)

/-- `extrasize64_` when a new bag of suffixes is installed, /repo/masstree_struct.hh:772-773. -/
def leafDead (es : Int) : Int := if es ≥ 0 then -es - 1 else es

/-- `allocated_size`, /repo/masstree_struct.hh:320-323. -/
def leafAlloc (S : Nat) (es : Int) : Int := ((S + (if es ≥ 0 then es else -es - 1) * 64 + 63) / 64) * 64

end Verif.Pool
