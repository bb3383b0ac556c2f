import Mathlib.Logic.Function.Basic

/-!
# Allocation with memory debugging

With `--enable-memdebug` every block begins with a header of 32 bytes that records whether it is in use, its tag and its size,
and every release and use checks it: /repo/memdebug.hh, /repo/memdebug.cc, and the allocation functions of `threadinfo`
(/repo/kvthread.hh:204-259, 326-338) and `refill_pool` (/repo/kvthread.cc:192-254).

A block is named by the address of its header; the pointer that callers hold is 32 bytes later.  The first word of a header is
`magic` with `tag` above it, and is also the link of free blocks of a pool.

Simplifications:
* Callers do not write to headers.  That blocks do not overlap is C49.
* Memory that was given back to the system is not looked at: what is said is about other blocks.
* A thread frees what it has in limbo one record at a time, whenever it likes (when it may is C13 and C14).
* `line` and `file` of headers, counters and the limbo groups themselves are not modelled.  Sizes and tags do not overflow.
-/
namespace Verif.Memdebug

/-- The header, /repo/memdebug.hh:36-41: `magic` and `tag`, `size`, `after_rcu`. -/
structure Hdr where
  word : Nat
  size : Nat
  after : Bool

/-- `magic_value`, /repo/memdebug.hh:33. -/
def magicUsed : Nat := 389612313

/-- `magic_free_value`, /repo/memdebug.hh:34. -/
def magicFree : Nat := 2015593488

def half : Nat := 2 ^ 32

def Hdr.magic (h : Hdr) : Nat := h.word % half

def Hdr.tag (h : Hdr) : Nat := h.word / half

/-- `m->magic = x`. -/
def Hdr.setMagic (h : Hdr) (x : Nat) : Hdr := { h with word := x + h.tag * half }

/-- `memdebug::make`, /repo/memdebug.hh:66-83. -/
def make (sz tag : Nat) : Hdr := { word := magicUsed + tag * half, size := sz, after := false }

/-- What `hard_free_checks` prints first, /repo/memdebug.cc:37-53. -/
inductive Report where
  | doubleFree
  | unallocated
  | type
  | size
  | afterRcu
  | nothing
  deriving DecidableEq

/-- `hard_free_checks`, /repo/memdebug.cc:32-59: the first message, and whether all assertions hold. -/
def hardChecks (h : Hdr) (sz tag : Nat) (after : Bool) : Report × Bool :=
  (if h.magic = magicFree then .doubleFree
   else if h.magic ≠ magicUsed then .unallocated
   else if tag ≠ 0 ∧ h.tag ≠ tag then .type
   else if after = false ∧ h.size ≠ sz then .size
   else if h.after ≠ after then .afterRcu
   else .nothing,
   h.magic = magicUsed ∧ (tag ≠ 0 → h.tag = tag) ∧ (after = false → h.size = sz) ∧ h.after = after)

/-- `free_checks`, /repo/memdebug.hh:43-50. -/
def freeChecks (h : Hdr) (sz tag : Nat) (after : Bool) : Report × Bool :=
  if h.magic ≠ magicUsed ∨ h.tag ≠ tag ∨ (after = false ∧ h.size ≠ sz) ∨ h.after ≠ after then hardChecks h sz tag after
  else (.nothing, true)

/-- `memtag_pool_mask`, /repo/mtcounters.hh:30. -/
def poolMask : Nat := 0xFF

/-- `check_use`, /repo/memdebug.hh:131-139. -/
def checkUse (h : Hdr) (allowed : Nat) : Bool := h.magic = magicUsed ∧ (allowed = 0 ∨ h.tag ^^^ allowed ≤ poolMask)

/-- `sizeof(memdebug)`, /repo/memdebug.hh:58-64. -/
def headSize : Nat := 32

/-- `nl`, /repo/kvthread.hh:227. -/
def lines (sz : Nat) : Nat := (sz + headSize + 64 - 1) / 64

/-- `pool_max_nlines`, /repo/kvthread.hh:312. -/
def maxLines : Nat := 20

structure State where
  /-- `use_pool()`, /repo/kvthread.hh:350-356. -/
  pools : Bool
  hdr : Nat → Hdr
  /-- `pool t nl` is `pool_[nl - 1]` of thread `t`; 0 is null. -/
  pool : Nat → Nat → Nat
  /-- The pointers and tags recorded by thread `t`, oldest first. -/
  limbo : Nat → List (Nat × Nat)

def State.setHdr (s : State) (m : Nat) (h : Hdr) : State := { s with hdr := Function.update s.hdr m h }

def State.setPool (s : State) (t nl p : Nat) : State :=
  { s with pool := fun t' nl' => if t' = t ∧ nl' = nl then p else s.pool t' nl' }

/-- A free block is put in front of a pool, /repo/kvthread.hh:245-246 and 335-336. -/
def State.push (s : State) (t nl m : Nat) : State :=
  (s.setHdr m { s.hdr m with word := s.pool t nl }).setPool t nl m

/-- The links that `initialize_pool` (/repo/kvthread.cc:192-200), or `refill_pool` without pools (/repo/kvthread.cc:205-210),
writes into the blocks of a new area. -/
def chain (hdr : Nat → Hdr) : List Nat → Nat → Hdr
  | [] => hdr
  | m :: ms => Function.update (chain hdr ms) m { hdr m with word := ms.head?.getD 0 }

/-- `refill_pool`, /repo/kvthread.cc:202-254. -/
def State.refill (s : State) (t nl : Nat) (area : List Nat) : State :=
  { s.setPool t nl (area.head?.getD 0) with hdr := chain s.hdr area }

/-- `record_rcu`, /repo/kvthread.hh:340-345. -/
def State.record (s : State) (t m tag : Nat) : State :=
  { s with limbo := Function.update s.limbo t (s.limbo t ++ [(m, tag)]) }

/-- The calls. -/
inductive Op where
  /-- `allocate`; `malloc` returns `m`. -/
  | allocate (m sz tag : Nat)
  | deallocate (m sz tag : Nat)
  | deallocateRcu (t m sz tag : Nat)
  /-- `pool_allocate`; if the pool is empty, the system gives the blocks of `area`. -/
  | poolAllocate (t sz tag : Nat) (area : List Nat)
  | poolDeallocate (t m sz tag : Nat)
  | poolDeallocateRcu (t m sz tag : Nat)
  /-- `free_rcu` of the oldest record. -/
  | freeRcu (t : Nat)
  /-- `assert_use`. -/
  | assertUse (m allowed : Nat)

/-- One call: the new state and the block returned, or `none` if an assertion fails. -/
def exec (s : State) : Op → Option (State × Nat)
  /- /repo/kvthread.hh:205-211 -/
  | .allocate m sz tag => some (s.setHdr m (make sz tag), m)
  /- /repo/kvthread.hh:212-218, /repo/memdebug.hh:97-107; the rest is up to `free` -/
  | .deallocate m sz tag =>
    if (freeChecks (s.hdr m) sz tag false).2 then some (s.setHdr m ((s.hdr m).setMagic magicFree), 0) else none
  /- /repo/kvthread.hh:219-224, /repo/memdebug.hh:109-117 -/
  | .deallocateRcu t m sz tag =>
    if (freeChecks (s.hdr m) sz tag false).2 then some ((s.setHdr m { s.hdr m with after := true }).record t m tag, 0) else none
  /- /repo/kvthread.hh:226-239 -/
  | .poolAllocate t sz tag area =>
    if lines sz ≤ maxLines then
      let s := if s.pool t (lines sz) = 0 then s.refill t (lines sz) area else s
      let m := s.pool t (lines sz)
      if m ≠ 0 then some ((s.setPool t (lines sz) (s.hdr m).word).setHdr m (make sz (tag + lines sz)), m) else some (s, 0)
    else none
  /- /repo/kvthread.hh:240-251 -/
  | .poolDeallocate t m sz tag =>
    if lines sz ≤ maxLines ∧ (freeChecks (s.hdr m) sz (tag + lines sz) false).2 then
      let s := s.setHdr m ((s.hdr m).setMagic magicFree)
      some (if s.pools then s.push t (lines sz) m else s, 0)
    else none
  /- /repo/kvthread.hh:252-259 -/
  | .poolDeallocateRcu t m sz tag =>
    if lines sz ≤ maxLines ∧ (freeChecks (s.hdr m) sz (tag + lines sz) false).2 then
      some ((s.setHdr m { s.hdr m with after := true }).record t m (tag + lines sz), 0)
    else none
  /- /repo/kvthread.hh:326-338, /repo/memdebug.hh:119-129 -/
  | .freeRcu t =>
    match s.limbo t with
    | [] => some (s, 0)
    | (m, tag) :: l =>
      if (freeChecks (s.hdr m) 0 tag true).2 then
        let s := { s.setHdr m ((s.hdr m).setMagic magicFree) with limbo := Function.update s.limbo t l }
        some (if tag &&& poolMask = 0 then s else s.push t (tag &&& poolMask) m, 0)
      else none
  /- /repo/memdebug.hh:141-148, /repo/memdebug.cc:61-78 -/
  | .assertUse m allowed => if checkUse (s.hdr m) allowed then some (s, 0) else none

/-! ## What the callers did, without headers -/

/-- What became of a block. -/
inductive Status where
  /-- Not got from the system, or given back. -/
  | out
  /-- In the pool of a thread. -/
  | free (t nl : Nat)
  /-- Allocated with this size; the tag includes the number of lines if it comes from a pool. -/
  | live (sz tag : Nat)
  /-- Released by thread `t`, but readers may still look at it. -/
  | gone (t tag : Nat)
  deriving DecidableEq

abbrev Ghost := Nat → Status

/-- The status of blocks after a call that returned `r`. -/
def track (pools : Bool) (g : Ghost) (limbo : Nat → List (Nat × Nat)) : Op → Nat → Ghost
  | .allocate m sz tag, _ => Function.update g m (.live sz tag)
  | .deallocate m _ _, _ => Function.update g m .out
  | .deallocateRcu t m _ tag, _ => Function.update g m (.gone t tag)
  | .poolAllocate t sz tag area, r =>
    if r = 0 then g
    else Function.update (fun x => if r ∈ area ∧ x ∈ area then .free t (lines sz) else g x) r (.live sz (tag + lines sz))
  | .poolDeallocate t m sz _, _ => Function.update g m (if pools then .free t (lines sz) else .out)
  | .poolDeallocateRcu t m sz tag, _ => Function.update g m (.gone t (tag + lines sz))
  | .freeRcu t, _ =>
    match limbo t with
    | [] => g
    | (m, tag) :: _ => Function.update g m (if tag % 256 = 0 then .out else .free t (tag % 256))
  | .assertUse _ _, _ => g

/-- A type of memory, /repo/mtcounters.hh:19-31. -/
def IsType (tag : Nat) : Prop := tag % 256 = 0

instance (tag : Nat) : Decidable (IsType tag) := inferInstanceAs (Decidable (_ = _))

/-- What the system may do, and callers that use the functions rightly. -/
def Proper (pools : Bool) (g : Ghost) : Op → Prop
  | .allocate m _ tag => g m = .out ∧ m ≠ 0 ∧ 16 ∣ m ∧ IsType tag
  | .deallocate m sz tag => g m = .live sz tag ∧ IsType tag
  | .deallocateRcu _ m sz tag => g m = .live sz tag ∧ IsType tag
  | .poolAllocate _ sz tag area => lines sz ≤ maxLines ∧ IsType tag ∧ area.Nodup ∧
      (∀ m ∈ area, g m = .out ∧ m ≠ 0 ∧ (if pools then 64 else 16) ∣ m)
  | .poolDeallocate _ m sz tag => g m = .live sz (tag + lines sz) ∧ lines sz ≤ maxLines ∧ IsType tag
  | .poolDeallocateRcu _ m sz tag => g m = .live sz (tag + lines sz) ∧ lines sz ≤ maxLines ∧ IsType tag
  | .freeRcu _ => True
  | .assertUse _ _ => True

/-- Nothing allocated. -/
structure Init (s : State) (g : Ghost) : Prop where
  pool : ∀ t nl, s.pool t nl = 0
  limbo : ∀ t, s.limbo t = []
  out : ∀ m, g m = .out

/-- States after any sequence of proper calls of any threads. -/
inductive Reach : State → Ghost → Prop where
  | init {s : State} {g : Ghost} (h : Init s g) : Reach s g
  | step {s s' : State} {g : Ghost} {op : Op} {r : Nat} (h : Reach s g) (hp : Proper s.pools g op) (he : exec s op = some (s', r)) :
      Reach s' (track s.pools g s.limbo op r)

end Verif.Memdebug
