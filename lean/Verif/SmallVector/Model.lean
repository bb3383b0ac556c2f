import Mathlib.Logic.Function.Basic

/-!
# Small vectors

Model of `small_vector<T, N>`, /repo/small_vector.hh, which keeps up to `N` elements inside the vector and more in a block of
memory.

Memory is a collection of blocks of slots.  A slot is raw or has an object.  Undefined behaviour is the outcome `none`: access
outside a block or to a block that has gone, using or destroying an object that is not there, a failing `assert`; so are a
loop that never ends, and, although C++ allows it, constructing an object over another one or giving up memory that has objects in
it, since their destructors would never run.

Simplifications: `allocate` does not fail and gives blocks that were never used before.  Constructors and assignments of `T` have no
effects but on the object; what they leave in an object that was moved from is any function `left` of its value.
-/
namespace Verif.SmallVector

inductive Slot (T : Type) where
  | raw
  | obj (v : T)
deriving DecidableEq, Repr

/-- A block: `own` for the array `lv_` in the vector itself, /repo/small_vector.hh:71. -/
structure Block (T : Type) where
  own : Bool
  slots : List (Slot T)

structure Mem (T : Type) where
  blocks : Nat → Option (Block T)
  next : Nat

variable {T : Type}

def Mem.put (m : Mem T) (b : Nat) (B : Option (Block T)) : Mem T := { m with blocks := Function.update m.blocks b B }

/-- The object in slot `i` of block `b`. -/
def Mem.read (m : Mem T) (b i : Nat) : Option T :=
  match m.blocks b with
  | none => none
  | some B =>
    match B.slots[i]? with
    | some (.obj v) => some v
    | _ => none

/-- Assign to the object in slot `i`. -/
def Mem.assign (m : Mem T) (b i : Nat) (v : T) : Option (Mem T) :=
  match m.blocks b with
  | none => none
  | some B =>
    match B.slots[i]? with
    | some (.obj _) => some (m.put b (some { B with slots := B.slots.set i (.obj v) }))
    | _ => none

/-- `atraits::construct`. -/
def Mem.construct (m : Mem T) (b i : Nat) (v : T) : Option (Mem T) :=
  match m.blocks b with
  | none => none
  | some B =>
    match B.slots[i]? with
    | some .raw => some (m.put b (some { B with slots := B.slots.set i (.obj v) }))
    | _ => none

/-- `atraits::destroy`. -/
def Mem.destroy (m : Mem T) (b i : Nat) : Option (Mem T) :=
  match m.blocks b with
  | none => none
  | some B =>
    match B.slots[i]? with
    | some (.obj _) => some (m.put b (some { B with slots := B.slots.set i .raw }))
    | _ => none

/-- A new block: `own` for a vector that comes into being, otherwise `atraits::allocate`. -/
def Mem.alloc (m : Mem T) (own : Bool) (n : Nat) : Mem T × Nat :=
  ({ blocks := Function.update m.blocks m.next (some ⟨own, List.replicate n .raw⟩), next := m.next + 1 }, m.next)

/-- `atraits::deallocate`, with the number of slots as it was for `allocate`; or the end of the vector's own array. -/
def Mem.dealloc [DecidableEq T] (m : Mem T) (own : Bool) (b n : Nat) : Option (Mem T) :=
  match m.blocks b with
  | none => none
  | some B => if B.own = own ∧ B.slots = List.replicate n .raw then some (m.put b none) else none

/-- `rep`, /repo/small_vector.hh:67-74.  `first` is the block that `first_` is the start of; `last_` and `capacity_` are given by
their distances from `first_`. -/
structure Vec where
  lv : Nat
  first : Nat
  last : Nat
  cap : Nat
deriving DecidableEq, Repr

/-- `rep(a)`, /repo/small_vector.hh:82-85. -/
def new (N : Nat) (m : Mem T) : Mem T × Vec :=
  let (m, b) := m.alloc true N
  (m, ⟨b, b, 0, N⟩)

/-- `capacity()`, /repo/small_vector.hh:121-123: an `unsigned`. -/
def Vec.capacity (w : Vec) : Nat := w.cap % 2 ^ 32

/-- The loop for the new capacity, /repo/small_vector.hh:143-144.  From 0 it does not end. -/
def widen (c n : Nat) : Option Nat :=
  if h : c < n then if h0 : c = 0 then none else widen (c * 2) n else some c
termination_by n - c

variable (left : T → T)

/-- The loop of `grow`, /repo/small_vector.hh:146-149, with `k` elements to go. -/
def moveAll (b b' : Nat) : Nat → Nat → Mem T → Option (Mem T)
  | 0, _, m => some m
  | k + 1, i, m => do
    let v ← m.read b i
    let m ← m.assign b i (left v)
    let m ← m.construct b' i v
    let m ← m.destroy b i
    moveAll b b' k (i + 1) m

/-- `grow`, /repo/small_vector.hh:140-155.  `capacity() * 2` is an `unsigned`. -/
def grow [DecidableEq T] (w : Vec) (n : Nat) (m : Mem T) : Option (Mem T × Vec) := do
  let newcap ← widen (w.capacity * 2 % 2 ^ 32) n
  let (m, b) := m.alloc false newcap
  let m ← moveAll left w.first b w.last 0 m
  let m ← if w.first ≠ w.lv then m.dealloc false w.first w.capacity else some m
  return (m, { w with first := b, cap := newcap })

/-- Growing if the vector is full, /repo/small_vector.hh:249-250. -/
def room [DecidableEq T] (w : Vec) (m : Mem T) : Option (Mem T × Vec) :=
  if w.last = w.cap then grow left w 0 m else some (m, w)

/-- Growing to a capacity, /repo/small_vector.hh:287-288 and 303-304. -/
def reserve [DecidableEq T] (w : Vec) (n : Nat) (m : Mem T) : Option (Mem T × Vec) :=
  if w.capacity < n then grow left w n m else some (m, w)

/-- An argument that is a reference: to an object elsewhere with that value, or to a slot. -/
inductive Arg (T : Type) where
  | value (v : T)
  | slot (b i : Nat)

def Arg.read (m : Mem T) : Arg T → Option T
  | .value v => some v
  | .slot b i => m.read b i

/-- What a move leaves behind. -/
def Arg.moved (m : Mem T) : Arg T → Option (Mem T)
  | .value _ => some m
  | .slot b i => do
    let v ← m.read b i
    m.assign b i (left v)

/-- `push_back(const T&)`, /repo/small_vector.hh:247-253. -/
def push [DecidableEq T] (w : Vec) (x : Arg T) (m : Mem T) : Option (Mem T × Vec) := do
  let (m, w) ← room left w m
  let v ← x.read m
  let m ← m.construct w.first w.last v
  return (m, { w with last := w.last + 1 })

/-- `push_back(T&&)` and `emplace_back`, /repo/small_vector.hh:255-269. -/
def pushMove [DecidableEq T] (w : Vec) (x : Arg T) (m : Mem T) : Option (Mem T × Vec) := do
  let (m, w) ← room left w m
  let v ← x.read m
  let m ← x.moved left m
  let m ← m.construct w.first w.last v
  return (m, { w with last := w.last + 1 })

/-- `pop_back`, /repo/small_vector.hh:271-276. -/
def pop (w : Vec) (m : Mem T) : Option (Mem T × Vec) :=
  if w.last = 0 then none else do
    let m ← m.destroy w.first (w.last - 1)
    return (m, { w with last := w.last - 1 })

/-- The loops that destroy `k` objects from `i` on. -/
def destroyAll (b : Nat) : Nat → Nat → Mem T → Option (Mem T)
  | 0, _, m => some m
  | k + 1, i, m => do
    let m ← m.destroy b i
    destroyAll b k (i + 1) m

/-- The loop of `resize` that constructs, /repo/small_vector.hh:294-295. -/
def fillAll (b : Nat) (v : T) : Nat → Nat → Mem T → Option (Mem T)
  | 0, _, m => some m
  | k + 1, i, m => do
    let m ← m.construct b i v
    fillAll b v k (i + 1) m

/-- `clear`, /repo/small_vector.hh:278-283. -/
def clear (w : Vec) (m : Mem T) : Option (Mem T × Vec) := do
  let m ← destroyAll w.first w.last 0 m
  return (m, { w with last := 0 })

/-- `resize`, /repo/small_vector.hh:285-296: the first loop leaves `it` at the larger of `n` and `last_`. -/
def resize [DecidableEq T] (w : Vec) (n : Nat) (v : T) (m : Mem T) : Option (Mem T × Vec) := do
  let (m, w) ← reserve left w n m
  let m ← destroyAll w.first (w.last - n) n m
  let m ← fillAll w.first v (max n w.last - w.last) w.last m
  return (m, { w with last := n })

/-- The loop of `operator=`, /repo/small_vector.hh:305-306, which copies `k` elements from number `i` on to the same places. -/
def copyAll (b b' : Nat) : Nat → Nat → Mem T → Option (Mem T)
  | 0, _, m => some m
  | k + 1, i, m => do
    let v ← m.read b i
    let m ← m.construct b' i v
    copyAll b b' k (i + 1) m

/-- `operator=` from another vector, /repo/small_vector.hh:302-306; the test in line 301 is in `Op.run`. -/
def assign [DecidableEq T] (w x : Vec) (m : Mem T) : Option (Mem T × Vec) := do
  let (m, w) ← clear w m
  let (m, w) ← reserve left w x.capacity m
  let m ← copyAll x.first w.first x.last 0 m
  return (m, { w with last := x.last })

/-- The loop of the copy constructor, /repo/small_vector.hh:95-96. -/
def pushAll [DecidableEq T] (b : Nat) : Nat → Nat → Vec → Mem T → Option (Mem T × Vec)
  | 0, _, w, m => some (m, w)
  | k + 1, i, w, m => do
    let (m, w) ← push left w (.slot b i) m
    pushAll b k (i + 1) w m

/-- The copy constructor, /repo/small_vector.hh:92-97. -/
def copy [DecidableEq T] (N : Nat) (x : Vec) (m : Mem T) : Option (Mem T × Vec) :=
  let (m, w) := new N m
  pushAll left x.first x.last 0 w m

/-- The loop of `erase` that moves down, /repo/small_vector.hh:332-333. -/
def shiftAll (b : Nat) : Nat → Nat → Nat → Mem T → Option (Mem T)
  | 0, _, _, m => some m
  | k + 1, it, last, m => do
    let v ← m.read b last
    let m ← m.assign b last (left v)
    let m ← m.assign b it v
    shiftAll b k (it + 1) (last + 1) m

/-- `erase(first, last)`, /repo/small_vector.hh:328-339.  If `last` is beyond the end, the first loop leaves the block. -/
def erase (w : Vec) (i j : Nat) (m : Mem T) : Option (Mem T × Vec) :=
  if i = j then some (m, w)
  else if w.last < j then none
  else do
    let m ← shiftAll left w.first (w.last - j) i j m
    let it := i + (w.last - j)
    if w.last < it then none
    let m ← destroyAll w.first (w.last - it) it m
    return (m, { w with last := it })

/-- `operator[]` on the left of an assignment, /repo/small_vector.hh:217-220. -/
def set (w : Vec) (i : Nat) (v : T) (m : Mem T) : Option (Mem T × Vec) := do
  let m ← m.assign w.first i v
  return (m, w)

/-- Lines 111-112 of the destructor. -/
def release [DecidableEq T] (w : Vec) (m : Mem T) : Option (Mem T) :=
  if w.first ≠ w.lv then m.dealloc false w.first w.cap else some m

/-- The destructor, /repo/small_vector.hh:107-113, and the end of the array in the vector. -/
def finish [DecidableEq T] (N : Nat) (w : Vec) (m : Mem T) : Option (Mem T) := do
  let m ← destroyAll w.first w.last 0 m
  let m ← release w m
  m.dealloc true w.lv N

/-! ### Programs -/

/-- An element that is given by reference: some value, or an element of a vector. -/
inductive Src (T : Type) where
  | value (v : T)
  | elem (x i : Nat)

/-- What a program does with its vectors, which are numbered. -/
inductive Op (T : Type) where
  | new (v : Nat)
  | copy (v x : Nat)
  | push (v : Nat) (s : Src T)
  | pushMove (v : Nat) (s : Src T)
  | pop (v : Nat)
  | clear (v : Nat)
  | resize (v n : Nat) (t : T)
  | assign (v x : Nat)
  | erase (v i j : Nat)
  | set (v i : Nat) (t : T)
  | finish (v : Nat)

structure Sys (T : Type) where
  mem : Mem T
  vecs : Nat → Option Vec

def Sys.init : Sys T := ⟨⟨fun _ => none, 0⟩, fun _ => none⟩

/-- `x[i]`: a reference into the memory of the vector. -/
def Src.arg (s : Sys T) : Src T → Option (Arg T)
  | .value v => some (.value v)
  | .elem x i => (s.vecs x).map fun w => .slot w.first i

/-- Do `f` on a vector. -/
def Sys.on (s : Sys T) (v : Nat) (f : Vec → Mem T → Option (Mem T × Vec)) : Option (Sys T) := do
  let w ← s.vecs v
  let (m, w) ← f w s.mem
  return ⟨m, Function.update s.vecs v (some w)⟩

/-- An operation; vectors that are made are new, the others exist. -/
def Op.run [DecidableEq T] (N : Nat) (s : Sys T) : Op T → Option (Sys T)
  | .new v =>
    if s.vecs v = none then
      let (m, w) := SmallVector.new N s.mem
      some ⟨m, Function.update s.vecs v (some w)⟩
    else none
  | .copy v x =>
    if s.vecs v = none then do
      let wx ← s.vecs x
      let (m, w) ← SmallVector.copy left N wx s.mem
      return ⟨m, Function.update s.vecs v (some w)⟩
    else none
  | .push v a => do
    let a ← a.arg s
    s.on v fun w m => SmallVector.push left w a m
  | .pushMove v a => do
    let a ← a.arg s
    s.on v fun w m => SmallVector.pushMove left w a m
  | .pop v => s.on v SmallVector.pop
  | .clear v => s.on v SmallVector.clear
  | .resize v n t => s.on v fun w m => SmallVector.resize left w n t m
  | .assign v x => do
    let wx ← s.vecs x
    if v = x then return s
    s.on v fun w m => SmallVector.assign left w wx m
  | .erase v i j => s.on v fun w m => SmallVector.erase left w i j m
  | .set v i t => s.on v fun w m => SmallVector.set w i t m
  | .finish v => do
    let w ← s.vecs v
    let m ← SmallVector.finish N w s.mem
    return ⟨m, Function.update s.vecs v none⟩

def runAll [DecidableEq T] (N : Nat) : Sys T → List (Op T) → Option (Sys T)
  | s, [] => some s
  | s, o :: os => do
    let s ← o.run left N s
    runAll N s os

end Verif.SmallVector
