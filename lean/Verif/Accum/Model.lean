import Mathlib.Logic.Function.Basic
/-
Model of the class that builds texts, `lcdf::StringAccum` (/repo/straccum.hh:33-158, 177-724 and /repo/straccum.cc:67-343).

Memory is a collection of blocks of bytes that are allocated and freed; a block has a fixed size, and a byte of a block is unknown
(`none`) until it is written.  An accumulator is a record of three fields.  What the C++ leaves undefined is the outcome `none`:
access outside a block or to a freed block, freeing a block twice, overlapping `memcpy`, a failing `assert`, overflow of `int`.

Simplifications.  `new` always succeeds (it throws and never returns null, so the out-of-memory state, `cap == -1`, is never
entered).  The `memo_space` bytes in front of the data are part of the block but not of its list of bytes; they count in the size
that is allocated.  Comparing pointers into different blocks says "outside", as it does on the machines the code runs on.
-/
namespace Verif.Accum

abbrev Byte := UInt8

/-- The bytes of memory: `none` for a byte nobody has written. -/
abbrev Bytes := List (Option Byte)

/-- `INT_MAX`. -/
def intMax : Nat := 2147483647

/-- `memo_space`, /repo/straccum.hh:134-136: three words of 32 bits without profiling, /repo/string.hh:235-238 and 268. -/
def memoSpace : Nat := 12

/-- `StringAccum::rep_t`, /repo/straccum.hh:138-148: `blk` is the block that `s` is the start of, `none` for `empty_data`. -/
structure Rep where
  blk : Option Nat
  len : Nat
  cap : Nat
deriving DecidableEq, Repr

/-- `rep_t()`, /repo/straccum.hh:142-145. -/
def Rep.empty : Rep := ⟨none, 0, 0⟩

/-- Blocks of memory. -/
structure Mem where
  heap : Nat → Option Bytes
  next : Nat

/-- Write `l` at `off` in the block. -/
def write (m : Mem) (b : Option Nat) (off : Nat) (l : Bytes) : Option Mem :=
  match b with
  | none => if l = [] then some m else none
  | some b =>
    match m.heap b with
    | none => none
    | some B =>
      if off + l.length ≤ B.length then
        some { m with heap := Function.update m.heap b (some (B.take off ++ l ++ B.drop (off + l.length))) }
      else none

/-- Read `n` bytes at `off` of the block. -/
def read (m : Mem) (b : Option Nat) (off n : Nat) : Option Bytes :=
  match b with
  | none => if n = 0 then some [] else none
  | some b =>
    match m.heap b with
    | none => none
    | some B => if off + n ≤ B.length then some ((B.drop off).take n) else none

/-- `delete[] (s - memo_space)`. -/
def free (m : Mem) (b : Option Nat) : Option Mem :=
  match b with
  | none => none
  | some b =>
    match m.heap b with
    | none => none
    | some _ => some { m with heap := Function.update m.heap b none }

/-- `new char[n + memo_space]`: a new block; its size is computed as `int`. -/
def alloc (m : Mem) (n : Nat) : Option (Mem × Nat) :=
  if n + memoSpace ≤ intMax then
    some ({ heap := Function.update m.heap m.next (some (List.replicate n none)), next := m.next + 1 }, m.next)
  else none

/-- The capacity that `grow(ncap)` gives when it does not return at once, /repo/straccum.cc:87-92; the sum in line 91 is an
`int`. -/
def newCap (cap ncap : Nat) : Option Nat :=
  if ncap < 128 then some 128
  else if cap < 1048576 ∧ ncap < (cap + memoSpace) * 2 - memoSpace then some ((cap + memoSpace) * 2 - memoSpace)
  else if cap ≥ 1048576 then
    if cap + 524288 ≤ intMax then some (if ncap < cap + 524288 then cap + 524288 else ncap) else none
  else some ncap

/-- `grow`, /repo/straccum.cc:78-109. -/
def grow (m : Mem) (r : Rep) (ncap : Nat) : Option (Mem × Rep) :=
  if ncap > intMax then none
  else if ncap < r.cap then some (m, r)
  else do
    let n ← newCap r.cap ncap
    let (m, b) ← alloc m n
    let m ← if r.cap > 0 then do
        let l ← read m r.blk 0 r.len
        let m ← write m (some b) 0 l
        free m r.blk
      else some m
    some (m, ⟨some b, r.len, n⟩)

/-- `extend(nadjust, nreserve)`, /repo/straccum.hh:437-449, and `hard_extend`, /repo/straccum.cc:126-137, which test the same
thing: the result is written at the old length. -/
def extend (m : Mem) (r : Rep) (nadjust nreserve : Nat) : Option (Mem × Rep) :=
  if r.len + nadjust + nreserve > intMax then none
  else if r.len + nadjust + nreserve ≤ r.cap then some (m, { r with len := r.len + nadjust })
  else do
    let (m, r) ← grow m r (r.len + nadjust + nreserve)
    some (m, { r with len := r.len + nadjust })

/-- `r_.len < r_.cap || grow(r_.len)`, /repo/straccum.hh:464 and /repo/straccum.cc:159. -/
def oneMore (m : Mem) (r : Rep) : Option (Mem × Rep) := if r.len < r.cap then some (m, r) else grow m r r.len

/-- `append(char)`, /repo/straccum.hh:463-466. -/
def appendChar (m : Mem) (r : Rep) (c : Byte) : Option (Mem × Rep) := do
  let (m, r) ← oneMore m r
  let m ← write m r.blk r.len [some c]
  some (m, { r with len := r.len + 1 })

/-- Where the bytes given to `append(s, len)` are: outside all blocks (with what they are), or in a block at an offset. -/
inductive Src where
  | ext (l : List Byte)
  | at (b : Option Nat) (off n : Nat)

/-- `len`. -/
def Src.len : Src → Nat
  | .ext l => l.length
  | .at _ _ n => n

/-- The bytes at `s`. -/
def Src.get (m : Mem) : Src → Option Bytes
  | .ext l => some (l.map some)
  | .at b off n => read m b off n

/-- `s < my_s || s >= my_s + r_.cap` is false, /repo/straccum.cc:183. -/
def Src.own (r : Rep) : Src → Bool
  | .ext _ => false
  | .at b off _ => b.isSome && b == r.blk && off < r.cap

/-- `memcpy(r_.s + r_.len, s, len)` would copy between overlapping bytes. -/
def Src.overlaps (r : Rep) : Src → Bool
  | .ext _ => false
  | .at b off n => b.isSome && b == r.blk && r.len < off + n && off < r.len + n

/-- `append(s, len)`, /repo/straccum.hh:477-488, and `hard_append`, /repo/straccum.cc:172-195. -/
def append (m : Mem) (r : Rep) (s : Src) : Option (Mem × Rep) :=
  if r.len + s.len > intMax then none
  else if r.len + s.len ≤ r.cap then
    if s.overlaps r then none
    else do
      let l ← s.get m
      let m ← write m r.blk r.len l
      some (m, { r with len := r.len + s.len })
  else if s.own r then do
    let (m, r') ← extend m Rep.empty (r.len + s.len) 0
    let old ← read m r.blk 0 r.len
    let m ← write m r'.blk 0 old
    let l ← s.get m
    let m ← write m r'.blk r.len l
    let m ← free m r.blk
    some (m, r')
  else do
    let (m, r) ← grow m r (r.len + s.len)
    let l ← s.get m
    let m ← write m r.blk r.len l
    some (m, { r with len := r.len + s.len })

/-- `append_fill`, /repo/straccum.cc:165-170. -/
def appendFill (m : Mem) (r : Rep) (c : Byte) (n : Nat) : Option (Mem × Rep) := do
  let (m, r') ← extend m r n 0
  let m ← write m r'.blk r.len (List.replicate n (some c))
  some (m, r')

/-- `reserve`, /repo/straccum.hh:390-396. -/
def reserve (m : Mem) (r : Rep) (n : Nat) : Option (Mem × Rep) :=
  if r.len + n > intMax then none
  else if r.len + n ≤ r.cap then some (m, r) else grow m r (r.len + n)

/-- `adjust_length(delta)` for `delta ≥ 0`, /repo/straccum.hh:424-427. -/
def adjust (r : Rep) (n : Nat) : Option Rep :=
  if r.len + n ≤ r.cap then some { r with len := r.len + n } else none

/-- The pattern of `operator<<` for numbers, /repo/straccum.cc:265-322: reserve `n` bytes, `sprintf` the text `out` and its NUL
there, add its length. -/
def appendNum (m : Mem) (r : Rep) (n : Nat) (out : List Byte) : Option (Mem × Rep) := do
  let (m, r) ← reserve m r n
  let m ← write m r.blk r.len ((out ++ [0]).map some)
  let r ← adjust r out.length
  some (m, r)

/-- `vsnprintf(n, …)`, /repo/straccum.cc:330-343, where the whole text would be `out`: the C function writes at most `n` bytes and
a NUL and gives the length of the whole. -/
def vsnprintf (m : Mem) (r : Rep) (n : Nat) (out : List Byte) : Option (Mem × Rep) := do
  let (m, r) ← reserve m r (n + 1)
  let m ← write m r.blk r.len ((out.take n ++ [0]).map some)
  let r ← adjust r out.length
  some (m, r)

/-- `resize`, /repo/straccum.cc:114-124. -/
def resize (m : Mem) (r : Rep) (n : Nat) : Option (Mem × Rep) := do
  let (m, r) ← if n > r.cap then grow m r n else some (m, r)
  some (m, { r with len := n })

/-- `pop_back`, /repo/straccum.hh:456-459. -/
def popBack (r : Rep) (n : Nat) : Option Rep := if n ≤ r.len then some { r with len := r.len - n } else none

/-- `clear`, /repo/straccum.hh:372-376. -/
def clear (r : Rep) : Rep := { r with len := 0 }

/-- `c_str`, /repo/straccum.cc:156-162. -/
def cstr (m : Mem) (r : Rep) : Option (Mem × Rep) := do
  let (m, r) ← oneMore m r
  let m ← write m r.blk r.len [some 0]
  some (m, r)

/-- The destructor, /repo/straccum.hh:226-229. -/
def destroy (m : Mem) (r : Rep) : Option Mem := if r.cap > 0 then free m r.blk else some m

/-- The accumulators (numbered; `none` when destroyed), and the strings that `take_string` gave: their data, length and the capacity
in the memo, which are those of the accumulator. -/
structure State where
  mem : Mem
  accs : List (Option Rep)
  strs : List Rep

def State.init : State := ⟨⟨fun _ => none, 0⟩, [], []⟩

/-- What a program does with accumulators. -/
inductive Op where
  /-- `StringAccum()`. -/
  | new
  /-- `StringAccum(int capacity)`. -/
  | newCap (n : Nat)
  /-- `StringAccum(const StringAccum&)`. -/
  | copyNew (j : Nat)
  /-- `StringAccum(StringAccum&&)`. -/
  | moveNew (j : Nat)
  | destroy (i : Nat)
  /-- `operator=(const StringAccum&)`. -/
  | assign (i j : Nat)
  /-- `swap`, and `operator=(StringAccum&&)`. -/
  | swap (i j : Nat)
  | clear (i : Nat)
  | resize (i n : Nat)
  | popBack (i n : Nat)
  | char (i : Nat) (c : Byte)
  /-- `append(s, len)` with bytes that are no accumulator's. -/
  | bytes (i : Nat) (l : List Byte)
  /-- `append(sa.data() + off, n)` where `sa` is accumulator `j`, or the same. -/
  | part (i j off n : Nat)
  | fill (i : Nat) (c : Byte) (n : Nat)
  | num (i n : Nat) (out : List Byte)
  | printf (i n : Nat) (out : List Byte)
  | extend (i nadjust nreserve : Nat)
  | cstr (i : Nat)
  /-- `take_string`. -/
  | take (i : Nat)

/-- Accumulator `i`. -/
def State.acc (s : State) (i : Nat) : Option Rep := (s.accs[i]?).join

/-- Run an operation that changes one accumulator. -/
def State.on (s : State) (i : Nat) (f : Mem → Rep → Option (Mem × Rep)) : Option State := do
  let r ← s.acc i
  let (m, r) ← f s.mem r
  some { s with mem := m, accs := s.accs.set i (some r) }

/-- Run an operation that makes a new accumulator. -/
def State.add (s : State) (f : Mem → Rep → Option (Mem × Rep)) : Option State := do
  let (m, r) ← f s.mem Rep.empty
  some { s with mem := m, accs := s.accs ++ [some r] }

/-- One operation.  Constructors: /repo/straccum.hh:178-218; assignment: /repo/straccum.hh:619-633 (nothing when both are the
same); `swap`: /repo/straccum.cc:254-260; `take_string`: /repo/straccum.cc:233-251. -/
def step (s : State) : Op → Option State
  | .new => s.add fun m r => some (m, r)
  | .newCap n => s.add fun m r => grow m r n
  | .copyNew j => do
    let x ← s.acc j
    s.add fun m r => append m r (.at x.blk 0 x.len)
  | .moveNew j => do
    let x ← s.acc j
    some { s with accs := s.accs.set j (some Rep.empty) ++ [some x] }
  | .destroy i => do
    let r ← s.acc i
    let m ← destroy s.mem r
    some { s with mem := m, accs := s.accs.set i none }
  | .assign i j =>
    if i = j then s.on i fun m r => some (m, r)
    else do
      let x ← s.acc j
      s.on i fun m r => append m { r with len := 0 } (.at x.blk 0 x.len)
  | .swap i j => do
    let x ← s.acc i
    let y ← s.acc j
    some { s with accs := (s.accs.set j (some x)).set i (some y) }
  | .clear i => s.on i fun m r => some (m, clear r)
  | .resize i n => s.on i fun m r => resize m r n
  | .popBack i n => s.on i fun m r => (popBack r n).map fun r => (m, r)
  | .char i c => s.on i fun m r => appendChar m r c
  | .bytes i l => s.on i fun m r => append m r (.ext l)
  | .part i j off n => do
    let x ← s.acc j
    s.on i fun m r => append m r (.at x.blk off n)
  | .fill i c n => s.on i fun m r => appendFill m r c n
  | .num i n out => s.on i fun m r => appendNum m r n out
  | .printf i n out => s.on i fun m r => vsnprintf m r n out
  | .extend i a b => s.on i fun m r => extend m r a b
  | .cstr i => s.on i cstr
  | .take i => do
    let r ← s.acc i
    if r.len > 0 ∧ r.cap > 0 then
      some { s with accs := s.accs.set i (some Rep.empty), strs := s.strs ++ [r] }
    else some { s with strs := s.strs ++ [Rep.empty] }

/-- A program. -/
def run (s : State) : List Op → Option State
  | [] => some s
  | o :: os => (step s o).bind fun s => run s os

/-- What an observer reads from accumulator `i`: `data()` and `length()`. -/
def State.text (s : State) (i : Nat) : Option Bytes := do
  let r ← s.acc i
  read s.mem r.blk 0 r.len

/-- What an observer reads from the `k`th string taken. -/
def State.str (s : State) (k : Nat) : Option Bytes := do
  let r ← s.strs[k]?
  read s.mem r.blk 0 r.len

end Verif.Accum
