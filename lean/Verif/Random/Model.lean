/-!
# Random numbers

Model of /repo/kvrandom.hh and /repo/kvrandom.cc, and of the shuffles of /repo/kvtest.hh.

A generator is a function from its state to a result and the next state.  `uint32_t` is `BitVec 32`.
`kvrandom_random` and the Bernoulli distribution, which come from the C and C++ libraries, are not modelled.
-/
namespace Verif.Random

/-- Result `n`, counted from 0, of the generator `f` in state `s`. -/
def result {S R : Type} (f : S → R × S) : S → Nat → R
  | s, 0 => (f s).1
  | s, n + 1 => result f (f s).2 n

/-- One step of the generator: `seed_ * a + c`, with the constants of /repo/kvrandom.hh:50. -/
def lcg (s : BitVec 32) : BitVec 32 := s * 1664525#32 + 1013904223#32

/-- `kvrandom_lcg_nr_simple::operator()`, /repo/kvrandom.hh:43-46: the assignment is made twice. -/
def simple (s : BitVec 32) : BitVec 32 × BitVec 32 :=
  let s := lcg s
  let s := lcg s
  (s, s)

/-- `kvrandom_lcg_nr::operator()`, /repo/kvrandom.hh:62-66. -/
def nr (s : BitVec 32) : BitVec 32 × BitVec 32 :=
  let (x0, s) := simple s
  let (x1, s) := simple s
  ((x0 >>> 15) ||| ((x1 &&& 0x7FFE#32) <<< 16), s)

/-- `c1` and `c2`, /repo/kvrandom.cc:20-25. -/
def c1 : Nat → BitVec 32
  | 0 => 0xBAA96887#32
  | 1 => 0x1E17D32C#32
  | 2 => 0x03BCDC3C#32
  | _ => 0x0F33D1B2#32
def c2 : Nat → BitVec 32
  | 0 => 0x4B0F3B58#32
  | 1 => 0xE874F0C3#32
  | 2 => 0x6955C5A6#32
  | _ => 0x55A7CA46#32

/-- A round of the loop of `psdes`, /repo/kvrandom.cc:29-35: `lword` and `irword`. -/
def round (i : Nat) (w : BitVec 32 × BitVec 32) : BitVec 32 × BitVec 32 :=
  let ia := w.2 ^^^ c1 i
  let il := ia &&& 0xFFFF#32
  let ih := ia >>> 16
  let ib := il * il + ~~~(ih * ih)
  let ia := (ib >>> 16) ||| (ib <<< 16)
  (w.2, w.1 ^^^ ((ia ^^^ c2 i) + il * ih))

/-- The loop, with what is left in `lword` and `irword`. -/
def rounds (w : BitVec 32 × BitVec 32) : BitVec 32 × BitVec 32 := round 3 (round 2 (round 1 (round 0 w)))

/-- `psdes`, /repo/kvrandom.cc:27-38. -/
def psdes (lword irword : BitVec 32) : BitVec 32 := (rounds (lword, irword)).2

/-- `kvrandom_psdes_nr`: `seed_` and `next_`, /repo/kvrandom.hh:100-101. -/
structure Psdes where
  seed : BitVec 32
  next : BitVec 32

/-- `seed`, /repo/kvrandom.hh:87-90. -/
def Psdes.start (s : BitVec 32) : Psdes := ⟨s, 1⟩

/-- `operator()`, /repo/kvrandom.hh:91-95. -/
def Psdes.draw (r : Psdes) : BitVec 32 × Psdes := (psdes r.seed r.next, { r with next := r.next + 1 })

/-- `operator[]`, /repo/kvrandom.hh:96-98. -/
def Psdes.at (r : Psdes) (index : BitVec 32) : BitVec 32 := psdes r.seed index

/-- `kvrandom_uniform_int_distribution<T>(a, b)` applied to a result `g`, /repo/kvrandom.hh:135-141, where `T` is unsigned
and has `w ≥ 32` bits.  None: division by zero. -/
def uniform {w : Nat} (a b : BitVec w) (g : BitVec 32) : Option (BitVec w) :=
  let n := b - a + 1
  if n = 0 then none else some (a + g.setWidth w % n)

/-- The shuffles of /repo/kvtest.hh:70-73, 129-132, 552-555 and 617-620: element `i` is swapped with the element
that is drawn.  None: outside of the array. -/
def shuffleFrom {α S : Type} (f : S → BitVec 32 × S) (n : BitVec 32) : Nat → Nat → Array α → S → Option (Array α × S)
  | 0, _, l, s => some (l, s)
  | k + 1, i, l, s =>
    let (g, s) := f s
    match uniform 0 (n - 1) g with
    | none => none
    | some j =>
      if h : i < l.size ∧ j.toNat < l.size then shuffleFrom f n k (i + 1) (l.swap i j.toNat h.1 h.2) s else none

def shuffle {α S : Type} (f : S → BitVec 32 × S) (l : Array α) (s : S) : Option (Array α × S) :=
  shuffleFrom f (BitVec.ofNat 32 l.size) l.size 0 l s

end Verif.Random
