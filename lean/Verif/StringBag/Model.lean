import Verif.Bits.Model
import Verif.Key.Model

/-!
# Key-suffix storage

Model of /repo/stringbag.hh and of `leaf::assign_ksuf` (/repo/masstree_struct.hh:727-778).

A bag has `w`-bit offsets (8 for the internal, 16 for the external bag), so every store to
`size_`, `pos` and `len` is taken modulo `2 ^ w`.  `mem` is the allocated memory of the bag,
header included; the header fields are kept separately, so a write below `overhead` (which
would change them) or above the allocated size is the outcome `none`.
-/
namespace Verif.StringBag
open Verif.Key (Bytes)

/-- The number of strings in a leaf's bag (`leaf_width`). -/
abbrev width : Nat := 15

/-- `stringbag<uintN_t>`, /repo/stringbag.hh:160-168. -/
structure Bag (w : Nat) where
  size : Nat
  /-- the field `capacity_`, one less than the capacity -/
  cap1 : Nat
  info : List (Nat × Nat)
  mem : Bytes

variable {w : Nat}

/-- `max_size`, /repo/stringbag.hh:62-64. -/
def maxSize (w : Nat) : Nat := 2 ^ w

/-- `overhead(width)`, /repo/stringbag.hh:66-74. -/
def overhead (w : Nat) : Nat := 2 * (w / 8) + width * (2 * (w / 8))

/-- `safe_size(width, len)`, /repo/stringbag.hh:75-80. -/
def safeSize (w len : Nat) : Nat := overhead w + len + 8 - 1

/-- The constructor, /repo/stringbag.hh:92-100, on `mem`, without its assertion. -/
def make (w : Nat) (mem : Bytes) : Bag w :=
  { size := overhead w % 2 ^ w
    cap1 := (mem.length - 1) % 2 ^ w
    info := List.replicate width (0, 0)
    mem := mem }

/-- `capacity()`, /repo/stringbag.hh:103-105. -/
def Bag.capacity (b : Bag w) : Nat := b.cap1 + 1

/-- `get(p)`, /repo/stringbag.hh:113-122. -/
def Bag.get (b : Bag w) (p : Nat) : Bytes :=
  let i := b.info.getD p (0, 0)
  (b.mem.drop i.1).take i.2

/-- `memcpy(s_ + pos, s, len)`. -/
def Bag.write (b : Bag w) (pos : Nat) (s : Bytes) : Option Bytes :=
  if s = [] then some b.mem
  else if overhead w ≤ pos ∧ pos + s.length ≤ b.mem.length then
    some (b.mem.take pos ++ s ++ b.mem.drop (pos + s.length))
  else none

/-- `assign(p, s, len)`, /repo/stringbag.hh:131-144.  `none` is a write outside the data area,
`some none` the result `false`. -/
def Bag.assign (b : Bag w) (p : Nat) (s : Bytes) : Option (Option (Bag w)) :=
  let i := b.info.getD p (0, 0)
  if i.2 ≥ s.length then
    match b.write i.1 s with
    | none => none
    | some mem => some (some { b with mem := mem, info := b.info.set p (i.1 % 2 ^ w, s.length % 2 ^ w) })
  else if b.size + max s.length 8 ≤ b.capacity then
    match b.write b.size s with
    | none => none
    | some mem =>
      some (some { b with
        mem := mem
        size := (b.size + s.length) % 2 ^ w
        info := b.info.set p (b.size % 2 ^ w, s.length % 2 ^ w) })
  else some none

/-! ### The suffixes of a leaf -/

/-- The part of a leaf that stores suffixes: the internal bag (`none` unless
`extrasize64_ > 0`; it stops being used when an external bag is installed), the external bag
`ksuf_` (`none` if null), `keylenx_`, and the permutation's used slots. -/
structure Suffixes where
  iksuf : Option (Bag 8)
  ksuf : Option (Bag 16)
  /-- the slots with `has_ksuf` -/
  has : Nat → Bool
  used : List Nat

/-- `ksuf(p)` for a slot that has one, /repo/masstree_struct.hh:392-399. -/
def Suffixes.get (l : Suffixes) (p : Nat) : Bytes :=
  match l.ksuf with
  | some b => b.get p
  | none =>
    match l.iksuf with
    | some b => b.get p
    | none => []

/-- Copy the suffixes at `ps` into `b`, /repo/masstree_struct.hh:751-757; `none` if an
assignment fails or leaves the data area. -/
def copyAll (l : Suffixes) : List Nat → Bag 16 → Option (Bag 16)
  | [], b => some b
  | p :: ps, b =>
    match b.assign p (l.get p) with
    | some (some b) => copyAll l ps b
    | _ => none

/-- The slots whose suffixes are copied, /repo/masstree_struct.hh:735-743. -/
def copied (l : Suffixes) (p : Nat) (initializing : Bool) : List Nat :=
  (if initializing then List.range p else l.used).filter fun q => q != p && l.has q

/-- The size of the new bag, /repo/masstree_struct.hh:738-747. -/
def newSize (l : Suffixes) (p : Nat) (s : Bytes) (initializing : Bool) : Nat :=
  let csz := ((copied l p initializing).map fun q => (l.get q).length).sum
  let sz := (Bits.iceilLog2 (BitVec.ofNat 64 (safeSize 16 (csz + s.length)))).toNat
  match l.ksuf with
  | some b => max sz b.capacity
  | none => sz

/-- Move the suffixes to a new bag, /repo/masstree_struct.hh:733-777.  `fresh n` is the content
of newly allocated memory.  `none` is a failed assertion or a write outside a data area. -/
def moveKsuf (fresh : Nat → Bytes) (l : Suffixes) (p : Nat) (s : Bytes) (initializing : Bool) :
    Option Suffixes :=
  let sz := newSize l p s initializing
  if overhead 16 ≤ sz ∧ sz ≤ maxSize 16 then
    match copyAll l (copied l p initializing) (make 16 (fresh sz)) with
    | none => none
    | some b =>
      match b.assign p s with
      | some (some b) => some { l with ksuf := some b, iksuf := none }
      | _ => none
  else none

/-- `iksuf_[0].assign(p, s)` if there is an internal bag, else or if that fails the move to a new
bag; /repo/masstree_struct.hh:730-777. -/
def assignInner (fresh : Nat → Bytes) (l : Suffixes) (p : Nat) (s : Bytes) (initializing : Bool) :
    Option Suffixes :=
  match l.iksuf with
  | none => moveKsuf fresh l p s initializing
  | some b =>
    match b.assign p s with
    | none => none
    | some (some b) => some { l with iksuf := some b }
    | some none => moveKsuf fresh l p s initializing

/-- `assign_ksuf`, /repo/masstree_struct.hh:727-778. -/
def assignKsuf (fresh : Nat → Bytes) (l : Suffixes) (p : Nat) (s : Bytes) (initializing : Bool) :
    Option Suffixes :=
  match l.ksuf with
  | none => assignInner fresh l p s initializing
  | some b =>
    match b.assign p s with
    | none => none
    | some (some b) => some { l with ksuf := some b }
    | some none => assignInner fresh l p s initializing

end Verif.StringBag
