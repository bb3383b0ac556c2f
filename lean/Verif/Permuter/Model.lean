/-!
# Model of `kpermuter<15>` (kpermuter.hh lines 59-276)

The template parameter is fixed to `W = 15`, the width of the default leaf
(`nodeparams<15,15>`); then `storage_type` and `value_type` are `uint64_t`
(kpermuter.hh:52-63: `(15>3)+(15>7)+(15>15) = 2`).  A permuter is one 64-bit
word, here `BitVec 64`.  C++ `int` arguments are `Nat`; every shift amount that
occurs for in-range arguments is below 64, so no undefined shift arises
(`shiftsDefined` lemmas are not needed: a `BitVec` shift by >= 64 gives 0 and
would differ from C++, but all theorems bound the positions).
-/

namespace Verif.Permuter

/-- The 64-bit word `x_` (kpermuter.hh:275). -/
abbrev Word := BitVec 64

/-- `W` (kpermuter.hh:59), the default leaf width (masstree.hh `leaf_width = 15`). -/
abbrev W : Nat := 15

/-- `info::initial_value` (kpermuter.hh:55). -/
def initialValue : Word := 0x0123456789ABCDE0#64

/-- `info::full_value` (kpermuter.hh:56). -/
def fullValue : Word := 0xEDCBA98765432100#64

/-- `make_empty` (kpermuter.hh:78-81); `max_width - W = 0`. -/
def makeEmpty : Word := initialValue &&& ~~~15#64

/-- `make_sorted` (kpermuter.hh:87-92). -/
def makeSorted (n : Nat) : Word :=
  let mask : Word := (if n = W then 0#64 else 16#64 <<< (4 * n)) - 1#64
  (makeEmpty <<< (4 * n)) ||| (fullValue &&& mask) ||| BitVec.ofNat 64 n

/-- `size()` (kpermuter.hh:95-97). -/
def size (x : Word) : Nat := (x &&& 15#64).toNat

/-- `operator[]` (kpermuter.hh:103-105). -/
def get (x : Word) (i : Nat) : Nat := ((x >>> (4 * i + 4)) &&& 15#64).toNat

/-- `back()` (kpermuter.hh:106-108). -/
def back (x : Word) : Nat := get x (W - 1)

/-- `value_from(i)` (kpermuter.hh:112-114). -/
def valueFrom (x : Word) (i : Nat) : Word := x >>> (4 * (i + 1))

/-- `set_size` (kpermuter.hh:116-118). -/
def setSize (x : Word) (n : Nat) : Word := (x &&& ~~~15#64) ||| BitVec.ofNat 64 n

/-- `insert_from_back` (kpermuter.hh:137-146): new word and the returned slot. -/
def insertFromBack (x : Word) (i : Nat) : Word × Nat :=
  let value := back x
  (((x + 1#64) &&& ((16#64 <<< (4 * i)) - 1#64))
    ||| (BitVec.ofNat 64 value <<< (4 * i + 4))
    ||| ((x <<< 4) &&& ~~~((256#64 <<< (4 * i)) - 1#64)), value)

/-- `insert_selected` (kpermuter.hh:152-163). -/
def insertSelected (x : Word) (di si : Nat) : Word :=
  let value := get x si
  let mask : Word := (256#64 <<< (4 * si)) - 1#64
  ((x + 1#64) &&& ((16#64 <<< (4 * di)) - 1#64))
    ||| (BitVec.ofNat 64 value <<< (4 * di + 4))
    ||| ((x <<< 4) &&& mask &&& ~~~((256#64 <<< (4 * di)) - 1#64))
    ||| (x &&& ~~~mask)

/-- `remove` (kpermuter.hh:181-195). -/
def remove (x : Word) (i : Nat) : Word :=
  if (x &&& 15#64).toNat = i + 1 then x - 1#64
  else
    let rot := 4 * ((x &&& 15#64).toNat - i - 1)
    let rotMask : Word := ((16#64 <<< rot) - 1#64) <<< (4 * (i + 1))
    ((x - 1#64) &&& ~~~rotMask)
      ||| (((x &&& rotMask) >>> 4) &&& rotMask)
      ||| (((x &&& rotMask) <<< rot) &&& rotMask)

/-- `remove_to_back` (kpermuter.hh:213-223).  `16 << (W << 2)` is `16 << 60`, i.e. 0
in 64 bits, so the "clear unused slots" mask is all ones. -/
def removeToBack (x0 : Word) (i : Nat) : Word :=
  let mask : Word := ~~~((16#64 <<< (4 * i)) - 1#64)
  let x := x0 &&& ((16#64 <<< (4 * W)) - 1#64)
  ((x - 1#64) &&& ~~~mask)
    ||| ((x >>> 4) &&& mask)
    ||| ((x &&& mask) <<< (4 * (W - i - 1)))

/-- `rotate` (kpermuter.hh:239-246). -/
def rotate (x0 : Word) (i j : Nat) : Word :=
  let mask : Word := (if i = W then 0#64 else 16#64 <<< (4 * i)) - 1#64
  let x := x0 &&& ((16#64 <<< (4 * W)) - 1#64)
  (x &&& mask)
    ||| ((x >>> (4 * (j - i))) &&& ~~~mask)
    ||| ((x &&& ~~~mask) <<< (4 * (W - j)))

/-- `exchange` (kpermuter.hh:248-251). -/
def exchange (x : Word) (i j : Nat) : Word :=
  let diff := ((x >>> (4 * i)) ^^^ (x >>> (4 * j))) &&& 240#64
  x ^^^ ((diff <<< (4 * i)) ||| (diff <<< (4 * j)))

/-- One iteration of the loop of `exchange_values` (kpermuter.hh:255-258):
body, then `diff <<= 4, p <<= 4`.  State is `(diff, p)`. -/
def exchangeValuesStep (a b : Nat) (s : Word × Word) : Word × Word :=
  let v := ((s.2 >>> (4 * W)) &&& 15#64).toNat
  let d := s.1 ^^^ (if v = a ∨ v = b then BitVec.ofNat 64 (a ^^^ b) else 0#64)
  (d <<< 4, s.2 <<< 4)

/-- `exchange_values` (kpermuter.hh:253-260). -/
def exchangeValues (x : Word) (a b : Nat) : Word :=
  x ^^^ (Nat.repeat (exchangeValuesStep a b) W (0#64, x)).1

end Verif.Permuter
