/-
Model of 8-byte key slices: /repo/string_slice.hh (`string_slice<uint64_t>`) and the key
view of /repo/masstree_key.hh.

Memory is a total map from addresses to bytes, so that the "sloppy" functions can read
outside the string.  The machine is little-endian with unaligned access
(`HAVE_UNALIGNED_ACCESS`, `!WORDS_BIGENDIAN`), the configuration built on x86-64.
-/
namespace Verif.Key

abbrev Byte := UInt8
abbrev Bytes := List UInt8
abbrev Mem := Int → Byte

/-- Little-endian value of a byte list. -/
def leNat : Bytes → Nat
  | [] => 0
  | b :: bs => b.toNat + 256 * leNat bs

/-- Big-endian value of a byte list. -/
def beNat (bs : Bytes) : Nat := leNat bs.reverse

/-- The `n` bytes of memory starting at address `a`. -/
def bytesAt (m : Mem) (a : Int) (n : Nat) : Bytes := (List.range n).map fun i : Nat => m (a + (i : Int))

/-- `*reinterpret_cast<const uint64_t*>(a)`. -/
def load64 (m : Mem) (a : Int) : BitVec 64 := BitVec.ofNat 64 (leNat (bytesAt m a 8))

/-- The eight bytes of a word as stored in memory. -/
def store64 (w : BitVec 64) : Bytes := (List.range 8).map fun i => UInt8.ofNat (w.toNat / 256 ^ i)

/-- `net_to_host_order`/`host_to_net_order` on `uint64_t`: reverse the bytes
(/repo/compiler.hh:609-630 and 887-889). -/
def bswap (w : BitVec 64) : BitVec 64 := BitVec.ofNat 64 (leNat (store64 w).reverse)

/-- `string_slice::make`, /repo/string_slice.hh:42-54.  A string is an address and a
length; `memcpy` into a zeroed union is the bytes followed by zeros. -/
def make (m : Mem) (s : Int) (len : Int) : BitVec 64 :=
  if len ≤ 0 then 0
  else if 8 ≤ len then load64 m s
  else BitVec.ofNat 64 (leNat (bytesAt m s len.toNat ++ List.replicate (8 - len.toNat) 0))

/-- `string_slice::make_comparable`, /repo/string_slice.hh:63-65. -/
def makeComparable (m : Mem) (s : Int) (len : Int) : BitVec 64 := bswap (make m s len)

/-- `string_slice::make_sloppy`, /repo/string_slice.hh:74-94 (little-endian branch). -/
def makeSloppy (m : Mem) (s : Int) (len : Int) : BitVec 64 :=
  if len ≤ 0 then 0
  else if 8 ≤ len then load64 m s
  else load64 m (s - (8 - len)) >>> (8 * (8 - len.toNat))

/-- `string_slice::make_comparable_sloppy`, /repo/string_slice.hh:103-105. -/
def makeComparableSloppy (m : Mem) (s : Int) (len : Int) : BitVec 64 := bswap (makeSloppy m s len)

/-- `string_slice::unparse_comparable(buf, buflen, value)`, /repo/string_slice.hh:115-124:
the bytes written to `buf`. -/
def unparseTrim (buflen : Nat) (value : BitVec 64) : Bytes :=
  let u := store64 (bswap value)
  let trimmed := (u.reverse.dropWhile (· == 0)).reverse
  u.take (min trimmed.length buflen)

/-- `string_slice::unparse_comparable(buf, buflen, value, len)`,
/repo/string_slice.hh:132-137: the bytes written to `buf`. -/
def unparseLen (buflen : Nat) (value : BitVec 64) (len : Nat) : Bytes :=
  (store64 (bswap value)).take (min (min len 8) buflen)

/-- `string_slice::equals_sloppy`, /repo/string_slice.hh:150-167 (little-endian branch). -/
def equalsSloppy (m : Mem) (a b : Int) (len : Int) : Bool :=
  if len ≤ 8 then
    let delta := load64 m a ^^^ load64 m b
    if len ≤ 0 then true
    else decide (delta <<< (8 * (8 - len.toNat)) = 0)
  else decide (bytesAt m a len.toNat = bytesAt m b len.toNat)

/-! ### The key view used by the tree

A key in the tree is a byte string; the tree sees it as the pair (slice, length). -/

/-- The first eight bytes, padded with zeros. -/
def pad8 (k : Bytes) : Bytes := k.take 8 ++ List.replicate (8 - k.length) 0

/-- `key(Str)` and `key::shift`: the comparable slice of the first eight bytes of `k`
(/repo/masstree_key.hh:48-57, 108-119), as a number.  `Verif.Props.C05.slice_is_code` ties
it to `makeComparable` and `makeComparableSloppy`. -/
def slice (k : Bytes) : Nat := beNat (pad8 k)

/-- Three-way comparison of integers, `::compare` (/repo/compiler.hh:984-992). -/
def cmp3 (a b : Nat) : Int := if a < b then -1 else if a = b then 0 else 1

/-- `key::compare(ikey, keylenx)`, /repo/masstree_key.hh:133-143. -/
def compare (aIkey aLen : Nat) (ikey keylenx : Nat) : Int :=
  let cmp := cmp3 aIkey ikey
  if cmp = 0 then
    if aLen > 8 then (if keylenx ≤ 8 then 1 else 0)
    else (aLen : Int) - (keylenx : Int)
  else cmp

/-- `key::compare(const key&)`, /repo/masstree_key.hh:144-146. -/
def compareKeys (a b : Bytes) : Int := compare (slice a) a.length (slice b) b.length

/-- The trie's order: compare slices, and when both keys go on past equal slices, compare
what follows (the loop of `make_new_layer`, /repo/masstree_insert.hh:63-83, and the layer
descent of `find_unlocked`, /repo/masstree_get.hh:51-54). -/
def trieCompare (a b : Bytes) : Int :=
  let c := compareKeys a b
  if _h : c = 0 ∧ a.length > 8 ∧ b.length > 8 then trieCompare (a.drop 8) (b.drop 8) else c
termination_by a.length
decreasing_by simp only [List.length_drop]; omega

end Verif.Key
