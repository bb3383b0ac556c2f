/-
Model of the bit utilities of /repo/compiler.hh for 64-bit words.  `__builtin_clzll` and
`__builtin_ctzll` are `BitVec.clz` and `BitVec.ctz`; both are undefined for zero in C, and
`ctz`/`clz` are only applied to non-zero words below (`iceil_log2` and `ifloor_log2` have
the documented precondition `x != 0`).
-/
namespace Verif.Bits

/-- `ffs_msb(unsigned long long)`, /repo/compiler.hh:72-74. -/
def ffsMsb (x : BitVec 64) : Nat := if x ≠ 0 then x.clz.toNat + 1 else 0

/-- `iceil`, /repo/compiler.hh:697-701, on `size_t`. -/
def iceil (x y : BitVec 64) : BitVec 64 :=
  let mod := x % y
  x + (if mod ≠ 0 then y - mod else 0)

/-- `iceil_log2`, /repo/compiler.hh:707-710. -/
def iceilLog2 (x : BitVec 64) : BitVec 64 :=
  1#64 <<< (64 - x.clz.toNat - (if x &&& (x - 1) = 0 then 1 else 0))

/-- `ifloor_log2`, /repo/compiler.hh:714-717. -/
def ifloorLog2 (x : BitVec 64) : BitVec 64 := 1#64 <<< (64 - 1 - x.clz.toNat)

/-- `find_lowest_zero_nibble`, /repo/compiler.hh:722-732. -/
def findLowestZeroNibble (x : BitVec 64) : Int :=
  let h := 0x8888888888888888#64
  let l := 0x1111111111111111#64
  let t := h &&& (x - l) &&& ~~~x
  if t ≠ 0 then ((t.ctz.toNat >>> 2 : Nat) : Int) else -1

end Verif.Bits
