/-
Model of the per-node version word, `nodeversion<nodeversion_parameters<uint32_t>>`
(/repo/nodeversion.hh:20-203 and 326-345; the tree uses the 32-bit instance,
/repo/masstree.hh:37).  Fences are not modelled here: the concurrent model in
`Verif.NodeVersion.Concurrent` is sequentially consistent.
-/
namespace Verif.NodeVersion

abbrev Ver := BitVec 32

/-- /repo/nodeversion.hh:328-340. -/
def lockBit : Ver := 1#32
def insertingBit : Ver := 2#32
def splittingBit : Ver := 4#32
def dirtyMask : Ver := insertingBit ||| splittingBit
def vsplitLowbit : Ver := 0x200#32
def unused1Bit : Ver := 0x10000000#32
def deletedBit : Ver := 0x20000000#32
def rootBit : Ver := 0x40000000#32
def isleafBit : Ver := 0x80000000#32
/-- `~(root_bit | unused1_bit | (vsplit_lowbit - 1))`. -/
def splitUnlockMask : Ver := ~~~(rootBit ||| unused1Bit ||| (vsplitLowbit - 1#32))
/-- `~(unused1_bit | (vinsert_lowbit - 1))`, with `vinsert_lowbit = 8`. -/
def unlockMask : Ver := ~~~(unused1Bit ||| (8#32 - 1#32))

/-- `nodeversion(bool isleaf)`, /repo/nodeversion.hh:28-30. -/
def make (isleaf : Bool) : Ver := if isleaf then isleafBit else 0#32

/-- /repo/nodeversion.hh:32-34. -/
def isleaf (v : Ver) : Bool := v &&& isleafBit != 0#32
/-- /repo/nodeversion.hh:60-62. -/
def locked (v : Ver) : Bool := v &&& lockBit != 0#32
/-- /repo/nodeversion.hh:63-65. -/
def inserting (v : Ver) : Bool := v &&& insertingBit != 0#32
/-- /repo/nodeversion.hh:66-68. -/
def splitting (v : Ver) : Bool := v &&& splittingBit != 0#32
/-- /repo/nodeversion.hh:69-71. -/
def deleted (v : Ver) : Bool := v &&& deletedBit != 0#32
/-- /repo/nodeversion.hh:76-78. -/
def isRoot (v : Ver) : Bool := v &&& rootBit != 0#32
/-- The loop condition of `stable`, /repo/nodeversion.hh:40-48. -/
def isDirty (v : Ver) : Bool := v &&& dirtyMask != 0#32

/-- `has_changed`, /repo/nodeversion.hh:72-75: `v` is the current word, `x` the remembered
one. -/
def hasChanged (v x : Ver) : Bool := decide ((x ^^^ v).toNat > lockBit.toNat)
/-- `has_split`, /repo/nodeversion.hh:79-82. -/
def hasSplit (v x : Ver) : Bool := decide ((x ^^^ v).toNat ≥ vsplitLowbit.toNat)

/-- The word written by a successful compare-and-swap in `lock`,
/repo/nodeversion.hh:94-109. -/
def lockWord (v : Ver) : Ver := v ||| lockBit
/-- The word `unlock` writes, /repo/nodeversion.hh:132-141. -/
def unlockWord (x : Ver) : Ver :=
  if splitting x then (x + vsplitLowbit) &&& splitUnlockMask
  else (x + ((x &&& insertingBit) <<< 2)) &&& unlockMask
/-- `mark_insert`, /repo/nodeversion.hh:143-147. -/
def markInsert (v : Ver) : Ver := v ||| insertingBit
/-- `mark_split`, /repo/nodeversion.hh:155-159. -/
def markSplit (v : Ver) : Ver := v ||| splittingBit
/-- `mark_change`, /repo/nodeversion.hh:160-164. -/
def markChange (v : Ver) (isSplit : Bool) : Ver :=
  v ||| ((if isSplit then 2#32 else 1#32) <<< 1)
/-- `mark_deleted`, /repo/nodeversion.hh:165-170. -/
def markDeleted (v : Ver) : Ver := v ||| (deletedBit ||| splittingBit)
/-- `mark_deleted_tree`, /repo/nodeversion.hh:171-175. -/
def markDeletedTree (v : Ver) : Ver := v ||| deletedBit
/-- `mark_root`, /repo/nodeversion.hh:176-179. -/
def markRoot (v : Ver) : Ver := v ||| rootBit
/-- `mark_nonroot`, /repo/nodeversion.hh:180-184. -/
def markNonroot (v : Ver) : Ver := v &&& ~~~rootBit

/-- The changes the lock holder may make to the word before releasing it. -/
inductive Mark
  | insert | split | deleted | deletedTree | root | nonroot
  deriving DecidableEq

def Mark.apply : Mark → Ver → Ver
  | .insert => markInsert
  | .split => markSplit
  | .deleted => markDeleted
  | .deletedTree => markDeletedTree
  | .root => markRoot
  | .nonroot => markNonroot

end Verif.NodeVersion
