import Verif.Trie.Contents

/-!
# Destroying a table

Model of `destroy_rcu_callback` (/repo/masstree_remove.hh:278-355) and `basic_table::destroy`
(/repo/masstree_remove.hh:357-365) on a heap of nodes.  The traversal keeps its queue in the
`parent_` words of the nodes that wait in it.

`none` stands for undefined behaviour (reading, writing or freeing an object that was freed, or
following a pointer to something that is not a node) or for a loop that has not ended yet.

Simplifications.
* No other thread uses the table while the callback runs (that is what the two grace periods are for).
* Objects are numbers; rows are objects too.
* `mark_deleted_tree` (line 317) has no effect on the traversal and is left out.
-/
namespace Verif.Destroy
open Verif.Permuter (Word used)
open Verif.Tree
open Verif.Trie (T LV)

/-- A slot of a leaf: `keylenx_`, and the pointer in `lv_` to a layer's root or to a row. -/
structure HSlot where
  klx : Nat := 0
  ptr : Nat := 0

/-- A node in memory: a leaf with its permutation, its slots and its external bag of suffixes `ksuf_`
(/repo/masstree_struct.hh:247-283), or an internode with the first `nkeys_ + 1` entries of `child_`
(/repo/masstree_struct.hh:99-114). -/
inductive HNode where
  | leaf (perm : Word) (slots : Nat → HSlot) (bag : Option Nat)
  | inode (kids : List (Option Nat))

/-- The nodes in memory. -/
abbrev Heap := Nat → Option HNode

/-- What the traversal changes.  `tail = none` is `tailp == &workq`, `tail = some n` is
`tailp == link_ptr(n)`. -/
structure St where
  /-- `parent_` -/
  link : Nat → Option Nat
  workq : Option Nat := none
  tail : Option Nat := none
  /-- what was handed to the allocator, in order -/
  freed : List Nat := []

/-- Access to a node. -/
def touch (h : Heap) (n : Nat) (s : St) : Option HNode := if n ∈ s.freed then none else h n

/-- `enqueue`, /repo/masstree_remove.hh:303-308, with `link_ptr`, lines 295-301. -/
def enqueue (h : Heap) (s : St) (n : Nat) : Option St :=
  (touch h n s).bind fun _ =>
    match s.tail with
    | none => some { s with workq := some n, tail := some n }
    | some m => (touch h m s).map fun _ => { s with link := fun x => if x = m then some n else s.link x, tail := some n }

/-- Hand an object to the allocator. -/
def free (s : St) (x : Nat) : Option St := if x ∈ s.freed then none else some { s with freed := s.freed ++ [x] }

/-- The pointers that the loops of /repo/masstree_remove.hh:339-343 and 347-350 enqueue. -/
def pointers : HNode → List Nat
  | .leaf perm slots _ => (used perm).filterMap fun p =>
      if 127 < (slots p).klx then some (slots p).ptr else none
  | .inode kids => kids.filterMap id

/-- What `deallocate` frees (/repo/masstree_struct.hh:156-158, 477-484). -/
def parts (n : Nat) : HNode → List Nat
  | .leaf _ _ bag => bag.toList ++ [n]
  | .inode _ => [n]

/-- The first node leaves the queue, /repo/masstree_remove.hh:328-334. -/
def pop (n : Nat) (s : St) : St :=
  if s.tail ≠ some n then { s with workq := s.link n } else { s with workq := none, tail := none }

/-- The loop of /repo/masstree_remove.hh:327-353; the first argument bounds the number of rounds. -/
def loop (h : Heap) : Nat → St → Option St
  | fuel, s =>
    match s.workq, fuel with
    | none, _ => some s
    | some _, 0 => none
    | some n, fuel + 1 =>
      (touch h n s).bind fun x =>
      ((pointers x).foldlM (enqueue h) (pop n s)).bind fun s =>
      ((parts n x).foldlM free s).bind fun s =>
      loop h fuel s

/-- /repo/masstree_remove.hh:313-315: from the table's pointer up to the current root. -/
def chase (isRoot : Nat → Bool) (parent : Nat → Option Nat) : Nat → Nat → Option Nat
  | fuel, n =>
    if isRoot n then some n
    else match fuel with
      | 0 => none
      | fuel + 1 => chase isRoot parent fuel ((parent n).getD n)

/-- Both calls of the callback, /repo/masstree_remove.hh:310-355, and the release of the callback `cb`
itself. -/
def destroy (h : Heap) (isRoot : Nat → Bool) (parent : Nat → Option Nat) (root cb fuel : Nat) : Option St :=
  (chase isRoot parent fuel root).bind fun r =>
  (enqueue h { link := parent } r).bind fun s =>
  (loop h fuel s).bind fun s => free s cb

/-! ### Trees in memory -/

/-- A tree of nodes: the root's address, its bag, and the trees below it. -/
inductive Shape where
  | node (id : Nat) (bag : List Nat) (kids : List Shape)

def Shape.id : Shape → Nat
  | .node id _ _ => id

mutual
/-- All objects of a tree: nodes and bags. -/
def Shape.objs : Shape → List Nat
  | .node id bag kids => id :: bag ++ objsL kids
def objsL : List Shape → List Nat
  | [] => []
  | k :: ks => k.objs ++ objsL ks
end

mutual
/-- Number of nodes. -/
def Shape.size : Shape → Nat
  | .node _ _ kids => sizeL kids + 1
def sizeL : List Shape → Nat
  | [] => 0
  | k :: ks => k.size + sizeL ks
end

mutual
/-- The table `t` is stored in memory as the tree of nodes `sh`. -/
inductive Stored {V : Type} (h : Heap) : T V → Shape → Prop
  | leaf (perm : Word) (slots : List (Slot (LV V))) (id : Nat) (hs : Nat → HSlot) (bag : Option Nat) (shs : List Shape)
      (hn : h id = some (.leaf perm hs bag))
      (hk : InSlots h ((used perm).map fun p => (slotAt slots p, hs p)) shs) :
      Stored h (.leaf perm slots) (.node id bag.toList shs)
  | inode (ht : Nat) (keys : List Nat) (kids : List (T V)) (id : Nat) (ps : List (Option Nat)) (shs : List Shape)
      (hn : h id = some (.inode ps)) (hk : InKids h kids ps shs) :
      Stored h (.inode ht keys kids) (.node id [] shs)
/-- The slots in use and the layers below them. -/
inductive InSlots {V : Type} (h : Heap) : List (Slot (LV V) × HSlot) → List Shape → Prop
  | nil : InSlots h [] []
  | val (s : Slot (LV V)) (q : HSlot) (r : List (Slot (LV V) × HSlot)) (shs : List Shape)
      (hx : q.klx = s.klx) (hv : s.klx ≤ 127) (hr : InSlots h r shs) : InSlots h ((s, q) :: r) shs
  | layer (s : Slot (LV V)) (q : HSlot) (n : T V) (sh : Shape) (r : List (Slot (LV V) × HSlot)) (shs : List Shape)
      (hx : q.klx = s.klx) (hv : 127 < s.klx) (hl : s.lv = some (.layer n)) (hp : q.ptr = sh.id)
      (hn : Stored h n sh) (hr : InSlots h r shs) : InSlots h ((s, q) :: r) (sh :: shs)
/-- The children of an internode. -/
inductive InKids {V : Type} (h : Heap) : List (T V) → List (Option Nat) → List Shape → Prop
  | nil : InKids h [] [] []
  | null (kids : List (T V)) (ps : List (Option Nat)) (shs : List Shape) (hr : InKids h kids ps shs) :
      InKids h (.null :: kids) (none :: ps) shs
  | kid (c : T V) (sh : Shape) (kids : List (T V)) (ps : List (Option Nat)) (shs : List Shape) (hc : Stored h c sh)
      (hr : InKids h kids ps shs) : InKids h (c :: kids) (some sh.id :: ps) (sh :: shs)
end

mutual
/-- Memory holds the tree: the pointers in a node are those to the trees below it. -/
def Shape.Held (h : Heap) : Shape → Prop
  | .node id bag kids => (∃ x, h id = some x ∧ pointers x = kids.map Shape.id ∧ (parts id x).Perm (id :: bag)) ∧ HeldL h kids
def HeldL (h : Heap) : List Shape → Prop
  | [] => True
  | k :: ks => k.Held h ∧ HeldL h ks
end

end Verif.Destroy
