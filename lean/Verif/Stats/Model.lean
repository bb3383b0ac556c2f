import Verif.Trie.Contents

/-!
# The statistics report

Model of `node_json_stats` (/repo/masstree_stats.hh:22-91), `json_stats`
(/repo/masstree_stats.hh:93-120) and of `treestats1` (/repo/query_masstree.cc:39-72).

Simplifications.
* The histograms of nodes by depth and size (lines 32-34, 88-89) and the figures about suffix
  storage (lines 64-82) are left out; they do not influence the others.
* A slot outside the array of slots would be read as a blank one; permutations never name one (C07).
* The report's numbers are natural numbers; `int` and `double` are assumed wide enough.
* A histogram is a function; elements never written are 0 (lines 113-117 write them as 0).
* A nested layer is given by its current root.  `C39.stale_undercounts` shows what happens with
  a slot that still points at an older root.
-/
namespace Verif.Stats
open Verif.Permuter (Word used)
open Verif.Key (Bytes)
open Verif.Tree
open Verif.Trie
variable {V : Type}

/-- The figures of the report: `size`, `l1_size`, `l1_size_sum`, `l1_count`, `key_by_layer`,
`key_by_length`. -/
@[ext] structure Rep where
  size : Nat := 0
  l1size : Nat := 0
  l1sum : Nat := 0
  l1count : Nat := 0
  byLayer : Nat → Nat := fun _ => 0
  byLength : Nat → Nat := fun _ => 0

/-- `j[…][i] += n`. -/
def inc (f : Nat → Nat) (i n : Nat) : Nat → Nat := fun j => if j = i then f j + n else f j

/-- A key that is not a layer, /repo/masstree_stats.hh:49-58: `++n`, and its length as the report
sees it. -/
def noteKey (layer klx : Nat) (suf : Bytes) (a : Rep × Nat) : Rep × Nat :=
  let l := 8 * layer + klx
  let l := if klx = 64 then l + suf.length - 1 else l
  ({ a.1 with byLength := inc a.1.byLength l 1 }, a.2 + 1)

/-- The end of a leaf, /repo/masstree_stats.hh:60-62. -/
def noteLeaf (layer : Nat) (a : Rep × Nat) : Rep :=
  { a.1 with size := a.1.size + a.2, l1size := a.1.l1size + a.2, byLayer := inc a.1.byLayer layer a.2 }

mutual
/-- `node_json_stats`, /repo/masstree_stats.hh:22-91.  `none` is undefined behaviour. -/
def walk : T V → Nat → Rep → Option Rep
  | .null, _, r => some r
  | .leaf perm slots, layer, r =>
    ((used perm).foldlM (fun a p => (walkSlots slots).getD p (fun layer a => some (noteKey layer 0 [] a)) layer a) (r, 0)).map
      (noteLeaf layer)
  | .inode _ _ kids, layer, r => walkL kids layer r
/-- The children, /repo/masstree_stats.hh:85-87. -/
def walkL : List (Node (LV V)) → Nat → Rep → Option Rep
  | [], _, r => some r
  | c :: cs, layer, r => (walk c layer r).bind fun r => walkL cs layer r
def walkSlots : List (Slot (LV V)) → List (Nat → Rep × Nat → Option (Rep × Nat))
  | [] => []
  | s :: ss => walkSlot s :: walkSlots ss
/-- One slot of a leaf, /repo/masstree_stats.hh:41-59. -/
def walkSlot : Slot (LV V) → Nat → Rep × Nat → Option (Rep × Nat)
  | ⟨_, klx, suf, lv⟩, layer, a =>
    if 127 < klx then
      (walkOpt lv (layer + 1) { a.1 with l1size := 0 }).map fun r =>
        ({ r with l1sum := r.l1sum + r.l1size, l1size := a.1.l1size, l1count := r.l1count + 1 }, a.2)
    else some (noteKey layer klx suf a)
def walkOpt : Option (LV V) → Nat → Rep → Option Rep
  | none, _, _ => none
  | some x, layer, r => walkLV x layer r
def walkLV : LV V → Nat → Rep → Option Rep
  | .val _, _, _ => none
  | .layer n, layer, r => walk n layer r
end

/-- `json_stats`, /repo/masstree_stats.hh:93-120. -/
def jsonStats (t : T V) : Option Rep := walk t 0 {}

/-- The layer in which a lookup of `k` finds it, and whether it is stored with a suffix; the walk
is that of `find_unlocked`, /repo/masstree_get.hh:22-57. -/
def place (k : Bytes) (t : T V) : Option (Nat × Bool) :=
  match find (lkey k) t with
  | some (some s) =>
    if s.klx < 64 then some (0, false)
    else if s.klx = 128 then
      if _h : 8 < k.length then
        match s.lv with
        | some (.layer n) => (place (k.drop 8) n).map fun p => (p.1 + 1, p.2)
        | _ => none
      else none
    else if s.suf = k.drop 8 then some (0, true) else none
  | _ => none
termination_by k.length
decreasing_by simp only [List.length_drop]; omega

mutual
/-- The layers nested in a table. -/
def nested : T V → List (T V)
  | .null => []
  | .leaf perm slots => (used perm).flatMap fun p => (nestedSlots slots).getD p []
  | .inode _ _ kids => nestedL kids
def nestedL : List (Node (LV V)) → List (T V)
  | [] => []
  | c :: cs => nested c ++ nestedL cs
def nestedSlots : List (Slot (LV V)) → List (List (T V))
  | [] => []
  | s :: ss => nestedSlot s :: nestedSlots ss
def nestedSlot : Slot (LV V) → List (T V)
  | ⟨_, _, _, lv⟩ => nestedOpt lv
def nestedOpt : Option (LV V) → List (T V)
  | none => []
  | some x => nestedLV x
def nestedLV : LV V → List (T V)
  | .val _ => []
  | .layer n => n :: nested n
end

mutual
/-- `treestats1`, /repo/query_masstree.cc:39-72: keys by height.  Every node on the way adds one
to the height, in whatever layer.  The loop of lines 58-59 goes from the pointer in the slot up to the
current root, which is the node the model has in the slot.  `none` is undefined behaviour.  The
checks that the arrays are large enough (lines 44 and 70) are left out, and so are the node counts. -/
def tree : T V → Nat → (Nat → Nat) → Option (Nat → Nat)
  | .null, _, c => some c
  | .leaf perm slots, height, c =>
    (used perm).foldlM (fun c p => (treeSlots slots).getD p (fun height c => some (inc c height 1)) height c) c
  | .inode _ _ kids, height, c => treeL kids (height + 1) c
def treeL : List (Node (LV V)) → Nat → (Nat → Nat) → Option (Nat → Nat)
  | [], _, c => some c
  | k :: ks, height, c => (tree k height c).bind fun c => treeL ks height c
def treeSlots : List (Slot (LV V)) → List (Nat → (Nat → Nat) → Option (Nat → Nat))
  | [] => []
  | s :: ss => treeSlot s :: treeSlots ss
def treeSlot : Slot (LV V) → Nat → (Nat → Nat) → Option (Nat → Nat)
  | ⟨_, klx, _, lv⟩, height, c => treeOpt klx lv height c
def treeOpt (klx : Nat) : Option (LV V) → Nat → (Nat → Nat) → Option (Nat → Nat)
  | none, height, c => some (inc c height 1)
  | some x, height, c => treeLV klx x height c
def treeLV (klx : Nat) : LV V → Nat → (Nat → Nat) → Option (Nat → Nat)
  | .val _, height, c => if 127 < klx then none else some (inc c height 1)
  | .layer n, height, c => if 127 < klx then tree n (height + 1) c else some (inc c height 1)
end

/-- The heights of `query_table::stats`, /repo/query_masstree.cc:74-88. -/
def heights (t : T V) : Option (Nat → Nat) := tree t 0 fun _ => 0

end Verif.Stats
