import Verif.Permuter.Model
import Verif.KSearch.Model
import Verif.Key.Model

/-!
# One layer of Masstree: a B+tree over eight-byte slices

Model of the leaf and internode code of /repo/masstree_struct.hh, masstree_get.hh,
masstree_insert.hh, masstree_split.hh and masstree_remove.hh as executed by one thread at
a time (concurrency is modelled separately).  Simplifications that hold for the whole file:

* A node is a value and a child pointer is the child itself; `Node.null` is the null
  pointer.  The walk through `parent_` pointers up the tree (`locked_parent`,
  masstree_struct.hh:551-570) becomes the return path of the recursion that walked down.
* The tests `!prev_` and `!next_` become the flags `lm` (leftmost leaf of the layer) and
  `rm` (rightmost leaf), which the descent computes.  The leaf list itself is modelled
  separately (C12).
* A layer pointer stored in a leaf is always the layer's current root
  (masstree_get.hh:106-110 and masstree_struct.hh:641-654 repair stale ones).
* Slices (`ikey_type`, 64 bits) are natural numbers: the code only copies and compares them.
* A key suffix is stored with its slot; `stringbag` and `assign_ksuf` are modelled
  separately (C29).
* Allocation succeeds, and memory of a fresh node that the code leaves uninitialised is a
  default slot.
* `nodeversion`, `modstate_`, phantom epochs and the cursor's version bookkeeping do not
  appear; versions are modelled in C10.
* The width is fixed to 15 for leaves and internodes (masstree.hh:29-31).
-/
namespace Verif.Tree
open Verif.Permuter (Word size back)
open Verif.Key (Bytes cmp3)

/-- One of the fifteen slots of a leaf: `ikey0_[p]`, `keylenx_[p]`, the suffix bytes and
`lv_[p]` (/repo/masstree_struct.hh:268-283).  `lv = none` is `leafvalue::make_empty()`. -/
structure Slot (α : Type) where
  ikey : Nat := 0
  klx : Nat := 0
  suf : Bytes := []
  lv : Option α := none

instance {α} : Inhabited (Slot α) := ⟨{}⟩

/-- A node pointer: null, a leaf (/repo/masstree_struct.hh:247-283), or an internode with
`height_`, the first `nkeys_` entries of `ikey0_` and the first `nkeys_ + 1` entries of
`child_` (/repo/masstree_struct.hh:99-114). -/
inductive Node (α : Type) where
  | null
  | leaf (perm : Word) (slots : List (Slot α))
  | inode (ht : Nat) (keys : List Nat) (kids : List (Node α))

/-- Is this the null pointer? -/
def Node.isNull {α} : Node α → Bool
  | .null => true
  | _ => false

/-- The part of a cursor's key that one layer looks at: `ka_.ikey()` and `ka_.length()`,
the number of bytes from this layer on (/repo/masstree_key.hh:58-77). -/
structure LKey where
  ikey : Nat
  len : Nat

section
variable {α : Type}

/-- `slots[p]` of a leaf. -/
def slotAt (slots : List (Slot α)) (p : Nat) : Slot α := slots.getD p default

/-- `leaf::compare_key`, /repo/masstree_struct.hh:370-372. -/
def leafCompare (x : LKey) (slots : List (Slot α)) (p : Nat) : Int :=
  Key.compare x.ikey x.len (slotAt slots p).ikey (slotAt slots p).klx

/-- `leaf::bound_type::lower(ka, n)` (/repo/masstree_get.hh:38, 87; /repo/ksearch.hh:130-133). -/
def leafLower (x : LKey) (perm : Word) (slots : List (Slot α)) : Nat × Option Nat :=
  KSearch.lower (Permuter.get perm) (leafCompare x slots) (size perm)

/-- `internode::bound_type::upper(ikey, n)` (/repo/masstree_struct.hh:660,
/repo/masstree_split.hh:214); an internode's permuter is the identity. -/
def inodeUpper (keys : List Nat) (ikey : Nat) : Nat :=
  KSearch.upper id (fun i => cmp3 ikey (keys.getD i 0)) keys.length

mutual
/-- `node_base::reach_leaf` without concurrent changes, /repo/masstree_struct.hh:632-685.
`none`: the code would retry forever because it met a null child. -/
def reach (ikey : Nat) : Node α → Option (Word × List (Slot α))
  | .null => none
  | .leaf perm slots => some (perm, slots)
  | .inode _ keys kids => reachNth ikey kids (inodeUpper keys ikey)
/-- Descend into `child_[i]`, /repo/masstree_struct.hh:661. -/
def reachNth (ikey : Nat) : List (Node α) → Nat → Option (Word × List (Slot α))
  | [], _ => none
  | c :: _, 0 => reach ikey c
  | _ :: cs, i + 1 => reachNth ikey cs i
end

/-- The slot holding key `x` in this layer, if any: `reach_leaf` followed by the search in
the leaf (/repo/masstree_get.hh:30-44).  Outer `none`: `reach_leaf` does not return. -/
def find (x : LKey) (t : Node α) : Option (Option (Slot α)) :=
  match reach x.ikey t with
  | none => none
  | some (perm, slots) =>
    match (leafLower x perm slots).2 with
    | none => some none
    | some p => some (some (slotAt slots p))

/-! ## Insertion -/

/-- What a node reports to its parent when something was inserted below it. -/
inductive Ins (α : Type) where
  /-- undefined behaviour or an endless loop in the C++ code -/
  | fail
  /-- the node's new contents; nothing to do higher up -/
  | done (n : Node α)
  /-- the node of height `h` split into `l` (the old object) and `r` (a new one) around
  slice `k`; `st` is the split type -/
  | split (h st : Nat) (l : Node α) (k : Nat) (r : Node α)

/-- `ikey_after_insert`, /repo/masstree_split.hh:22-35: slice at position `i` of the leaf
once a key with slice `ka` is inserted at position `ki`. -/
def ikeyAfterInsert (perm : Word) (slots : List (Slot α)) (ki ka : Nat) (i : Nat) : Nat :=
  if i < ki then (slotAt slots (Permuter.get perm i)).ikey
  else if i = ki then ka
  else (slotAt slots (Permuter.get perm (i - 1))).ikey

/-- The loop that keeps equal slices together, /repo/masstree_split.hh:83-95.  `midl` and
`midr` move apart by one each round, so after `width + 2` rounds neither can succeed any
more and the C++ loop never ends: running out of fuel is `none`. -/
def adjustLoop (ik : Nat → Nat) (width midIkey : Nat) : Nat → Int → Nat → Option Nat
  | 0, _, _ => none
  | fuel + 1, midl, midr =>
    if midr ≤ width ∧ midIkey ≠ ik midr then some midr
    else if 0 ≤ midl ∧ midIkey ≠ ik midl.toNat then some (midl.toNat + 1)
    else adjustLoop ik width midIkey fuel (midl - 1) (midr + 1)

/-- The choice of the split point `mid`, /repo/masstree_split.hh:67-97. -/
def splitPoint (lm rm : Bool) (width p : Nat) (ik : Nat → Nat) : Option Nat :=
  let mid := if p = 0 ∧ lm then 1 else if p = width ∧ rm then width else 15 / 2 + 1
  if ik mid = ik (mid - 1) then adjustLoop ik width (ik mid) (width + 2) ((mid : Int) - 2) (mid + 1)
  else some mid

/-- The loop that moves items to the new leaf, /repo/masstree_split.hh:101-108: positions
`x, x+1, ..., width`, reading slot numbers off the low end of `pv`. -/
def moveLoop (slots : List (Slot α)) (p : Nat) (new : Slot α) : Nat → Nat → Word → List (Slot α)
  | 0, _, _ => []
  | n + 1, x, pv =>
    if x = p then new :: moveLoop slots p new n (x + 1) pv
    else slotAt slots (pv &&& 15#64).toNat :: moveLoop slots p new n (x + 1) (pv >>> 4)

/-- Pad the list of initialised slots of a fresh leaf to its fifteen slots. -/
def freshSlots (l : List (Slot α)) : List (Slot α) := l ++ List.replicate (15 - l.length) default

/-- `finish_insert` (/repo/masstree_insert.hh:128-136) if the cursor finishes with a
positive state, nothing otherwise (`finish`, /repo/masstree_insert.hh:138-152). -/
def finishPerm (commit : Bool) (perm : Word) (i : Nat) : Word :=
  if commit then (Permuter.insertFromBack perm i).1 else perm

/-- `leaf::split_into` (/repo/masstree_split.hh:50-121), the stripping of the left node in
`make_split` (/repo/masstree_split.hh:251-274), and the cursor's `finish`.  `p` is the
cursor position `kx_.i` and `new` the slot for the cursor's key. -/
def splitLeaf (commit : Bool) (new : Slot α) (lm rm : Bool) (p : Nat) (perm : Word)
    (slots : List (Slot α)) : Ins α :=
  let width := size perm
  match splitPoint lm rm width p (ikeyAfterInsert perm slots p new.ikey) with
  | none => .fail
  | some mid =>
    let pv := Permuter.valueFrom perm (mid - (if p < mid then 1 else 0))
    let rslots := freshSlots (moveLoop slots p new (width + 1 - mid) mid pv)
    let permr0 := Permuter.makeSorted (width + 1 - mid)
    let permr := if p ≥ mid then Permuter.removeToBack permr0 (p - mid) else permr0
    let k := (slotAt rslots 0).ikey
    let perml0 := Permuter.setSize perm (width - size permr)
    let perml := if width ≠ 15 then Permuter.exchange perml0 (size perml0) 14 else perml0
    if p < mid then
      .split 0 0 (.leaf (finishPerm commit perml p) (slots.set (back perml) new)) k
        (.leaf permr rslots)
    else
      .split 0 (1 + (if mid = width then 1 else 0)) (.leaf perml slots) k
        (.leaf (finishPerm commit permr (p - size perml)) rslots)

/-- The part of `find_insert` after the search failed (/repo/masstree_insert.hh:47-58) with
`assign` (/repo/masstree_struct.hh:497-506) and the beginning of `make_split`
(/repo/masstree_split.hh:185-195), followed by the cursor's `finish`. -/
def leafInsert (x : LKey) (commit : Bool) (new : Slot α) (lm rm : Bool) (perm : Word)
    (slots : List (Slot α)) : Ins α :=
  let i := (leafLower x perm slots).1
  if size perm < 15 then
    let p := back perm
    if p ≠ 0 ∨ lm = true ∨ (slotAt slots 0).ikey = new.ikey then
      .done (.leaf (finishPerm commit perm i) (slots.set p new))
    else
      let perm' := Permuter.exchange perm (size perm) 14
      let p' := back perm'
      if p' ≠ 0 then .done (.leaf (finishPerm commit perm' i) (slots.set p' new))
      else splitLeaf commit new lm rm i perm slots
  else splitLeaf commit new lm rm i perm slots

/-- `internode::split_into` (/repo/masstree_split.hh:123-175) together with the insertion
into the left half when it returns `p >= 0` (/repo/masstree_split.hh:239-244): left keys and
children, the slice that moves up, right keys and children. -/
def splitInode (st : Nat) (keys : List Nat) (kids : List (Node α)) (p ka : Nat) (value : Node α) :
    (List Nat × List (Node α)) × Nat × (List Nat × List (Node α)) :=
  let mid := if st = 2 then 15 else (15 + 1) / 2
  if p < mid then
    (((keys.take (mid - 1)).insertIdx p ka, (kids.take mid).insertIdx (p + 1) value),
      keys.getD (mid - 1) 0, (keys.drop mid, kids.drop mid))
  else if p = mid then
    ((keys.take mid, kids.take (mid + 1)), ka, (keys.drop mid, value :: kids.drop (mid + 1)))
  else
    ((keys.take mid, kids.take (mid + 1)), keys.getD mid 0,
      ((keys.drop (mid + 1)).take (p - (mid + 1)) ++ ka :: keys.drop p,
        (kids.drop (mid + 1)).take (p - mid) ++ value :: kids.drop (p + 1)))

/-- One round of the loop of `make_split` at parent `p` (/repo/masstree_split.hh:206-245)
for a child of height `h` that split; `kids` already holds the left half in place. -/
def parentInsert (ht : Nat) (keys : List Nat) (kids : List (Node α)) (h st : Nat) (l : Node α)
    (k : Nat) (r : Node α) : Ins α :=
  let kp := inodeUpper keys k
  if ht > h + 1 then
    .done (.inode ht keys (kids.set kp (.inode (h + 1) [k] [l, r])))
  else if keys.length ≥ 15 then
    match splitInode st keys kids kp k r with
    | ((lk, lc), sk, (rk, rc)) => .split (h + 1) st (.inode ht lk lc) sk (.inode (h + 1) rk rc)
  else
    .done (.inode ht (keys.insertIdx kp k) (kids.insertIdx (kp + 1) r))

mutual
/-- Walk down to the leaf responsible for `ikey` as `reach_leaf` does, apply `f` to it, and
carry a split back up as `make_split` does (/repo/masstree_split.hh:206-294). -/
def upd (f : Bool → Bool → Word → List (Slot α) → Ins α) (ikey : Nat) (lm rm : Bool) : Node α → Ins α
  | .null => .fail
  | .leaf perm slots => f lm rm perm slots
  | .inode ht keys kids =>
    let kd := inodeUpper keys ikey
    match updNth f ikey (lm && kd == 0) (rm && kd == keys.length) kids kd with
    | .fail => .fail
    | .done c => .done (.inode ht keys (kids.set kd c))
    | .split h st l k r => parentInsert ht keys (kids.set kd l) h st l k r
/-- Apply `upd` to `child_[i]`. -/
def updNth (f : Bool → Bool → Word → List (Slot α) → Ins α) (ikey : Nat) (lm rm : Bool) :
    List (Node α) → Nat → Ins α
  | [], _ => .fail
  | c :: _, 0 => upd f ikey lm rm c
  | _ :: cs, i + 1 => updNth f ikey lm rm cs i
end

/-- The root of a layer after an insertion: a split root gets a new root above it
(/repo/masstree_split.hh:218-230 with `kp < 0`). -/
def Ins.root : Ins α → Option (Node α)
  | .fail => none
  | .done n => some n
  | .split h _ l k r => some (.inode (h + 1) [k] [l, r])

/-- Insert a new slot into a layer in which the search for `x` found nothing. -/
def insert (x : LKey) (commit : Bool) (new : Slot α) (t : Node α) : Option (Node α) :=
  (upd (leafInsert x commit new) x.ikey true true t).root

/-- Overwrite the slot the cursor points at: assigning `value()`
(/repo/masstree_tcursor.hh:127-129) or installing a layer (/repo/masstree_insert.hh:112-120). -/
def leafModify (x : LKey) (g : Slot α → Slot α) (_lm _rm : Bool) (perm : Word)
    (slots : List (Slot α)) : Ins α :=
  match (leafLower x perm slots).2 with
  | none => .fail
  | some p => .done (.leaf perm (slots.set p (g (slotAt slots p))))

/-- Change the slot of key `x`, which is present in the layer. -/
def modify (x : LKey) (g : Slot α → Slot α) (t : Node α) : Option (Node α) :=
  (upd (leafModify x g) x.ikey true true t).root

/-! ## Removal -/

/-- What a node reports to its parent when something was removed below it. -/
inductive Rem (α : Type) where
  /-- undefined behaviour in the C++ code -/
  | fail
  /-- the node's new contents.  `redir = some (ikey, new)`: `redirect(n, ikey, new)` has
  still to be done in the parent.  `gc`: a `gc_layer` callback was registered. -/
  | stop (n : Node α) (redir : Option (Nat × Nat)) (gc : Bool)
  /-- the node (found under `ikey`) is deleted and `repl` takes its place in the parent -/
  | up (ikey : Nat) (repl : Node α)

/-- `finish_remove` (/repo/masstree_remove.hh:161-176) and the beginning of `remove_leaf`
(/repo/masstree_remove.hh:178-215) for the key at position `i`. -/
def leafRemoveAt (i : Nat) (lm rm : Bool) (perm : Word) (slots : List (Slot α)) : Rem α :=
  let perm' := Permuter.remove perm i
  if size perm' ≠ 0 then .stop (.leaf perm' slots) none false
  else if lm then .stop (.leaf perm' slots) none rm
  else .up (slotAt slots 0).ikey .null

/-- One round of the loop of `remove_leaf` at parent `p` (/repo/masstree_remove.hh:217-251);
`isRoot` is `p->is_root()`. -/
def parentRemove (isRoot : Bool) (ht : Nat) (keys : List Nat) (kids : List (Node α)) (ikey : Nat)
    (repl : Node α) : Rem α :=
  let kp := inodeUpper keys ikey
  let kids1 := kids.set kp repl
  let shift := repl.isNull && decide (kp > 0)
  let keys2 := if shift then keys.eraseIdx (kp - 1) else keys
  let kids2 := if shift then kids1.eraseIdx kp else kids1
  if keys2.length ≠ 0 ∨ isRoot = true then
    .stop (.inode ht keys2 kids2)
      (if kp ≤ 1 ∧ keys2.length > 0 ∧ (kids2.getD 0 .null).isNull = true then
        some (ikey, keys2.getD 0 0) else none) false
  else .up ikey (kids2.getD 0 .null)

/-- One round of the loop of `redirect` at parent `p` (/repo/masstree_remove.hh:262-274). -/
def parentRedirect (ht : Nat) (keys : List Nat) (kids : List (Node α)) (ikey new : Nat) (gc : Bool) :
    Rem α :=
  let kp := inodeUpper keys ikey
  let keys' := if kp > 0 then keys.set (kp - 1) new else keys
  .stop (.inode ht keys' kids)
    (if kp = 0 ∨ (kp = 1 ∧ (kids.getD 0 .null).isNull = true) then some (ikey, new) else none) gc

mutual
/-- Walk down to the leaf responsible for `ikey`, apply the removal `f`, and walk back up
as `remove_leaf` and `redirect` do. -/
def rem (f : Bool → Bool → Word → List (Slot α) → Rem α) (ikey : Nat) (isRoot lm rm : Bool) :
    Node α → Rem α
  | .null => .fail
  | .leaf perm slots => f lm rm perm slots
  | .inode ht keys kids =>
    let kd := inodeUpper keys ikey
    match remNth f ikey (lm && kd == 0) (rm && kd == keys.length) kids kd with
    | .fail => .fail
    | .stop c none gc => .stop (.inode ht keys (kids.set kd c)) none gc
    | .stop c (some (ik, nk)) gc => parentRedirect ht keys (kids.set kd c) ik nk gc
    | .up ik repl => parentRemove isRoot ht keys kids ik repl
/-- Apply `rem` to `child_[i]`, which is not a root. -/
def remNth (f : Bool → Bool → Word → List (Slot α) → Rem α) (ikey : Nat) (lm rm : Bool) :
    List (Node α) → Nat → Rem α
  | [], _ => .fail
  | c :: _, 0 => rem f ikey false lm rm c
  | _ :: cs, i + 1 => remNth f ikey lm rm cs i
end

/-- The layer after a removal, and whether a `gc_layer` callback was registered.  A redirect
that is still pending at the root would follow a null parent pointer, and the root itself is
never unlinked by `remove_leaf`: both are `none`. -/
def Rem.root : Rem α → Option (Node α × Bool)
  | .stop n none gc => some (n, gc)
  | _ => none

/-- The search of `find_locked` followed by `finish_remove` of the slot it found. -/
def leafRemove (x : LKey) (lm rm : Bool) (perm : Word) (slots : List (Slot α)) : Rem α :=
  match leafLower x perm slots with
  | (i, some _) => leafRemoveAt i lm rm perm slots
  | (_, none) => .fail

/-- Remove the slot of key `x`, which is present in the layer. -/
def remove (x : LKey) (t : Node α) : Option (Node α × Bool) :=
  (rem (leafRemove x) x.ikey true true true t).root

/-- `leaf::make_root` (/repo/masstree_struct.hh:309-315): an empty layer. -/
def emptyLayer : Node α := .leaf Permuter.makeEmpty (List.replicate 15 default)

end
end Verif.Tree
