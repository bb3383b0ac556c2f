import Verif.Tree.Model

/-!
# The whole table: a trie of layers

Model of the cursor operations of /repo/masstree_get.hh, masstree_insert.hh and
masstree_remove.hh over all layers, executed by one thread at a time.  A layer is a
`Tree.Node`; the same simplifications apply (see `Verif/Tree/Model.lean`).  A cursor's key
`ka_` is the list of the bytes that remain in the current layer: `shift` drops eight bytes.

Outer `none` stands for undefined behaviour, a failed assertion, or an endless loop.
-/
namespace Verif.Trie
open Verif.Permuter (Word size)
open Verif.Key (Bytes slice compareKeys)
open Verif.Tree

/-- `leafvalue` (/repo/masstree_struct.hh:194-245): a value or a pointer to the next layer.
The C++ union carries no tag, `keylenx_` tells which it is; the model keeps the tag and
treats reading the wrong side as undefined behaviour. -/
inductive LV (V : Type) where
  | val (v : V)
  | layer (n : Node (LV V))

/-- A layer's root. -/
abbrev T (V : Type) := Node (LV V)

variable {V : Type}

/-- The part of the key the current layer looks at. -/
def lkey (k : Bytes) : LKey := ⟨slice k, k.length⟩

/-- `find_unlocked` and `get`, /repo/masstree_get.hh:22-68, with `ksuf_matches`,
/repo/masstree_struct.hh:410-420.  `some none` is "not found". -/
def get (k : Bytes) (t : T V) : Option (Option V) :=
  match find (lkey k) t with
  | none => none
  | some none => some none
  | some (some s) =>
    if s.klx < 64 then
      match s.lv with
      | some (.val v) => some (some v)
      | _ => none
    else if s.klx = 128 then
      if _h : 8 < k.length then
        match s.lv with
        | some (.layer n) => get (k.drop 8) n
        | _ => none
      else none
    else if s.suf = k.drop 8 then
      match s.lv with
      | some (.val v) => some (some v)
      | _ => none
    else some none
termination_by k.length
decreasing_by simp only [List.length_drop]; omega

/-- The slot that `assign` and `assign_initialize` write (/repo/masstree_struct.hh:497-515). -/
def mkSlot (k : Bytes) (lv : Option (LV V)) : Slot (LV V) :=
  { ikey := slice k, klx := if 8 < k.length then 64 else k.length, suf := k.drop 8, lv := lv }

/-- `make_new_layer`, /repo/masstree_insert.hh:61-126, from the first `shift` on: the twig of
layers that separates the stored key `oka` (value `olv`) from the cursor's key `ka`, followed
by the cursor's `finish`. -/
def mkTwig (commit : Bool) (oka ka : Bytes) (olv nlv : Option (LV V)) : Option (T V) :=
  let c := compareKeys oka ka
  if c = 0 then
    if _h : 8 < oka.length then
      match mkTwig commit (oka.drop 8) (ka.drop 8) olv nlv with
      | none => none
      | some n => some (.leaf (Permuter.makeSorted 1)
          (freshSlots [{ ikey := slice oka, klx := 128, suf := [], lv := some (.layer n) }]))
    else none
  else if c < 0 then
    some (.leaf (finishPerm commit (Permuter.makeSorted 1) 1) (freshSlots [mkSlot oka olv, mkSlot ka nlv]))
  else
    some (.leaf (finishPerm commit (Permuter.removeToBack (Permuter.makeSorted 2) 0) 0)
      (freshSlots [mkSlot ka nlv, mkSlot oka olv]))
termination_by oka.length
decreasing_by simp only [List.length_drop]; omega

/-- The user's assignment to `value()` of a key that was found. -/
def setVal (x : LKey) (v : V) (t : T V) : Option (T V) :=
  modify x (fun s => { s with lv := some (.val v) }) t

/-- `find_insert` (/repo/masstree_insert.hh:22-59), then the user's assignment to `value()`
if `commit`, then `finish(commit)` (/repo/masstree_insert.hh:138-152).  The new value `f old`
may depend on the old one.  Returns what `find_insert` returned (key found). -/
def upsert (commit : Bool) (f : Option V → V) (k : Bytes) (t : T V) : Option (Bool × T V) :=
  let x := lkey k
  let nlv : Option (LV V) := if commit then some (.val (f none)) else none
  match find x t with
  | none => none
  | some none => (insert x commit (mkSlot k nlv) t).map fun t' => (false, t')
  | some (some s) =>
    if s.klx < 64 then
      match s.lv with
      | some (.val v) => if commit then (setVal x (f (some v)) t).map fun t' => (true, t') else some (true, t)
      | _ => none
    else if s.klx = 128 then
      if _h : 8 < k.length then
        match s.lv with
        | some (.layer n) =>
          match upsert commit f (k.drop 8) n with
          | none => none
          | some (b, n') => (modify x (fun s => { s with lv := some (.layer n') }) t).map fun t' => (b, t')
        | _ => none
      else none
    else if s.suf = k.drop 8 then
      match s.lv with
      | some (.val v) => if commit then (setVal x (f (some v)) t).map fun t' => (true, t') else some (true, t)
      | _ => none
    else
      match mkTwig commit s.suf (k.drop 8) s.lv nlv with
      | none => none
      | some n =>
        (modify x (fun s => { s with klx := 128, lv := some (.layer n) }) t).map fun t' => (false, t')
termination_by k.length
decreasing_by simp only [List.length_drop]; omega

/-- `find_locked` (/repo/masstree_get.hh:70-118) followed by `finish(-1)` if the key was
found (/repo/masstree_insert.hh:138-152, /repo/masstree_remove.hh:161-176).  Returns whether
the key was found, the table, and the prefix of the layer for which a `gc_layer` callback was
registered (/repo/masstree_remove.hh:178-187). -/
def remove (k : Bytes) (t : T V) : Option (Bool × T V × Option Bytes) :=
  let x := lkey k
  let drop : Option (Bool × T V × Option Bytes) :=
    (Tree.remove x t).map fun r => (true, r.1, if r.2 then some [] else none)
  match find x t with
  | none => none
  | some none => some (false, t, none)
  | some (some s) =>
    if s.klx < 64 then drop
    else if s.klx = 128 then
      if _h : 8 < k.length then
        match s.lv with
        | some (.layer n) =>
          match remove (k.drop 8) n with
          | none => none
          | some (b, n', gc) =>
            (modify x (fun s => { s with lv := some (.layer n') }) t).map fun t' =>
              (b, t', gc.map (k.take 8 ++ ·))
        | _ => none
      else none
    else if s.suf = k.drop 8 then drop
    else some (false, t, none)
termination_by k.length
decreasing_by simp only [List.length_drop]; omega

/-- Remove redundant internodes at the root of a layer, /repo/masstree_remove.hh:51-86. -/
def collapse {α : Type} : Node α → Node α
  | .inode ht [] [c] => have _ := ht; collapse c
  | n => n

/-- The position of the layer with the slice of `x` in a leaf, as `gc_layer` looks it up
(/repo/masstree_remove.hh:36-49). -/
def gcSlot {α : Type} (x : LKey) (perm : Word) (slots : List (Slot α)) : Option Nat :=
  let r := leafLower x perm slots
  let i := r.1 + (if r.2.isSome then 1 else 0)
  if i ≥ size perm then none
  else
    let s := slotAt slots (Permuter.get perm i)
    if s.ikey ≠ x.ikey ∨ ¬ s.klx > 127 then none else some i

/-- `finish_remove` of the position found by `gc_layer` (/repo/masstree_remove.hh:143-146). -/
def gcRemove {α : Type} (x : LKey) (lm rm : Bool) (perm : Word) (slots : List (Slot α)) : Rem α :=
  match gcSlot x perm slots with
  | none => .fail
  | some i => leafRemoveAt i lm rm perm slots

/-- `n_->lv_[kx_.p] = child` (/repo/masstree_remove.hh:79). -/
def gcReplace {α : Type} (x : LKey) (lv : α) (_lm _rm : Bool) (perm : Word) (slots : List (Slot α)) : Ins α :=
  match gcSlot x perm slots with
  | none => .fail
  | some i =>
    let p := Permuter.get perm i
    .done (.leaf perm (slots.set p { slotAt slots p with lv := some lv }))

/-- `gc_layer` with the key `k` of the callback (/repo/masstree_remove.hh:23-115) and the rest
of the callback (/repo/masstree_remove.hh:134-148). -/
def gcLayer (k : Bytes) (t : T V) : Option (T V) :=
  let x := lkey k
  if _h : 8 < k.length then
    match find x t with
    | none => none
    | some none => some t
    | some (some s) =>
      if s.klx = 128 then
        match s.lv with
        | some (.layer n) =>
          match gcLayer (k.drop 8) n with
          | none => none
          | some n' => modify x (fun s => { s with lv := some (.layer n') }) t
        | _ => none
      else some t
  else
    match reach x.ikey t with
    | none => none
    | some (perm, slots) =>
      match gcSlot x perm slots with
      | none => some t
      | some i =>
        match (slotAt slots (Permuter.get perm i)).lv with
        | some (.layer n) =>
          let r := collapse n
          let keep := (upd (gcReplace x (.layer r)) x.ikey true true t).root
          match r with
          | .null => none
          | .inode _ _ _ => keep
          | .leaf lp _ =>
            if size lp > 0 then keep
            else ((rem (gcRemove x) x.ikey true true true t).root).map Prod.fst
        | _ => none
termination_by k.length
decreasing_by simp only [List.length_drop]; omega

/-- `basic_table::initialize`, /repo/masstree_struct.hh:541-545. -/
def empty : T V := emptyLayer

end Verif.Trie
