import Verif.Tree.Leaves
import Verif.Trie.Contents

/-!
# Scans

Model of /repo/masstree_scan.hh with no concurrent writers: versions never change, so the
branches for `v_.deleted()` and `has_changed(v_)` are not taken and `perm_` is the leaf's
permutation.  A leaf pointer `n_` is a position in the list of leaves of the layer whose root
is `root_`; the lists `next_`/`prev_` run through it.  `visit_leaf` is a hook that does not
influence the scan.

The C++ function is a loop over states with gotos; here it is a step function on
configurations.  Every write to the key buffer and every read of it is checked against the
size of the buffer; out of bounds is `fail`.
-/
namespace Verif.Scan
open Verif.Permuter (Word size)
open Verif.Key (Bytes slice cmp3)
open Verif.Tree
open Verif.Trie (T LV ikeyBytes)
variable {V : Type}

/-- The scan's key `ka` (/repo/masstree_key.hh:178-235): `first_` is the start of `buf`,
`s_` is `first_ + off`. -/
structure SKey where
  buf : Bytes
  off : Nat
  ikey : Nat
  len : Nat

/-- What a layer sees of the key. -/
def SKey.lk (k : SKey) : LKey := ⟨k.ikey, k.len⟩

/-- `memcpy` of `b` to position `at` of the buffer. -/
def store (buf : Bytes) (pos : Nat) (b : Bytes) : Option Bytes :=
  if pos + b.length ≤ buf.length then some (buf.take pos ++ b ++ buf.drop (pos + b.length)) else none

/-- `assign_store_ikey`, /repo/masstree_key.hh:202-205. -/
def SKey.storeIkey (k : SKey) (ikey : Nat) : Option SKey :=
  (store k.buf k.off (ikeyBytes ikey)).map fun b => { k with buf := b, ikey := ikey }

/-- `assign_store_suffix`, /repo/masstree_key.hh:206-209; returns the new key length too. -/
def SKey.storeSuffix (k : SKey) (suf : Bytes) : Option (SKey × Nat) :=
  (store k.buf (k.off + 8) suf).map fun b => ({ k with buf := b }, 8 + suf.length)

/-- `full_string`, /repo/masstree_key.hh:185-187. -/
def SKey.full (k : SKey) : Option Bytes :=
  if k.off + k.len ≤ k.buf.length then some (k.buf.take (k.off + k.len)) else none

/-- `suffix`, /repo/masstree_key.hh:97-99. -/
def SKey.suffix (k : SKey) : Option Bytes :=
  if 8 < k.len ∧ k.off + k.len ≤ k.buf.length then some ((k.buf.drop (k.off + 8)).take (k.len - 8)) else none

/-- `shift`, /repo/masstree_key.hh:108-112. -/
def SKey.shift (k : SKey) : Option SKey :=
  if 8 < k.len ∧ k.off + k.len ≤ k.buf.length then
    some { k with off := k.off + 8, len := k.len - 8, ikey := slice ((k.buf.drop (k.off + 8)).take (k.len - 8)) }
  else none

/-- `unshift`, /repo/masstree_key.hh:213-218. -/
def SKey.unshift (k : SKey) : Option SKey :=
  if 8 ≤ k.off ∧ k.off ≤ k.buf.length then
    some { k with off := k.off - 8, len := 9, ikey := slice ((k.buf.drop (k.off - 8)).take 8) }
  else none

/-- Direction of a scan: `forward_scan_helper` or `reverse_scan_helper`. -/
inductive Dir where
  | fwd | rev
  deriving DecidableEq

/-- `helper.next(ki)`, /repo/masstree_scan.hh:99-101, 146-148 and 146-148. -/
def Dir.next : Dir → Int → Int
  | .fwd, ki => ki + 1
  | .rev, ki => ki - 1

/-- `helper.initial_ksuf_match`, /repo/masstree_scan.hh:82-84, 126-128 and 124-126;
`c` is the result of `suffix.compare`. -/
def Dir.suffixMatch : Dir → Int → Bool → Bool
  | .fwd, c, eq => decide (0 < c) || (decide (c = 0) && eq)
  | .rev, c, eq => decide (c < 0) || (decide (c = 0) && eq)

/-- `helper.is_duplicate`, /repo/masstree_scan.hh:85-89, 129-133 and 127-131. -/
def Dir.isDup : Dir → Bool → LKey → Slot (LV V) → Bool
  | .fwd, _, k, s => decide (0 ≤ Key.compare k.ikey k.len s.ikey s.klx)
  | .rev, ub, k, s => decide (Key.compare k.ikey k.len s.ikey s.klx ≤ 0) && !ub

/-- `helper.lower_with_position`, /repo/masstree_scan.hh:93-96, 140-145 and 140-145. -/
def Dir.lowerPos (d : Dir) (k : LKey) (l : Leaf (LV V)) : Int × Option Nat :=
  let r := leafLower k l.1 l.2
  match d with
  | .fwd => (r.1, r.2)
  | .rev => (r.1 - (if r.2.isNone then 1 else 0), r.2)

/-- `helper.lower`, /repo/masstree_scan.hh:90-92, 134-139 and 132-139. -/
def Dir.lower (d : Dir) (ub : Bool) (k : LKey) (l : Leaf (LV V)) : Int :=
  match d with
  | .fwd => (d.lowerPos k l).1
  | .rev => if ub then (size l.1 : Int) - 1 else (d.lowerPos k l).1

/-- The loop of `reverse_scan_helper::stable`, /repo/masstree_scan.hh:158-170: move right
while the next leaf may hold the key. -/
def revStable (k : LKey) : List (Leaf (LV V)) → Nat → Nat
  | [], i => i
  | l :: ls, i =>
    if cmp3 k.ikey (ikeyBound l) < 0 ∨ (cmp3 k.ikey (ikeyBound l) = 0 ∧ k.len = 0) then i
    else revStable k ls (i + 1)

/-- `helper.stable`, /repo/masstree_scan.hh:106-109 and 158-170. -/
def Dir.stable (d : Dir) (k : LKey) (ls : List (Leaf (LV V))) (i : Nat) : Nat :=
  match d with
  | .fwd => i
  | .rev => revStable k (ls.drop (i + 1)) i

/-- Three-way comparison of byte strings, `Str::compare` (/repo/string.cc:134-144); only the
sign of the result is used. -/
def cmpBytes : Bytes → Bytes → Int
  | [], [] => 0
  | [], _ :: _ => -1
  | _ :: _, [] => 1
  | a :: as, b :: bs => if a = b then cmpBytes as bs else if a < b then -1 else 1

/-- The state of the loop in `basic_table::scan`. -/
inductive Mode (V : Type) where
  | initial
  | emit (v : V)
  | findNext
  | up
  | down

/-- `scanstackelt` with `node_stack_` (/repo/masstree_scan.hh:50-56), the key, and
`upper_bound_` of the reverse helper. -/
structure Cfg (V : Type) where
  key : SKey
  root : T V
  i : Nat
  ki : Int
  stack : List (T V × Nat)
  ub : Bool
  mode : Mode V

/-- Result of a step. -/
inductive Out (V : Type) where
  /-- undefined behaviour or an endless loop -/
  | fail
  /-- internal step -/
  | tau (c : Cfg V)
  /-- call `visit_value` with this key and value, then go on -/
  | visit (k : Bytes) (v : V) (c : Cfg V)
  /-- the scan is over -/
  | done

/-- One round of the `retry_entry` loop of `find_next` (/repo/masstree_scan.hh:252-307):
skip a duplicate, return an entry, or go to the next leaf. -/
def findNext (d : Dir) (c : Cfg V) : Out V :=
  match (leavesOf c.root)[c.i]? with
  | none => .fail
  | some l =>
    if 0 ≤ c.ki ∧ c.ki < size l.1 then
      let s := slotAt l.2 (Permuter.get l.1 c.ki.toNat)
      match (if s.klx = 64 then c.key.storeSuffix s.suf else some (c.key, s.klx)) with
      | none => .fail
      | some (key, keylen) =>
        if d.isDup c.ub key.lk s then .tau { c with key := key, ki := d.next c.ki }
        else
          match key.storeIkey s.ikey with
          | none => .fail
          | some key =>
            if s.klx > 127 then
              match s.lv with
              | some (.layer n) =>
                .tau { c with
                  key := key, ub := false, root := n, i := 0, stack := (c.root, c.i) :: c.stack, mode := .down }
              | _ => .fail
            else
              match s.lv with
              | some (.val v) => .tau { c with key := { key with len := keylen }, ub := false, mode := .emit v }
              | _ => .fail
    else
      match d with
      | .fwd =>
        match (leavesOf c.root)[c.i + 1]? with
        | none => .tau { c with mode := .up }
        | some l2 => .tau { c with i := c.i + 1, ki := d.lower c.ub c.key.lk l2 }
      | .rev =>
        match c.key.storeIkey (ikeyBound l) with
        | none => .fail
        | some key =>
          let key := { key with len := 0 }
          if c.i = 0 then .tau { c with key := key, ub := false, mode := .up }
          else
            let i := d.stable key.lk (leavesOf c.root) (c.i - 1)
            match (leavesOf c.root)[i]? with
            | none => .fail
            | some l2 => .tau { c with key := key, i := i, ki := d.lower c.ub key.lk l2 }

/-- `find_initial`, /repo/masstree_scan.hh:180-236, followed by `ka.shift()` when it goes down
(/repo/masstree_scan.hh:334-340). -/
def findInitial (d : Dir) (eq : Bool) (c : Cfg V) : Out V :=
  match reachIdx c.key.ikey c.root with
  | none => .fail
  | some i =>
    match (leavesOf c.root)[i]? with
    | none => .fail
    | some l =>
      let kx := d.lowerPos c.key.lk l
      match kx.2 with
      | none => .tau { c with i := i, ki := kx.1, mode := .findNext }
      | some p =>
        let s := slotAt l.2 p
        let skip : Out V := .tau { c with i := i, ki := d.next kx.1, mode := .findNext }
        if s.klx > 127 then
          match s.lv, c.key.shift with
          | some (.layer n), some key =>
            .tau { c with key := key, root := n, stack := (c.root, i) :: c.stack, mode := .initial }
          | _, _ => .fail
        else if s.klx = 64 then
          match c.key.suffix with
          | none => .fail
          | some suf =>
            if d.suffixMatch (cmpBytes s.suf suf) eq then
              match c.key.storeSuffix s.suf, s.lv with
              | some (key, keylen), some (.val v) =>
                .tau { c with key := { key with len := keylen }, i := i, ki := kx.1, mode := .emit v }
              | _, _ => .fail
            else skip
        else if eq then
          match s.lv with
          | some (.val v) => .tau { c with i := i, ki := kx.1, mode := .emit v }
          | _ => .fail
        else skip

/-- One step of the loop of `basic_table::scan`, /repo/masstree_scan.hh:342-383. -/
def step (d : Dir) (eq : Bool) (c : Cfg V) : Out V :=
  match c.mode with
  | .initial => findInitial d eq c
  | .emit v =>
    match c.key.full with
    | none => .fail
    | some k => .visit k v { c with ki := d.next c.ki, mode := .findNext }
  | .findNext => findNext d c
  | .up =>
    match c.stack with
    | [] => .done
    | (root, i) :: stack =>
      match c.key.unshift with
      | none => .fail
      | some key =>
        if key.ikey = 0 ∧ key.len = 0 then .tau { c with key := key, root := root, i := i, stack := stack }
        else
          let i := d.stable key.lk (leavesOf root) i
          match (leavesOf root)[i]? with
          | none => .fail
          | some l =>
            .tau { c with
              key := key, root := root, i := i, ki := d.lower c.ub key.lk l, stack := stack, mode := .findNext }
  | .down =>
    -- helper.shift_clear(ka) (/repo/masstree_key.hh:219-228), then find_retry
    -- (/repo/masstree_scan.hh:238-250)
    let key : SKey := match d with
      | .fwd => { c.key with ikey := 0, len := 0, off := c.key.off + 8 }
      | .rev => { c.key with ikey := 2 ^ 64 - 1, len := 9, off := c.key.off + 8 }
    let ub : Bool := match d with
      | .fwd => c.ub
      | .rev => true
    match reachIdx key.ikey c.root with
    | none => .fail
    | some i =>
      match (leavesOf c.root)[i]? with
      | none => .fail
      | some l => .tau { c with key := key, ub := ub, i := i, ki := d.lower ub key.lk l, mode := .findNext }

/-- How a scan ends. -/
inductive Res (σ : Type) where
  /-- undefined behaviour -/
  | fail
  /-- not finished within the given number of steps -/
  | fuel
  /-- final state of the visitor and number of calls to `visit_value` -/
  | fin (s : σ) (count : Nat)

/-- Run the loop.  `vis` is `visit_value`: it changes the visitor's state and says whether
to go on. -/
def exec {σ : Type} (d : Dir) (eq : Bool) (vis : σ → Bytes → V → σ × Bool) :
    Nat → Cfg V → σ → Nat → Res σ
  | 0, _, _, _ => .fuel
  | n + 1, c, st, count =>
    match step d eq c with
    | .fail => .fail
    | .done => .fin st count
    | .tau c => exec d eq vis n c st count
    | .visit k v c =>
      let r := vis st k v
      if r.2 then exec d eq vis n c r.1 (count + 1) else .fin r.1 (count + 1)

/-- The configuration at the start of a scan (/repo/masstree_scan.hh:309-340).  The buffer
holds 256 bytes, 255 (`MASSTREE_MAXKEYLEN`, /repo/configure.ac:336) rounded up to whole
slices; `junk` is its uninitialised part. -/
def start (t : T V) (first junk : Bytes) : Cfg V :=
  { key := { buf := first ++ junk, off := 0, ikey := slice first, len := first.length }
    root := t, i := 0, ki := 0, stack := [], ub := false, mode := .initial }

end Verif.Scan
