import Verif.Key.Model
import Mathlib.Data.List.Basic
import Mathlib.Logic.Function.Basic

/-!
# Objects of `Json`

Model of `Json::ObjectJson`, /repo/json.hh:432-479 and /repo/json.cc:81-213, and of the operations on objects in terms of it,
/repo/json.hh:2080-2120 and 2313-2422: a hash table with chains through an array of items, in which erased items leave holes.

Simplifications:
* Indices and sizes are numbers without bound; the array's memory is not modelled, only its capacity.
* The hash function is any function.
* Values are of any type and are copied.
* Objects are not shared (`uniqueify_object` copies a shared one first).
-/
namespace Verif.Json.Table
open Verif.Key (Bytes)

variable {β : Type}

/-- `ObjectJson`: `n_`, `os_`, `size`, `capacity_`, `hash_`. -/
structure Obj (β : Type) where
  n : Nat
  key : Nat → Bytes
  val : Nat → β
  next : Nat → Int
  size : Int
  cap : Nat
  hsize : Nat
  hash : Nat → Int

/-- `ObjectJson()`, /repo/json.hh:445-448; the arrays are arbitrary. -/
def Obj.new (v : β) : Obj β := ⟨0, fun _ => [], fun _ => v, fun _ => 0, 0, 0, 0, fun _ => 0⟩

/-- `bucket`, /repo/json.hh:452-454. -/
def Obj.bucket (hc : Bytes → Nat) (o : Obj β) (k : Bytes) : Nat := hc k &&& (o.hsize - 1)

/-- An `int*`: an element of `hash_` or the `next_` of an item. -/
inductive Loc where
  | head (b : Nat)
  | next (j : Nat)

/-- `*b`; `none` if it is not in the array. -/
def Obj.read (o : Obj β) : Loc → Option Int
  | .head b => if b < o.hsize then some (o.hash b) else none
  | .next j => if j < o.n then some (o.next j) else none

/-- `*b = x`. -/
def Obj.write (o : Obj β) (x : Int) : Loc → Obj β
  | .head b => { o with hash := Function.update o.hash b x }
  | .next j => { o with next := Function.update o.next j x }

/-- The loops `while (*b >= 0 && …) b = &os_[*b].next_`, /repo/json.cc:143-146, 168-171, 191-192 and 202-203, with the number of rounds;
`none` if one leaves the arrays or does not end within the given number of rounds. -/
def Obj.walk (o : Obj β) (stop : Nat → Bool) : Nat → Loc → Nat → Option (Loc × Nat)
  | 0, _, _ => none
  | f + 1, b, c =>
    match o.read b with
    | none => none
    | some p =>
      if 0 ≤ p then
        if p.toNat < o.n then if stop p.toNat then some (b, c) else o.walk stop f (.next p.toNat) (c + 1) else none
      else some (b, c)

/-- `find`, /repo/json.hh:458-469: -1, or the index. -/
def Obj.find (hc : Bytes → Nat) (o : Obj β) (k : Bytes) : Option Int :=
  if o.hsize = 0 then some (-1)
  else
    match o.walk (fun j => o.key j == k) (o.n + 1) (.head (o.bucket hc k)) 0 with
    | none => none
    | some (b, _) => (o.read b).map fun p => if 0 ≤ p then p else -1

/-- `grow(false)`, /repo/json.cc:98-123: the items stay. -/
def Obj.grow (o : Obj β) : Obj β := { o with cap := if o.cap = 0 then 8 else o.cap * 2 }

/-- The loop of `rehash`, /repo/json.cc:128-135, for the items below `i`. -/
def Obj.relink (hc : Bytes → Nat) (o : Obj β) : Nat → Obj β
  | 0 => o
  | i + 1 =>
    Obj.relink hc (if -2 < o.next i then
      { o with
        next := Function.update o.next i (o.hash (o.bucket hc (o.key i)))
        hash := Function.update o.hash (o.bucket hc (o.key i)) i }
      else o) i

/-- `rehash`, /repo/json.cc:125-136. -/
def Obj.rehash (hc : Bytes → Nat) (o : Obj β) : Obj β :=
  Obj.relink hc { o with hsize := o.hsize * 2, hash := fun _ => -1 } o.n

/-- `find_insert`, /repo/json.cc:138-161, and `get_insert`, /repo/json.cc:163-186: the index of the key, which is inserted with the value
if it is not there. -/
def Obj.findInsert (hc : Bytes → Nat) (o : Obj β) (k : Bytes) (v : β) : Option (Obj β × Nat) :=
  let o := if o.hsize = 0 then { o with hsize := 8, hash := fun _ => -1 } else o
  match o.walk (fun j => o.key j == k) (o.n + 1) (.head (o.bucket hc k)) 0 with
  | none => none
  | some (b, chain) =>
    match o.read b with
    | none => none
    | some p =>
      if 0 ≤ p then some (o, p.toNat)
      else
        let o := o.write o.n b
        let o := if o.n = o.cap then o.grow else o
        let o := { o with
          key := Function.update o.key o.n k
          val := Function.update o.val o.n v
          next := Function.update o.next o.n (-1)
          n := o.n + 1
          size := o.size + 1 }
        let o := if 4 < chain then o.rehash hc else o
        some (o, o.n - 1)

/-- An item is taken out, /repo/json.cc:194-197 and 206-209. -/
def Obj.cut (o : Obj β) (b : Loc) (p : Nat) : Obj β :=
  let o := o.write (o.next p) b
  { o with next := Function.update o.next p (-2), size := o.size - 1 }

/-- `erase(int)`, /repo/json.cc:188-198; `none` also if the assertion fails. -/
def Obj.eraseAt (hc : Bytes → Nat) (o : Obj β) (p : Nat) : Option (Obj β) :=
  match o.walk (fun j => j == p) (o.n + 1) (.head (o.bucket hc (o.key p))) 0 with
  | none => none
  | some (b, _) => if o.read b = some (p : Int) then some (o.cut b p) else none

/-- `erase(Str)`, /repo/json.cc:200-213: the number of items erased. -/
def Obj.erase (hc : Bytes → Nat) (o : Obj β) (k : Bytes) : Option (Obj β × Nat) :=
  match o.walk (fun j => o.key j == k) (o.n + 1) (.head (o.bucket hc k)) 0 with
  | none => none
  | some (b, _) =>
    match o.read b with
    | none => none
    | some p => if 0 ≤ p then some (o.cut b p.toNat, 1) else some (o, 0)

/-- `const_object_iterator::fix`, /repo/json.hh:563-572, with the number of rounds left: `none` is -1. -/
def Obj.fix (o : Obj β) : Nat → Nat → Option Nat
  | 0, _ => none
  | f + 1, i => if o.n ≤ i then none else if o.next i = -2 then o.fix f (i + 1) else some i

/-- `clear`, /repo/json.cc:320-327. -/
def Obj.clear (o : Obj β) : Obj β := { o with n := 0, size := 0, hash := fun _ => -1 }

/-! ### Operations on objects -/

/-- `set`, /repo/json.hh:2313-2317. -/
def Obj.set (hc : Bytes → Nat) (o : Obj β) (nul : β) (k : Bytes) (v : β) : Option (Obj β) :=
  (o.findInsert hc k nul).map fun (o, p) => { o with val := Function.update o.val p v }

/-- `insert`, /repo/json.hh:2362-2368: whether the key is new. -/
def Obj.insert (hc : Bytes → Nat) (o : Obj β) (k : Bytes) (v : β) : Option (Obj β × Bool) :=
  (o.findInsert hc k v).map fun (o', p) => (o', p == o.n)

/-- `get`, /repo/json.hh:2090-2098, for objects. -/
def Obj.get (hc : Bytes → Nat) (o : Obj β) (k : Bytes) : Option (Option β) :=
  (o.find hc k).map fun p => if 0 ≤ p then some (o.val p.toNat) else none

/-- The loop of `merge`, /repo/json.hh:2416-2419, from item `i` on. -/
def Obj.mergeFrom (hc : Bytes → Nat) (nul : β) (x : Obj β) : Nat → Nat → Obj β → Option (Obj β)
  | 0, _, o => some o
  | f + 1, i, o =>
    if -2 < x.next i then (o.set hc nul (x.key i) (x.val i)).bind (x.mergeFrom hc nul f (i + 1))
    else x.mergeFrom hc nul f (i + 1) o

/-- `merge`, /repo/json.hh:2410-2422. -/
def Obj.merge (hc : Bytes → Nat) (nul : β) (o x : Obj β) : Option (Obj β) := x.mergeFrom hc nul x.n 0 o

/-! ### What an object holds -/

/-- The items that are not erased, in the order of the array. -/
def Obj.contents (o : Obj β) : List (Bytes × β) :=
  (List.range o.n).filterMap fun j => if o.next j = -2 then none else some (o.key j, o.val j)

end Verif.Json.Table
