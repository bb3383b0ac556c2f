import Mathlib.Data.List.Basic

/-!
# Deferred frees of one thread

Model of `limbo_group` (/repo/kvthread.hh:37-75, /repo/kvthread.cc:81-104) and of the functions of `threadinfo` that
use it: `record_rcu` (/repo/kvthread.hh:340-345), `refill_rcu` (/repo/kvthread.cc:71-79), `hard_rcu_quiesce`
(/repo/kvthread.cc:106-141) and `rcu_stop` (/repo/kvthread.hh:268-272).

An object is a number.  A group is the part `e_[head_ .. tail_)` of its array, which is all that is read, together
with `head_` and `epoch_`.  Freeing an object may call a function that retires further objects
(/repo/kvthread.hh:330-331): `cb n` lists the objects, with their epochs, retired while the `n`-th object of this thread
is freed, counting from 0.  `none` is a failed assertion.
-/
namespace Verif.Rcu

abbrev Epoch := BitVec 64

/-- `limbo_element`, /repo/kvthread.hh:41-47: a null `ptr_` marks the epoch of the elements that follow. -/
inductive Elem where
  | mark (e : Epoch)
  | item (p : Nat)
deriving DecidableEq, Repr

/-- `capacity`, /repo/kvthread.hh:49, with 8-byte pointers. -/
def capacity : Nat := (4076 - 8 - 8) / 16

/-- `limbo_group`: `head_`, `e_[head_ .. tail_)` and `epoch_`. -/
structure Group where
  head : Nat
  elems : List Elem
  epoch : Epoch
deriving DecidableEq, Repr

/-- `tail_`. -/
def Group.tail (g : Group) : Nat := g.head + g.elems.length

/-- A new group, /repo/kvthread.hh:55-57.  `epoch_` is not initialised. -/
def fresh : Group := ⟨0, [], 0⟩

/-- `push_back`, /repo/kvthread.hh:62-73. -/
def Group.push (g : Group) (p : Nat) (e : Epoch) : Option Group :=
  if capacity < g.tail + 2 then none
  else if g.elems = [] ∨ g.epoch ≠ e then some { g with elems := g.elems ++ [.mark e, .item p], epoch := e }
  else some { g with elems := g.elems ++ [.item p] }

/-- A thread: the groups from `limbo_head_` (`first`) to `limbo_tail_` (last of `first :: more`), the spare groups linked
behind it, what has been freed (with the bound in force), and `perform_gc_epoch_`. -/
structure Ti where
  first : Group
  more : List Group
  spare : List Group
  freed : List (Nat × Epoch)
  perform : Epoch
deriving DecidableEq, Repr

/-- The thread at the beginning, /repo/kvthread.cc:33, 43-45. -/
def Ti.init : Ti := ⟨fresh, [], [], [], 0⟩

/-- Change of the group at `limbo_tail_`. -/
def onLast (f : Group → Option Group) : Group → List Group → Option (Group × List Group)
  | g, [] => (f g).map fun g' => (g', [])
  | g, h :: t => (onLast f h t).map fun r => (g, r.1 :: r.2)

/-- The group at `limbo_tail_`. -/
def lastGroup : Group → List Group → Group
  | g, [] => g
  | _, h :: t => lastGroup h t

/-- `refill_rcu`, /repo/kvthread.cc:71-79. -/
def Ti.refill (t : Ti) : Option Ti :=
  match t.spare with
  | [] => some { t with more := t.more ++ [fresh] }
  | g :: rest => if g.head = 0 ∧ g.elems = [] then some { t with more := t.more ++ [g], spare := rest } else none

/-- `record_rcu`, /repo/kvthread.hh:340-345; `e` is the global epoch. -/
def Ti.record (t : Ti) (p : Nat) (e : Epoch) : Option Ti :=
  (if capacity < (lastGroup t.first t.more).tail + 2 then t.refill else some t).bind fun t =>
    (onLast (fun g => g.push p e) t.first t.more).map fun r => { t with first := r.1, more := r.2 }

/-- The calls of `record_rcu` made by a callback. -/
def Ti.recordAll (t : Ti) : List (Nat × Epoch) → Option Ti
  | [] => some t
  | (p, e) :: l => (t.record p e).bind fun t => t.recordAll l

/-- `signed_epoch_type(bound - epoch) >= 0`. -/
def safe (bound e : Epoch) : Bool := !(bound - e).msb

/-- The steps of the loop of `clean_until` over epoch marks, /repo/kvthread.cc:94-99: the number of elements passed, the
last epoch seen and the remaining elements. -/
def skip (bound : Epoch) : Nat → Epoch → List Elem → Nat × Epoch × List Elem
  | k, e, .mark e' :: l => if safe bound e' then skip bound (k + 1) e' l else (k, e, .mark e' :: l)
  | k, e, l => (k, e, l)

/-- `clean_until` of the group at `limbo_head_`, /repo/kvthread.cc:81-104.  `count` is positive; the result has the
remaining count. -/
def Ti.clean (cb : Nat → List (Nat × Epoch)) (bound : Epoch) : Nat → Epoch → Ti → Option (Ti × Nat)
  | 0, _, t => some (t, 0)
  | c + 1, e, t =>
    match skip bound 0 e t.first.elems with
    | (_, _, []) => some ({ t with first := { t.first with head := 0, elems := [] } }, c + 1)
    | (k, _, .mark m :: l) => some ({ t with first := { t.first with head := t.first.head + k, elems := .mark m :: l } }, c + 1)
    | (k, e', .item p :: l) =>
      let t1 := { t with first := { t.first with head := t.first.head + k, elems := .item p :: l }, freed := t.freed ++ [(p, bound)] }
      (t1.recordAll (cb t.freed.length)).bind fun t2 =>
        if c = 0 then
          some ({ t2 with first := { t2.first with elems := .mark e' :: t2.first.elems.tail } }, 0)
        else
          Ti.clean cb bound c e' { t2 with first := { t2.first with head := t2.first.head + 1, elems := t2.first.elems.tail } }

/-- The loop of `hard_rcu_quiesce`, /repo/kvthread.cc:117-134, with at most `fuel` rounds; `emp` are the groups from
`empty_head` to `empty_tail`. -/
def Ti.cleanLoop (cb : Nat → List (Nat × Epoch)) (bound : Epoch) : Nat → Nat → List Group → Ti → Option (Ti × Nat)
  | 0, _, _, _ => none
  | fuel + 1, count, emp, t =>
    if count = 0 then some ({ t with spare := emp ++ t.spare }, 0)
    else
      (t.clean cb bound count 0).bind fun (t, count) =>
        if t.first.elems ≠ [] then some ({ t with spare := emp ++ t.spare }, count)
        else
          match t.more with
          | [] =>
            -- `limbo_head_ = limbo_tail_ = empty_head`
            match emp ++ [t.first] with
            | [] => none
            | g :: rest => some ({ t with first := g, more := [], spare := rest ++ t.spare }, count)
          | g :: rest => Ti.cleanLoop cb bound fuel count (emp ++ [t.first]) { t with first := g, more := rest }

/-- The test at the beginning of `hard_rcu_quiesce`, /repo/kvthread.cc:112-114, with `first_epoch`
(/repo/kvthread.hh:58-61).  The first element is always a mark. -/
def Ti.ready (t : Ti) (bound : Epoch) : Bool :=
  match t.first.elems with
  | [] => false
  | .mark e :: _ => safe bound e
  | .item _ :: _ => false

/-- `hard_rcu_quiesce`, /repo/kvthread.cc:106-141.  `active` is `active_epoch`, 128 is `rcu_free_count`
(/repo/kvthread.hh:262). -/
def Ti.quiesce (cb : Nat → List (Nat × Epoch)) (fuel : Nat) (active : Epoch) (t : Ti) : Option Ti :=
  let bound := active - 1
  (if t.ready bound then t.cleanLoop cb bound fuel 128 [] else some (t, 128)).map fun (t, count) =>
    { t with perform := if count = 0 then bound else bound + 1 }

/-- `rcu_stop` as far as it concerns the limbo list, /repo/kvthread.hh:268-272; `rcu_quiesce` (/repo/kvthread.hh:273-277)
does the same. -/
def Ti.stop (cb : Nat → List (Nat × Epoch)) (fuel : Nat) (active : Epoch) (t : Ti) : Option Ti :=
  if t.perform ≠ active then t.quiesce cb fuel active else some t

end Verif.Rcu
