import Verif.Leaflink.Walk

/-!
# Who waits for which lock

Threads that look up, insert, split, make layers, remove leaves and collapse empty layers, reduced to what decides who
waits for whom: the locks of the nodes, the heights of the nodes, the parent and child pointers, the pointers from a leaf
to the layers below it, and the leaf list of every layer.  Which key an operation is about is left open: a step that the
code takes depending on keys or on how full a node is may always be taken here, so the model has every execution of the
code and more, with one exception: the child that `remove_leaf` takes out of a parent is the node it removes, as the
assertions at /repo/masstree_remove.hh:224 and 268 say.  They may fail (C46), and then the code takes out another child.

One step is one access to a lock, or one group of writes done while the locks that guard them are held.  Nodes are numbers
and are never reused (memory is not reused while somebody may hold a pointer to it, see C13).  A thread that waits for a
dirty node without holding a lock (`stable`, /repo/nodeversion.hh:36-58) waits for somebody who holds the node's lock; it is
treated as a thread that wants the lock.

Where the code would follow a null parent pointer (`remove_leaf` and `redirect`,
/repo/masstree_remove.hh:218-219,263-267) the model lets the thread give up its locks.  For `remove_leaf` this does not
arise (C45); for `redirect` the sequential model of `Verif/Tree` shows that it does not.
-/
namespace Verif.LockOrder

open Function (update)

/-- Where a thread is.  `h` is the variable `height` of `make_split`, `t` the leaf it keeps for its caller once that is
decided, `r` the variable `replacement` of `remove_leaf`. -/
inductive PC where
  | idle
  /-- spins for the lock of `n` holding nothing: `find_locked`, /repo/masstree_get.hh:100 -/
  | want (n : Nat)
  /-- has just taken the lock of `n` -/
  | look (n : Nat)
  /-- holds the leaf `n` -/
  | hold (n : Nat)
  /-- `make_new_layer`: holds `n` and the new leaf `c` -/
  | twig (n c : Nat)
  /-- `split_into`: in `link_split(n, c)`, both locked -/
  | link (n c : Nat)
  /-- `make_split`: at the call of `locked_parent`, `n` and `c` locked -/
  | par (n c : Nat) (t : Option Nat) (h : Nat)
  /-- in `locked_parent`: spins for the lock of `p` -/
  | wait (p n c : Nat) (t : Option Nat) (h : Nat)
  /-- in `locked_parent`: `p` is locked but not yet known to be the parent -/
  | got (p n c : Nat) (t : Option Nat) (h : Nat)
  /-- the parent `p` is locked -/
  | mod (p n c : Nat) (t : Option Nat) (h : Nat)
  /-- the child is in; `x` is the new right half of `p` if `p` was split -/
  | fin (p x : Option Nat) (n c : Nat) (t : Option Nat) (h : Nat)
  /-- `n` is unlocked, `c` not yet -/
  | fin' (p x : Option Nat) (c t h : Nat)
  /-- at the end of the loop's body -/
  | rel (p x : Option Nat) (t h : Nat)
  /-- `remove_leaf`: in `unlink(n)` -/
  | unl (n : Nat)
  /-- at the call of `locked_parent` in the loop -/
  | rpar (n : Nat) (r : Option Nat)
  | rwait (p n : Nat) (r : Option Nat)
  | rgot (p n : Nat) (r : Option Nat)
  | rmod (p n : Nat) (r : Option Nat)
  /-- `redirect`: at the call of `locked_parent` for `q`; `p` and `n` are those of `remove_leaf` -/
  | dpar (q p n : Nat)
  | dwait (u q p n : Nat)
  | dgot (u q p n : Nat)
  | dmod (u q p n : Nat)
  /-- at the loop condition, with `u` locked -/
  | dtop (u p n : Nat)
  /-- before `n->unlock()`, line 240 -/
  | rend (p n : Nat)
  /-- at the test of line 243 -/
  | rnext (p : Nat)
  /-- `gc_layer`: at the top of the loop, with the layer pointer `r` -/
  | gc (n r : Nat)
  /-- spins for the lock of `r` -/
  | gwait (n r : Nat)
  /-- holds the lock of `r` -/
  | ggot (n r : Nat)
  /-- holds the lock of the only child `c` of `r` too -/
  | gch (n r c : Nat)
  /-- `c` is the root of the layer and unlocked, `r` still locked -/
  | gup (n r c : Nat)
deriving DecidableEq, Repr

structure State where
  /-- the first number not yet used for a node -/
  fresh : Nat
  /-- `height_` of an internode, 0 for leaves -/
  ht : Nat → Nat
  /-- the layer of a node, named after the layer's first leaf -/
  lay : Nat → Nat
  /-- how many layers are above a layer -/
  dep : Nat → Nat
  /-- who holds the lock of a node -/
  lock : Nat → Option Nat
  /-- `parent_` -/
  parent : Nat → Option Nat
  /-- `kids p c`: `c` is in `child_` of `p`.  The child that `remove_leaf` takes out of a node it deletes (line 250) counts
  until it is put in its new place (line 226); nobody but the remover looks at it in between. -/
  kids : Nat → Nat → Prop
  /-- `sub n r`: a layer pointer in leaf `n` is `r` -/
  sub : Nat → Nat → Prop
  /-- taken out of the tree: deleted, or (`gc_layer`) no longer the root of its layer, or the leaf of a deleted layer -/
  dead : Nat → Prop
  /-- the nodes given to `deallocate_rcu`, the last one first -/
  limbo : List Nat
  /-- the leaf list of each layer, see `Verif/Leaflink` -/
  list : Nat → Leaflink.State
  pc : Nat → PC

/-- A table with one leaf. -/
def State.init : State where
  fresh := 1
  ht := fun _ => 0
  lay := fun _ => 0
  dep := fun _ => 0
  lock := fun _ => none
  parent := fun _ => none
  kids := fun _ _ => False
  sub := fun _ _ => False
  dead := fun _ => False
  limbo := []
  list := fun _ => .init
  pc := fun _ => .idle

/-- The number of a leaf in the list of its layer; the list begins with the leaf 0. -/
def State.lid (s : State) (n : Nat) : Nat := if s.lay n = n then 0 else n

/-- A list operation `o` on `m` begins. -/
structure Starts (key : Nat → Nat) (m : Nat) (o : Leaflink.Op) (L L' : Leaflink.State) : Prop where
  step : Leaflink.Step key L L'
  idle : L.op m = .idle
  op : L'.op m = o
  others : ∀ x, x ≠ m → L'.op x = L.op x

/-- The operation on `m` goes one step. -/
structure Moves (key : Nat → Nat) (m : Nat) (L L' : Leaflink.State) : Prop where
  step : Leaflink.Step key L L'
  busy : L.op m ≠ .idle
  others : ∀ x, x ≠ m → L'.op x = L.op x

/-- `unlock` of a pointer that may be null. -/
def unlock (f : Nat → Option Nat) : Option Nat → (Nat → Option Nat)
  | none => f
  | some p => update f p none

/-- `set_parent` on a pointer that may be null. -/
def setParent (f : Nat → Option Nat) : Option Nat → Nat → (Nat → Option Nat)
  | none, _ => f
  | some r, p => update f r (some p)

/-- The steps of thread `i`.  `key l` gives the lowest key of the leaves of layer `l`. -/
inductive Step (key : Nat → Nat → Nat) (i : Nat) : State → State → Prop where
  /-- An operation has found a leaf by lookup (or reads on elsewhere). -/
  | find {s : State} (n : Nat) (hp : s.pc i = .idle ∨ ∃ m, s.pc i = .want m) (hn : n < s.fresh) :
      Step key i s { s with pc := update s.pc i (.want n) }
  /-- A lookup ends. -/
  | stop {s : State} (n : Nat) (hp : s.pc i = .want n) : Step key i s { s with pc := update s.pc i .idle }
  /-- The lock of a leaf is taken, /repo/masstree_get.hh:100. -/
  | lock {s : State} (n : Nat) (hp : s.pc i = .want n) (hl : s.lock n = none) (hh : s.ht n = 0) :
      Step key i s { s with lock := update s.lock n (some i), pc := update s.pc i (.look n) }
  /-- The leaf is not dead: neither its version has changed nor is it the leaf of a deleted layer,
  /repo/masstree_get.hh:101-117. -/
  | look {s : State} (n : Nat) (hp : s.pc i = .look n) (hd : ¬ s.dead n) :
      Step key i s { s with pc := update s.pc i (.hold n) }
  /-- The attempt must be repeated, /repo/masstree_get.hh:103-105,112-115. -/
  | retry {s : State} (n m : Nat) (hp : s.pc i = .look n) (hm : m < s.fresh) :
      Step key i s { s with lock := update s.lock n none, pc := update s.pc i (.want m) }
  /-- A layer pointer is brought up to date, /repo/masstree_get.hh:106-110. -/
  | repair {s : State} (n r r' : Nat) (hp : s.pc i = .hold n) (hr : s.sub n r) (hr' : s.parent r = some r') :
      Step key i s { s with
        sub := update s.sub n (fun x => (s.sub n x ∧ x ≠ r) ∨ x = r')
        pc := update s.pc i (.gc n r') }
  /-- The end of an operation, /repo/masstree_insert.hh:151. -/
  | unlock {s : State} (n : Nat) (hp : s.pc i = .hold n) :
      Step key i s { s with lock := update s.lock n none, pc := update s.pc i .idle }
  /-- `make_new_layer` makes the layers `fresh`, …, `fresh + k`, each below the one before, and locks the last leaf,
  /repo/masstree_insert.hh:70-119. -/
  | twig {s : State} (n k : Nat) (hp : s.pc i = .hold n) :
      Step key i s { s with
        fresh := s.fresh + k + 1
        ht := fun x => if s.fresh ≤ x then 0 else s.ht x
        lay := fun x => if s.fresh ≤ x then x else s.lay x
        dep := fun l => if s.fresh ≤ l then s.dep (s.lay n) + 1 + (l - s.fresh) else s.dep l
        lock := update s.lock (s.fresh + k) (some i)
        sub := fun x r => s.sub x r ∨ (x = n ∧ r = s.fresh) ∨ (s.fresh ≤ x ∧ x < s.fresh + k ∧ r = x + 1)
        list := fun l => if s.fresh ≤ l then .init else s.list l
        pc := update s.pc i (.twig n (s.fresh + k)) }
  /-- /repo/masstree_insert.hh:122-123 -/
  | twigged {s : State} (n c : Nat) (hp : s.pc i = .twig n c) :
      Step key i s { s with lock := update s.lock n none, pc := update s.pc i (.hold c) }
  /-- A split begins: the new leaf copies the locked version word, gets the upper entries and is linked,
  /repo/masstree_split.hh:197-201,117.  `f` says which layer pointers move. -/
  | split {s : State} (n : Nat) (f : Nat → Bool) (L : Leaflink.State) (hp : s.pc i = .hold n)
      (hL : Starts (key (s.lay n)) (s.lid n) (.s0 s.fresh) (s.list (s.lay n)) L) :
      Step key i s { s with
        fresh := s.fresh + 1
        ht := update s.ht s.fresh 0
        lay := update s.lay s.fresh (s.lay n)
        lock := update s.lock s.fresh (some i)
        sub := update (update s.sub n (fun r => s.sub n r ∧ f r = false)) s.fresh (fun r => s.sub n r ∧ f r = true)
        list := update s.list (s.lay n) L
        pc := update s.pc i (.link n s.fresh) }
  /-- `link_split` or `unlink` goes on. -/
  | move {s : State} (n : Nat) (L : Leaflink.State) (hp : s.pc i = .unl n ∨ ∃ c, s.pc i = .link n c)
      (hL : Moves (key (s.lay n)) (s.lid n) (s.list (s.lay n)) L) :
      Step key i s { s with list := update s.list (s.lay n) L }
  /-- `link_split` returns. -/
  | linked {s : State} (n c : Nat) (hp : s.pc i = .link n c) (ho : (s.list (s.lay n)).op (s.lid n) = .idle) :
      Step key i s { s with pc := update s.pc i (.par n c none 0) }
  /-- `locked_parent` reads the parent, /repo/masstree_struct.hh:557. -/
  | par {s : State} (p n c : Nat) (t : Option Nat) (h : Nat) (hp : s.pc i = .par n c t h) (hn : s.parent n = some p) :
      Step key i s { s with pc := update s.pc i (.wait p n c t h) }
  /-- The lock is taken, /repo/masstree_struct.hh:561. -/
  | wait {s : State} (p n c : Nat) (t : Option Nat) (h : Nat) (hp : s.pc i = .wait p n c t h) (hl : s.lock p = none) :
      Step key i s { s with lock := update s.lock p (some i), pc := update s.pc i (.got p n c t h) }
  /-- It is still the parent, /repo/masstree_struct.hh:562. -/
  | got {s : State} (p n c : Nat) (t : Option Nat) (h : Nat) (hp : s.pc i = .got p n c t h) (hn : s.parent n = some p) :
      Step key i s { s with pc := update s.pc i (.mod p n c t h) }
  /-- It is no longer the parent, /repo/masstree_struct.hh:566. -/
  | miss {s : State} (p n c : Nat) (t : Option Nat) (h : Nat) (hp : s.pc i = .got p n c t h) (hn : s.parent n ≠ some p) :
      Step key i s { s with lock := update s.lock p none, pc := update s.pc i (.par n c t h) }
  /-- There is no parent: a new root, /repo/masstree_split.hh:218-230. -/
  | newRoot {s : State} (n c : Nat) (t : Option Nat) (h : Nat) (hp : s.pc i = .par n c t h) (hn : s.parent n = none) :
      Step key i s { s with
        fresh := s.fresh + 1
        ht := update s.ht s.fresh (h + 1)
        lay := update s.lay s.fresh (s.lay n)
        parent := update (update s.parent c (some s.fresh)) n (some s.fresh)
        kids := update s.kids s.fresh (fun q => q = n ∨ q = c)
        pc := update s.pc i (.fin none none n c t h) }
  /-- The parent is too high (a removal has collapsed the chain): a new node between `p` and `n`,
  /repo/masstree_split.hh:218-230. -/
  | between {s : State} (p n c : Nat) (t : Option Nat) (h : Nat) (hp : s.pc i = .mod p n c t h) (hh : h + 1 < s.ht p) :
      Step key i s { s with
        fresh := s.fresh + 1
        ht := update s.ht s.fresh (h + 1)
        lay := update s.lay s.fresh (s.lay n)
        parent := update (update (update s.parent c (some s.fresh)) s.fresh (some p)) n (some s.fresh)
        kids := update (update s.kids p (fun q => (s.kids p q ∧ q ≠ n) ∨ q = s.fresh)) s.fresh (fun q => q = n ∨ q = c)
        pc := update s.pc i (.fin (some p) none n c t h) }
  /-- The parent has room, /repo/masstree_split.hh:239-243. -/
  | insert {s : State} (p n c : Nat) (t : Option Nat) (h : Nat) (hp : s.pc i = .mod p n c t h) (hh : ¬ h + 1 < s.ht p) :
      Step key i s { s with
        parent := update s.parent c (some p)
        kids := update s.kids p (fun q => s.kids p q ∨ q = c)
        pc := update s.pc i (.fin (some p) none n c t h) }
  /-- The parent is split: its children and `c` are divided between it and a new node, which copies the locked version word,
  /repo/masstree_split.hh:233-243,144-175. -/
  | divide {s : State} (p n c : Nat) (t : Option Nat) (h : Nat) (D : Nat → Bool) (hp : s.pc i = .mod p n c t h)
      (hh : ¬ h + 1 < s.ht p) (hD : ∀ q, D q = true → s.kids p q ∨ q = c) :
      Step key i s { s with
        fresh := s.fresh + 1
        ht := update s.ht s.fresh (h + 1)
        lay := update s.lay s.fresh (s.lay n)
        lock := update s.lock s.fresh (some i)
        parent := fun q => if D q then some s.fresh else if q = c then some p else s.parent q
        kids := update (update s.kids p (fun q => (s.kids p q ∨ q = c) ∧ D q = false)) s.fresh (fun q => D q = true)
        pc := update s.pc i (.fin (some p) (some s.fresh) n c t h) }
  /-- The leaf the caller goes on with is the left one, /repo/masstree_split.hh:265-268,280-282. -/
  | keepLeft {s : State} (p x : Option Nat) (n c h : Nat) (hp : s.pc i = .fin p x n c none h) :
      Step key i s { s with lock := update s.lock c none, pc := update s.pc i (.rel p x n h) }
  /-- It is the right one, /repo/masstree_split.hh:269-273,277-279. -/
  | keepRight {s : State} (p x : Option Nat) (n c h : Nat) (hp : s.pc i = .fin p x n c none h) :
      Step key i s { s with lock := update s.lock n none, pc := update s.pc i (.rel p x c h) }
  /-- Above the leaves: `n->unlock()`. -/
  | fin {s : State} (p x : Option Nat) (n c t h : Nat) (hp : s.pc i = .fin p x n c (some t) h) :
      Step key i s { s with lock := update s.lock n none, pc := update s.pc i (.fin' p x c t h) }
  /-- Above the leaves: `child->unlock()`. -/
  | fin' {s : State} (p x : Option Nat) (c t h : Nat) (hp : s.pc i = .fin' p x c t h) :
      Step key i s { s with lock := update s.lock c none, pc := update s.pc i (.rel p x t h) }
  /-- The parent was split: one level up, /repo/masstree_split.hh:283-287. -/
  | climb {s : State} (p x t h : Nat) (hp : s.pc i = .rel (some p) (some x) t h) :
      Step key i s { s with pc := update s.pc i (.par p x (some t) (h + 1)) }
  /-- The split is done, /repo/masstree_split.hh:288-293. -/
  | done {s : State} (p : Option Nat) (t h : Nat) (hp : s.pc i = .rel p none t h) :
      Step key i s { s with lock := LockOrder.unlock s.lock p, pc := update s.pc i (.hold t) }
  /-- `remove_leaf` begins with a leaf that has no entries, so no layer pointers, /repo/masstree_remove.hh:169-174,182-209. -/
  | remove {s : State} (n : Nat) (L : Leaflink.State) (hp : s.pc i = .hold n) (hs : ∀ r, ¬ s.sub n r)
      (hL : Starts (key (s.lay n)) (s.lid n) .u1 (s.list (s.lay n)) L) :
      Step key i s { s with limbo := n :: s.limbo, list := update s.list (s.lay n) L, pc := update s.pc i (.unl n) }
  /-- `unlink` returns. -/
  | unlinked {s : State} (n : Nat) (hp : s.pc i = .unl n) (ho : (s.list (s.lay n)).op (s.lid n) = .idle) :
      Step key i s { s with pc := update s.pc i (.rpar n none) }
  /-- `locked_parent` in /repo/masstree_remove.hh:218. -/
  | rpar {s : State} (p n : Nat) (r : Option Nat) (hp : s.pc i = .rpar n r) (hn : s.parent n = some p) :
      Step key i s { s with pc := update s.pc i (.rwait p n r) }
  | rnull {s : State} (n : Nat) (r : Option Nat) (hp : s.pc i = .rpar n r) (hn : s.parent n = none) :
      Step key i s { s with lock := update s.lock n none, pc := update s.pc i .idle }
  | rwait {s : State} (p n : Nat) (r : Option Nat) (hp : s.pc i = .rwait p n r) (hl : s.lock p = none) :
      Step key i s { s with lock := update s.lock p (some i), pc := update s.pc i (.rgot p n r) }
  | rgot {s : State} (p n : Nat) (r : Option Nat) (hp : s.pc i = .rgot p n r) (hn : s.parent n = some p) :
      Step key i s { s with pc := update s.pc i (.rmod p n r) }
  | rmiss {s : State} (p n : Nat) (r : Option Nat) (hp : s.pc i = .rgot p n r) (hn : s.parent n ≠ some p) :
      Step key i s { s with lock := update s.lock p none, pc := update s.pc i (.rpar n r) }
  /-- The node is taken out or replaced by its only child, /repo/masstree_remove.hh:219-233; then perhaps `redirect`,
  line 236. -/
  | takeOut {s : State} (p n : Nat) (r : Option Nat) (b : Bool) (hp : s.pc i = .rmod p n r) :
      Step key i s { s with
        parent := setParent s.parent r p
        kids := update (update s.kids p (fun q => (s.kids p q ∧ q ≠ n) ∨ r = some q)) n (fun _ => False)
        dead := update s.dead n True
        pc := update s.pc i (if b then .dpar p p n else .rend p n) }
  /-- `redirect`: `locked_parent` in /repo/masstree_remove.hh:263. -/
  | dpar {s : State} (u q p n : Nat) (hp : s.pc i = .dpar q p n) (hn : s.parent q = some u) :
      Step key i s { s with pc := update s.pc i (.dwait u q p n) }
  | dnull {s : State} (q p n : Nat) (hp : s.pc i = .dpar q p n) (hn : s.parent q = none) :
      Step key i s { s with
        lock := if q = p then s.lock else update s.lock q none
        pc := update s.pc i (.rend p n) }
  | dwait {s : State} (u q p n : Nat) (hp : s.pc i = .dwait u q p n) (hl : s.lock u = none) :
      Step key i s { s with lock := update s.lock u (some i), pc := update s.pc i (.dgot u q p n) }
  | dgot {s : State} (u q p n : Nat) (hp : s.pc i = .dgot u q p n) (hn : s.parent q = some u) :
      Step key i s { s with pc := update s.pc i (.dmod u q p n) }
  | dmiss {s : State} (u q p n : Nat) (hp : s.pc i = .dgot u q p n) (hn : s.parent q ≠ some u) :
      Step key i s { s with lock := update s.lock u none, pc := update s.pc i (.dpar q p n) }
  /-- From the second round on the lower node is unlocked, /repo/masstree_remove.hh:264-273. -/
  | dmod {s : State} (u q p n : Nat) (hp : s.pc i = .dmod u q p n) :
      Step key i s { s with
        lock := if q = p then s.lock else update s.lock q none
        pc := update s.pc i (.dtop u p n) }
  /-- /repo/masstree_remove.hh:274 -/
  | dmore {s : State} (u p n : Nat) (hp : s.pc i = .dtop u p n) :
      Step key i s { s with pc := update s.pc i (.dpar u p n) }
  /-- /repo/masstree_remove.hh:275 -/
  | ddone {s : State} (u p n : Nat) (hp : s.pc i = .dtop u p n) :
      Step key i s { s with lock := update s.lock u none, pc := update s.pc i (.rend p n) }
  /-- /repo/masstree_remove.hh:240-241 -/
  | rend {s : State} (p n : Nat) (hp : s.pc i = .rend p n) :
      Step key i s { s with lock := update s.lock n none, pc := update s.pc i (.rnext p) }
  /-- The node has keys or is the root, /repo/masstree_remove.hh:243-245,253. -/
  | rstop {s : State} (p : Nat) (hp : s.pc i = .rnext p) :
      Step key i s { s with lock := update s.lock p none, pc := update s.pc i .idle }
  /-- It has no keys and is not the root: it goes too, /repo/masstree_remove.hh:243-250. -/
  | rmore {s : State} (p : Nat) (r : Option Nat) (hp : s.pc i = .rnext p) (hq : s.parent p ≠ none)
      (hr : ∀ m, s.kids p m ↔ r = some m) :
      Step key i s { s with limbo := p :: s.limbo, pc := update s.pc i (.rpar p r) }
  /-- `gc_layer` reads a layer pointer, /repo/masstree_remove.hh:54. -/
  | gc {s : State} (n r : Nat) (hp : s.pc i = .hold n) (hr : s.sub n r) :
      Step key i s { s with pc := update s.pc i (.gc n r) }
  /-- The pointer is brought up to date, /repo/masstree_remove.hh:55-58. -/
  | gparent {s : State} (n r r' : Nat) (hp : s.pc i = .gc n r) (hr : s.parent r = some r') :
      Step key i s { s with
        sub := update s.sub n (fun x => (s.sub n x ∧ x ≠ r) ∨ x = r')
        pc := update s.pc i (.gc n r') }
  /-- The layer is not empty, /repo/masstree_remove.hh:66,91. -/
  | gleave {s : State} (n r : Nat) (hp : s.pc i = .gc n r) : Step key i s { s with pc := update s.pc i (.hold n) }
  /-- The lock of the layer's root is asked for, /repo/masstree_remove.hh:68,93. -/
  | gask {s : State} (n r : Nat) (hp : s.pc i = .gc n r) : Step key i s { s with pc := update s.pc i (.gwait n r) }
  | gwait {s : State} (n r : Nat) (hp : s.pc i = .gwait n r) (hl : s.lock r = none) :
      Step key i s { s with lock := update s.lock r (some i), pc := update s.pc i (.ggot n r) }
  /-- `unlock_layer`, /repo/masstree_remove.hh:112-114. -/
  | gback {s : State} (n r : Nat) (hp : s.pc i = .ggot n r) :
      Step key i s { s with lock := update s.lock r none, pc := update s.pc i (.hold n) }
  /-- `try_lock` fails, /repo/masstree_remove.hh:74-77. -/
  | gbusy {s : State} (n r c : Nat) (hp : s.pc i = .ggot n r) (hc : s.kids r c) (hl : s.lock c ≠ none) :
      Step key i s { s with lock := update s.lock r none, pc := update s.pc i (.gc n r) }
  /-- `try_lock` of the only child of the root succeeds. -/
  | gtry {s : State} (n r c : Nat) (hp : s.pc i = .ggot n r) (hr : s.parent r = none) (hc : ∀ m, s.kids r m ↔ m = c)
      (hl : s.lock c = none) :
      Step key i s { s with lock := update s.lock c (some i), pc := update s.pc i (.gch n r c) }
  /-- The child becomes the root, /repo/masstree_remove.hh:78-80. -/
  | gchild {s : State} (n r c : Nat) (hp : s.pc i = .gch n r c) :
      Step key i s { s with
        parent := update s.parent c none
        kids := update s.kids r (fun _ => False)
        sub := update s.sub n (fun x => (s.sub n x ∧ x ≠ r) ∨ x = c)
        lock := update s.lock c none
        pc := update s.pc i (.gup n r c) }
  /-- The old root points down to the new one, /repo/masstree_remove.hh:81-85. -/
  | gup {s : State} (n r c : Nat) (hp : s.pc i = .gup n r c) :
      Step key i s { s with
        parent := update s.parent r (some c)
        dead := update s.dead r True
        limbo := r :: s.limbo
        lock := update s.lock r none
        pc := update s.pc i (.gc n c) }
  /-- The layer is one empty leaf: it goes, /repo/masstree_remove.hh:94-109. -/
  | gkill {s : State} (n r : Nat) (hp : s.pc i = .ggot n r) (hh : s.ht r = 0) (hr : s.parent r = none)
      (hs : ∀ x, ¬ s.sub r x) :
      Step key i s { s with
        sub := update s.sub n (fun x => s.sub n x ∧ x ≠ r)
        dead := update s.dead r True
        limbo := r :: s.limbo
        lock := update s.lock r none
        pc := update s.pc i (.hold n) }

inductive Reachable (key : Nat → Nat → Nat) : State → Prop where
  | init : Reachable key State.init
  | step {s s' : State} {i : Nat} (h : Reachable key s) (h' : Step key i s s') : Reachable key s'

/-- The nodes whose locks a thread holds at a point of its program. -/
def PC.held : PC → List Nat
  | .idle => []
  | .want _ => []
  | .look n => [n]
  | .hold n => [n]
  | .twig n c => [n, c]
  | .link n c => [n, c]
  | .par n c t _ => n :: c :: t.toList
  | .wait _ n c t _ => n :: c :: t.toList
  | .got p n c t _ => p :: n :: c :: t.toList
  | .mod p n c t _ => p :: n :: c :: t.toList
  | .fin p x n c t _ => n :: c :: (t.toList ++ p.toList ++ x.toList)
  | .fin' p x c t _ => c :: t :: (p.toList ++ x.toList)
  | .rel p x t _ => t :: (p.toList ++ x.toList)
  | .unl n => [n]
  | .rpar n _ => [n]
  | .rwait _ n _ => [n]
  | .rgot p n _ => [p, n]
  | .rmod p n _ => [p, n]
  | .dpar q p n => [q, p, n]
  | .dwait _ q p n => [q, p, n]
  | .dgot u q p n => [u, q, p, n]
  | .dmod u q p n => [u, q, p, n]
  | .dtop u p n => [u, p, n]
  | .rend p n => [p, n]
  | .rnext p => [p]
  | .gc n _ => [n]
  | .gwait n _ => [n]
  | .ggot n r => [n, r]
  | .gch n r c => [n, r, c]
  | .gup n r _ => [n, r]

/-- The node whose lock a thread spins for. -/
def PC.awaits : PC → Option Nat
  | .want n => some n
  | .wait p _ _ _ _ => some p
  | .rwait p _ _ => some p
  | .dwait u _ _ _ => some u
  | .gwait _ r => some r
  | _ => none

end Verif.LockOrder
