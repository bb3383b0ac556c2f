import Mathlib.Logic.Function.Basic

/-!
# One layer of the tree under concurrent lookups, inserts, splits and removals

The layer of `Verif.Blink` with removals: a leaf that becomes empty is marked deleted, unlinked from the leaf list and taken
out of its parent, internodes without children or with only one are taken out as well, and the keys above are rewritten
(`remove_leaf` and `redirect`, /repo/masstree_remove.hh:178-276).

Simplifications, besides those of `Verif.Blink` (except that nothing is removed there):
* Layers are not collected (`gc_layer`), so the nodes of a layer are removed only by `remove_leaf`.
* Memory is not reused: whoever reaches a deleted node reads it as it was left (that readers finish before is C13).
* The version counters do not wrap; `deleted` is a bit of its own.
* The previous leaf is the one that links to the leaf; unlinking is one step (C12).  `prev_` is null for the leaf whose smallest
  possible key is 0.
* A key of an internode is rewritten in one step, without a mark, as in the code; a reader that uses the key before or after
  sees the contents at one instant.
* The height of internodes is left out: whenever a split node is put into its parent, it may also be put into a new internode
  below the parent (`wedge`, /repo/masstree_split.hh:218-230, where the height decides).
* The search for a child, `bound_type::upper`, is a parameter `up`, because keys of an internode may become unsorted (C46).
* An empty leaf need not be removed.
-/
namespace Verif.Prune

/-- Larger than all key slices. -/
def top : Nat := 2 ^ 64

attribute [irreducible] top

/-- Where a thread is. -/
inductive PC (G : Type) where
  | idle
  /-- `reach_leaf` at line 648 of /repo/masstree_struct.hh, looking for the root. -/
  | up (n : Nat)
  /-- Has the stable version `(vi, vs)` of `n`. -/
  | at_ (n vi vs : Nat)
  /-- Has read the child pointer `c` of `n`, which is not null. -/
  | pick (n vi vs c : Nat)
  /-- Has the stable version of the child as well. -/
  | picked (n vi vs c ci cs : Nat)
  /-- Found that `n` has split and compares with its last key. -/
  | cmp (n vi vs : Nat)
  /-- `advance_to_key`, line 704. -/
  | adv (n vi vs : Nat)
  /-- `advance_to_key`, line 708. -/
  | go (n : Nat)
  /-- Has read the group `r` of its key in leaf `n`, which was not deleted. -/
  | read (n vi vs : Nat) (r : Option G)
  /-- Lookup returned `r`. -/
  | done (r : Option G)
  /-- Has locked leaf `n` and may change it. -/
  | hold (n : Nat)
  /-- Has changed it, is about to unlock or to remove it. -/
  | pub (n : Nat)
  /-- The loop of `make_split`: `n` has split off `c` at key `x`, and `c` must be put into the parent.  `t` is the leaf for
  the new key, which is locked, once it is known, that is, if `n` and `c` are internodes. -/
  | par (n c x : Nat) (t : Option Nat)
  /-- Has locked `p` to see whether it is the parent. -/
  | got (p n c x : Nat) (t : Option Nat)
  /-- It is, and is marked. -/
  | mod (p n c x : Nat) (t : Option Nat)
  /-- Has put `c` into the parent; `nx` is the new internode, if the parent was split, with its key. -/
  | fin (p : Option Nat) (nx : Option (Nat × Nat)) (n c x : Nat) (t : Option Nat)
  /-- Has marked the leaf `n` and must strip it. -/
  | cut (p : Option Nat) (nx : Option (Nat × Nat)) (n c x : Nat)
  /-- Must unlock `q`. -/
  | rel (p : Option Nat) (nx : Option (Nat × Nat)) (q t : Nat)
  /-- Must unlock `p`. -/
  | unl (p t : Nat)
  /-- `remove_leaf`: has marked the leaf `n` deleted and must unlink it. -/
  | ulk (n : Nat)
  /-- The loop of `remove_leaf`: `n` is deleted and must be taken out of its parent, in favour of `r` if there is a
  replacement; `ik` is `ikey`. -/
  | rpar (n : Nat) (r : Option Nat) (ik : Nat)
  /-- Has locked `p` to see whether it is the parent. -/
  | rgot (p n : Nat) (r : Option Nat) (ik : Nat)
  /-- It is, and is marked. -/
  | rmod (p n : Nat) (r : Option Nat) (ik : Nat)
  /-- `redirect`, called for `p`, with replacement key `y`: looks for the parent of `q`. -/
  | dpar (q p n ik y : Nat)
  /-- Has locked `u` to see whether it is. -/
  | dgot (u q p n ik y : Nat)
  /-- It is; must rewrite its key. -/
  | dset (u q p n ik y : Nat)
  /-- Done; must unlock `u`. -/
  | dtop (u p n y : Nat)
  /-- Must unlock `n`. -/
  | rend (p n ik : Nat)
  /-- Must unlock `p`, or delete it if it has no keys. -/
  | rnext (p ik : Nat)

structure State (G : Type) where
  leaf : Nat → Bool
  lock : Nat → Option Nat
  /-- Version word: insert and split counters, the marks, the root bit and the deleted bit. -/
  ins : Nat → Nat
  spl : Nat → Nat
  dI : Nat → Bool
  dS : Nat → Bool
  rt : Nat → Bool
  dead : Nat → Bool
  parent : Nat → Option Nat
  next : Nat → Option Nat
  items : Nat → Nat → Option G
  keys : Nat → List Nat
  /-- Children; the first may be null. -/
  kids : Nat → List (Option Nat)
  /-- The smallest key a node may have; of a leaf other than the first, `ikey_bound()`: slot 0 is never given to another key
  (/repo/masstree_insert.hh:50-51). -/
  lo : Nat → Nat
  /-- Ghost: a leaf has been unlinked. -/
  gone : Nat → Bool
  /-- Ghost: who reaches a node with a version that is current is right to look for the keys below `hi` there. -/
  hi : Nat → Nat
  /-- Ghost: the parent knows the node to be responsible for the keys below `bd`. -/
  bd : Nat → Nat
  /-- Ghost: the smallest key for which a leaf below the node is responsible that is still linked. -/
  elo : Nat → Nat
  /-- Nodes from `fresh` on are not allocated. -/
  fresh : Nat
  /-- `root_`. -/
  root : Nat
  /-- Ghost: the map that the layer represents. -/
  m : Nat → Option G
  pc : Nat → PC G
  /-- Key slice, root pointer and update (`none` for a lookup) of each thread.  An update that gives `none` removes. -/
  key : Nat → Nat
  base : Nat → Nat
  fn : Nat → Option (Option G → Option G)

variable {G : Type}

/-- The version has no mark: what `stable` waits for, /repo/nodeversion.hh:36-58. -/
def State.clean (s : State G) (n : Nat) : Prop := s.dI n = false ∧ s.dS n = false

/-- The node is clean and its version is the remembered one: `!has_changed`, /repo/nodeversion.hh:72-75. -/
def State.same (s : State G) (n vi vs : Nat) : Prop := s.clean n ∧ s.ins n = vi ∧ s.spl n = vs

/-- `unlock`, /repo/nodeversion.hh:132-141. -/
def State.unlock (s : State G) (n : Nat) : State G :=
  { s with
    lock := Function.update s.lock n none
    ins := Function.update s.ins n (if s.dI n = true ∧ s.dS n = false then s.ins n + 1 else s.ins n)
    spl := Function.update s.spl n (if s.dS n = true then s.spl n + 1 else s.spl n)
    rt := Function.update s.rt n (s.rt n && !s.dS n)
    dI := Function.update s.dI n false
    dS := Function.update s.dS n false }

/-- The end of the loop of `make_split`, /repo/masstree_split.hh:283-293. -/
def PC.loop (p : Option Nat) (nx : Option (Nat × Nat)) (t : Nat) : PC G :=
  match p, nx with
  | some p, some (c, x) => .par p c x (some t)
  | some p, none => .unl p t
  | none, _ => .hold t

/-- What a reader saw of a leaf or internode: nothing is known if the version is not the remembered one. -/
def Seen (s : State G) (n vi vs : Nat) (P : Prop) : Prop := s.same n vi vs → P

/-- Allocate a leaf for the keys of leaf `n` from `x` on, and link it: /repo/masstree_split.hh:197-201 and 99-117. -/
def State.splitLeaf (s : State G) (i n x : Nat) : State G :=
  let c := s.fresh
  { s with
    leaf := Function.update s.leaf c true
    lock := Function.update s.lock c (some i)
    ins := Function.update s.ins c (s.ins n)
    spl := Function.update s.spl c (s.spl n)
    dI := Function.update s.dI c (s.dI n)
    dS := Function.update s.dS c (s.dS n)
    rt := Function.update s.rt c (s.rt n)
    dead := Function.update s.dead c false
    parent := Function.update s.parent c none
    next := Function.update (Function.update s.next c (s.next n)) n (some c)
    items := Function.update s.items c (fun k => if x ≤ k then s.items n k else none)
    lo := Function.update s.lo c x
    gone := Function.update s.gone c false
    hi := Function.update s.hi c (s.hi n)
    bd := Function.update s.bd c (s.bd n)
    elo := Function.update s.elo c x
    fresh := c + 1 }

/-- Make a new root with the children `n` and `c`: /repo/masstree_split.hh:219-230. -/
def State.newRoot (s : State G) (n c x : Nat) : State G :=
  let r := s.fresh
  { s with
    leaf := Function.update s.leaf r false
    lock := Function.update s.lock r none
    ins := Function.update s.ins r 0
    spl := Function.update s.spl r 0
    dI := Function.update s.dI r false
    dS := Function.update s.dS r false
    rt := Function.update s.rt r true
    dead := Function.update s.dead r false
    parent := Function.update (Function.update (Function.update s.parent r none) c (some r)) n (some r)
    keys := Function.update s.keys r [x]
    kids := Function.update s.kids r [some n, some c]
    lo := Function.update s.lo r (s.lo n)
    gone := Function.update s.gone r false
    hi := Function.update s.hi r (s.bd n)
    bd := Function.update (Function.update s.bd r (s.bd n)) n (s.elo c)
    elo := Function.update s.elo r (s.elo n)
    fresh := r + 1 }

section
variable (up : List Nat → Nat → Nat)

/-- The child for key `k`, /repo/masstree_struct.hh:660-661. -/
def State.route (s : State G) (n k : Nat) : Option Nat := (s.kids n).getD (up (s.keys n) k) none

/-- The parent `p` does not have the height to take `c`, and the child that `n` is becomes an internode:
/repo/masstree_split.hh:218-230. -/
def State.wedge (s : State G) (p n c x : Nat) : State G :=
  let r := s.fresh
  { s with
    leaf := Function.update s.leaf r false
    lock := Function.update s.lock r none
    ins := Function.update s.ins r 0
    spl := Function.update s.spl r 0
    dI := Function.update s.dI r false
    dS := Function.update s.dS r false
    rt := Function.update s.rt r false
    dead := Function.update s.dead r false
    parent := Function.update (Function.update (Function.update s.parent r (some p)) c (some r)) n (some r)
    keys := Function.update s.keys r [x]
    kids := Function.update (Function.update s.kids p ((s.kids p).set (up (s.keys p) x) (some r))) r [some n, some c]
    lo := Function.update s.lo r (s.lo n)
    gone := Function.update s.gone r false
    hi := Function.update s.hi r (s.bd n)
    bd := Function.update (Function.update s.bd r (s.bd n)) n (s.elo c)
    elo := Function.update s.elo r (s.elo n)
    fresh := r + 1 }

/-- The keys and children of `p` with `c` added at key `x`. -/
def State.keysWith (s : State G) (p x : Nat) : List Nat := (s.keys p).insertIdx (up (s.keys p) x) x
def State.kidsWith (s : State G) (p c x : Nat) : List (Option Nat) := (s.kids p).insertIdx (up (s.keys p) x + 1) (some c)

/-- Put `c` into `p`, which has room: /repo/masstree_split.hh:239-244. -/
def State.insertKid (s : State G) (p n c x : Nat) : State G :=
  { s with
    parent := Function.update s.parent c (some p)
    keys := Function.update s.keys p (s.keysWith up p x)
    kids := Function.update s.kids p (s.kidsWith up p c x)
    bd := Function.update s.bd n (s.elo c) }

/-- Put `c` into `p`, which is full, and split it before the key number `mid`, `y`, and the child `d`:
/repo/masstree_split.hh:232-238, 124-175 and 239-244. -/
def State.splitKid (s : State G) (i p n c x mid y d : Nat) : State G :=
  let c2 := s.fresh
  { s with
    leaf := Function.update s.leaf c2 false
    lock := Function.update s.lock c2 (some i)
    ins := Function.update s.ins c2 (s.ins p)
    spl := Function.update s.spl c2 (s.spl p)
    dI := Function.update s.dI c2 (s.dI p)
    dS := Function.update (Function.update s.dS c2 (s.dS p)) p true
    rt := Function.update s.rt c2 false
    dead := Function.update s.dead c2 false
    parent := fun q => if some q ∈ (s.kidsWith up p c x).drop (mid + 1) then some c2 else if q = c then some p else
      if q = c2 then none else s.parent q
    keys := Function.update (Function.update s.keys c2 ((s.keysWith up p x).drop (mid + 1))) p ((s.keysWith up p x).take mid)
    kids := Function.update (Function.update s.kids c2 ((s.kidsWith up p c x).drop (mid + 1))) p
      ((s.kidsWith up p c x).take (mid + 1))
    lo := Function.update s.lo c2 y
    gone := Function.update s.gone c2 false
    hi := Function.update (Function.update s.hi c2 (s.hi p)) p (s.elo d)
    bd := Function.update (Function.update s.bd n (s.elo c)) c2 (s.bd p)
    elo := Function.update s.elo c2 (s.elo d)
    fresh := c2 + 1 }

/-- Unlink leaf `n`, whose previous leaf is `q`: /repo/btree_leaflink.hh:81-97.  Ghost: what was responsible for the keys below
`n` becomes responsible for those of `n`. -/
def State.unlink (s : State G) (q n : Nat) : State G :=
  let u := fun v => if s.lo n ≤ v ∧ v ≤ s.hi n then s.hi n else v
  { s with
    next := Function.update s.next q (s.next n)
    gone := Function.update s.gone n true
    hi := fun a => u (s.hi a)
    bd := fun a => u (s.bd a)
    elo := fun a => u (s.elo a) }

/-- Take `n` out of `p` in favour of `r`: /repo/masstree_remove.hh:222-233. -/
def State.removeKid (s : State G) (p : Nat) (r : Option Nat) (ik : Nat) : State G :=
  let kp := up (s.keys p) ik
  match r with
  | some c => { s with
      kids := Function.update s.kids p ((s.kids p).set kp (some c))
      parent := Function.update s.parent c (some p) }
  | none =>
    if kp = 0 then { s with kids := Function.update s.kids p ((s.kids p).set 0 none) }
    else { s with
      keys := Function.update s.keys p ((s.keys p).eraseIdx (kp - 1))
      kids := Function.update s.kids p ((s.kids p).eraseIdx kp) }

/-- What follows: whether the first key of `p` must be passed on, /repo/masstree_remove.hh:235-238. -/
def State.removed (s : State G) (p n kp ik : Nat) : PC G :=
  match s.keys p, s.kids p with
  | y :: _, none :: _ => if kp ≤ 1 then .dpar p p n ik y else .rend p n ik
  | _, _ => .rend p n ik

/-- `redirect` goes on above `u`: /repo/masstree_remove.hh:274. -/
def State.goesOn (s : State G) (u kp : Nat) : Prop := kp = 0 ∨ kp = 1 ∧ (s.kids u).head? = some none

instance (s : State G) (u kp : Nat) : Decidable (s.goesOn u kp) := inferInstanceAs (Decidable (_ ∨ _))

end

/-- `s.to i pc'`: the thread goes on. -/
def State.to (s : State G) (i : Nat) (x : PC G) : State G := { s with pc := Function.update s.pc i x }

inductive Step (up : List Nat → Nat → Nat) : State G → State G → Prop where
  /-- An operation begins with the root pointer, /repo/masstree_tcursor.hh:34-37 and 108-110. -/
  | start {s : State G} (i k : Nat) (f : Option (Option G → Option G)) (hk : k < top) (h : s.pc i = .idle) :
      Step up s (State.to { s with key := Function.update s.key i k, base := Function.update s.base i s.root,
                                   fn := Function.update s.fn i f } i (.up s.root))
  /-- `fix_root`, /repo/masstree_struct.hh:791-799. -/
  | fixRoot {s : State G} (p : Nat) (h : s.parent s.root = some p) (hr : s.rt s.root = false) : Step up s { s with root := p }
  /-- The root is found, /repo/masstree_struct.hh:648-651. -/
  | rooted {s : State G} (i n : Nat) (h : s.pc i = .up n) (hc : s.clean n) (hr : s.rt n = true) :
      Step up s (s.to i (.at_ n (s.ins n) (s.spl n)))
  /-- Not the root, /repo/masstree_struct.hh:653; `maybe_parent` stays if there is none. -/
  | climb {s : State G} (i n : Nat) (h : s.pc i = .up n) : Step up s (s.to i (.up ((s.parent n).getD n)))
  /-- Read the child pointer, /repo/masstree_struct.hh:660-661. -/
  | pick {s : State G} (i n vi vs c : Nat) (h : s.pc i = .at_ n vi vs) (hl : s.leaf n = false)
      (hc : Seen s n vi vs (s.route up n (s.key i) = some c)) : Step up s (s.to i (.pick n vi vs c))
  /-- Wait for the child, /repo/masstree_struct.hh:665. -/
  | child {s : State G} (i n vi vs c : Nat) (h : s.pc i = .pick n vi vs c) (hc : s.clean c) :
      Step up s (s.to i (.picked n vi vs c (s.ins c) (s.spl c)))
  /-- The parent has not changed, /repo/masstree_struct.hh:667-670. -/
  | descend {s : State G} (i n vi vs c ci cs : Nat) (h : s.pc i = .picked n vi vs c ci cs) (hs : s.same n vi vs) :
      Step up s (s.to i (.at_ c ci cs))
  /-- It has, but has not split, /repo/masstree_struct.hh:673-679. -/
  | again {s : State G} (i n vi vs c ci cs : Nat) (h : s.pc i = .picked n vi vs c ci cs) (hc : s.clean n)
      (hs : s.spl n = vs) : Step up s (s.to i (.at_ n (s.ins n) (s.spl n)))
  /-- It may have split. -/
  | compare {s : State G} (i n vi vs c ci cs : Nat) (h : s.pc i = .picked n vi vs c ci cs) (hc : s.clean n) :
      Step up s (s.to i (.cmp n (s.ins n) (s.spl n)))
  /-- The key is not larger than the last key of the internode, /repo/masstree_struct.hh:588-599. -/
  | inside {s : State G} (i n vi vs z : Nat) (h : s.pc i = .cmp n vi vs) (hl : s.leaf n = false) (hc : s.clean n)
      (hz : z ∈ s.keys n) (hk : s.key i ≤ z) : Step up s (s.to i (.at_ n vi vs))
  /-- `goto retry`, /repo/masstree_struct.hh:662-664 and 677, /repo/masstree_get.hh:33-34 and 81-82. -/
  | retry {s : State G} (i n vi vs c : Nat) (h : s.pc i = .at_ n vi vs ∨ s.pc i = .pick n vi vs c ∨ s.pc i = .cmp n vi vs) :
      Step up s (s.to i (.up (s.base i)))
  /-- Read the leaf, which is not deleted, /repo/masstree_get.hh:33-44. -/
  | look {s : State G} (i n vi vs : Nat) (r : Option G) (h : s.pc i = .at_ n vi vs) (hl : s.leaf n = true)
      (hd : s.spl n = vs → s.dS n = false → s.dead n = false)
      (hr : Seen s n vi vs (r = s.items n (s.key i))) : Step up s (s.to i (.read n vi vs r))
  /-- The leaf has not changed, /repo/masstree_get.hh:45 and 56. -/
  | found {s : State G} (i n vi vs : Nat) (r : Option G) (h : s.pc i = .read n vi vs r) (hf : s.fn i = none)
      (hs : s.same n vi vs) : Step up s (s.to i (.done r))
  /-- It has, but has not split, /repo/masstree_struct.hh:699-700. -/
  | stay {s : State G} (i n vi vs : Nat) (r : Option G) (h : s.pc i = .read n vi vs r) (hc : s.clean n)
      (hs : s.spl n = vs) : Step up s (s.to i (.at_ n (s.ins n) (s.spl n)))
  /-- It may have split. -/
  | compareLeaf {s : State G} (i n vi vs : Nat) (r : Option G) (h : s.pc i = .read n vi vs r) (hc : s.clean n) :
      Step up s (s.to i (.cmp n (s.ins n) (s.spl n)))
  /-- The key is not larger than the last key of the leaf, or than the key removed last from an empty leaf; nothing is known
  of a deleted leaf, /repo/masstree_struct.hh:603-626. -/
  | insideLeaf {s : State G} (i n vi vs z : Nat) (h : s.pc i = .cmp n vi vs) (hl : s.leaf n = true) (hc : s.clean n)
      (hz : s.items n z ≠ none ∨ s.lo n ≤ z ∧ z < s.hi n ∨ s.dead n = true) (hk : s.key i ≤ z) :
      Step up s (s.to i (.at_ n vi vs))
  /-- It is, and the leaves are walked, /repo/masstree_struct.hh:701-703. -/
  | walk {s : State G} (i n vi vs : Nat) (h : s.pc i = .cmp n vi vs) (hl : s.leaf n = true) :
      Step up s (s.to i (.adv n vi vs))
  /-- /repo/masstree_struct.hh:705-707. -/
  | forward {s : State G} (i n vi vs r : Nat) (h : s.pc i = .adv n vi vs) (hn : s.next n = some r) (hb : s.lo r ≤ s.key i) :
      Step up s (s.to i (.go r))
  /-- /repo/masstree_struct.hh:708. -/
  | arrive {s : State G} (i n : Nat) (h : s.pc i = .go n) (hc : s.clean n) : Step up s (s.to i (.adv n (s.ins n) (s.spl n)))
  /-- The walk ends, /repo/masstree_struct.hh:704-706 and 711; it also ends at a deleted leaf. -/
  | arrived {s : State G} (i n vi vs : Nat) (h : s.pc i = .adv n vi vs)
      (hn : s.dead n = true ∨ ∀ r, s.next n = some r → s.key i < s.lo r) : Step up s (s.to i (.at_ n vi vs))
  /-- The caller takes the result. -/
  | return {s : State G} (i : Nat) (r : Option G) (h : s.pc i = .done r) : Step up s (s.to i .idle)
  /-- Lock the leaf; it has not changed, /repo/masstree_get.hh:100-101 and 117. -/
  | acquire {s : State G} (i n vi vs : Nat) (r : Option G) (h : s.pc i = .read n vi vs r) (hf : s.fn i ≠ none)
      (hl : s.lock n = none) (hi : s.ins n = vi) (hs : s.spl n = vs) :
      Step up s (State.to { s with lock := Function.update s.lock n (some i) } i (.hold n))
  /-- `mark_insert`, /repo/masstree_insert.hh:43 and 112, /repo/masstree_remove.hh:163-166. -/
  | markLeaf {s : State G} (i n : Nat) (h : s.pc i = .hold n) : Step up s { s with dI := Function.update s.dI n true }
  /-- Publish the new entry or value, or the removal, /repo/masstree_insert.hh:129-136, /repo/masstree_remove.hh:168-170. -/
  | publish {s : State G} (i n : Nat) (f : Option G → Option G) (h : s.pc i = .hold n) (hf : s.fn i = some f) :
      Step up s (State.to
        { s with
          items := Function.update s.items n (Function.update (s.items n) (s.key i) (f (s.items n (s.key i))))
          m := Function.update s.m (s.key i) (f (s.m (s.key i))) } i (.pub n))
  /-- /repo/masstree_insert.hh:151. -/
  | release {s : State G} (i n : Nat) (h : s.pc i = .pub n) : Step up s ((s.unlock n).to i .idle)
  /-- Split the leaf at a key after the first, /repo/masstree_split.hh:197-201. -/
  | split {s : State G} (i n x : Nat) (h : s.pc i = .hold n) (hx : s.lo n < x) (hy : s.items n x ≠ none ∨ x = s.key i) :
      Step up s ((s.splitLeaf i n x).to i (.par n s.fresh x none))
  /-- There is no parent, /repo/masstree_split.hh:210 and 218-230. -/
  | newRoot {s : State G} (i n c x : Nat) (t : Option Nat) (h : s.pc i = .par n c x t) (hp : s.parent n = none) :
      Step up s ((s.newRoot n c x).to i (.fin none none n c x t))
  /-- `locked_parent`, /repo/masstree_struct.hh:557-561. -/
  | lockParent {s : State G} (i n c x p : Nat) (t : Option Nat) (h : s.pc i = .par n c x t) (hp : s.parent n = some p)
      (hl : s.lock p = none) :
      Step up s (State.to { s with lock := Function.update s.lock p (some i) } i (.got p n c x t))
  /-- /repo/masstree_struct.hh:562-565 and /repo/masstree_split.hh:213-215. -/
  | isParent {s : State G} (i p n c x : Nat) (t : Option Nat) (h : s.pc i = .got p n c x t) (hp : s.parent n = some p) :
      Step up s (State.to { s with dI := Function.update s.dI p true } i (.mod p n c x t))
  /-- /repo/masstree_struct.hh:566. -/
  | notParent {s : State G} (i p n c x : Nat) (t : Option Nat) (h : s.pc i = .got p n c x t) (hp : s.parent n ≠ some p) :
      Step up s ((s.unlock p).to i (.par n c x t))
  /-- /repo/masstree_split.hh:218-230. -/
  | wedge {s : State G} (i p n c x : Nat) (t : Option Nat) (h : s.pc i = .mod p n c x t) :
      Step up s ((s.wedge up p n c x).to i (.fin (some p) none n c x t))
  /-- /repo/masstree_split.hh:239-244. -/
  | insertKid {s : State G} (i p n c x : Nat) (t : Option Nat) (h : s.pc i = .mod p n c x t) :
      Step up s ((s.insertKid up p n c x).to i (.fin (some p) none n c x t))
  /-- /repo/masstree_split.hh:232-244; the middle is not the first key, /repo/masstree_split.hh:144. -/
  | splitKid {s : State G} (i p n c x mid y d : Nat) (t : Option Nat) (h : s.pc i = .mod p n c x t) (hm : 0 < mid)
      (hy : (s.keysWith up p x)[mid]? = some y) (hd : (s.kidsWith up p c x)[mid + 1]? = some (some d)) :
      Step up s ((s.splitKid up i p n c x mid y d).to i (.fin (some p) (some (s.fresh, y)) n c x t))
  /-- /repo/masstree_split.hh:262. -/
  | markSplit {s : State G} (i n c x : Nat) (p : Option Nat) (nx : Option (Nat × Nat)) (h : s.pc i = .fin p nx n c x none) :
      Step up s (State.to { s with dS := Function.update s.dS n true } i (.cut p nx n c x))
  /-- Strip the leaf; the new key goes left or right, /repo/masstree_split.hh:263-282. -/
  | strip {s : State G} (i n c x : Nat) (p : Option Nat) (nx : Option (Nat × Nat)) (h : s.pc i = .cut p nx n c x) :
      Step up s (State.to
        { s with
          items := Function.update s.items n (fun k => if k < x then s.items n k else none)
          hi := Function.update s.hi n x } i
        (if s.key i < x then .rel p nx c n else .rel p nx n c))
  /-- Unlock the left internode, /repo/masstree_split.hh:277-279. -/
  | unlockLeft {s : State G} (i n c x t : Nat) (p : Option Nat) (nx : Option (Nat × Nat))
      (h : s.pc i = .fin p nx n c x (some t)) : Step up s ((s.unlock n).to i (.rel p nx c t))
  /-- Unlock the other node, /repo/masstree_split.hh:277-287. -/
  | unlockRight {s : State G} (i q t : Nat) (p : Option Nat) (nx : Option (Nat × Nat)) (h : s.pc i = .rel p nx q t) :
      Step up s ((s.unlock q).to i (.loop p nx t))
  /-- /repo/masstree_split.hh:289. -/
  | unlockParent {s : State G} (i p t : Nat) (h : s.pc i = .unl p t) : Step up s ((s.unlock p).to i (.hold t))
  /-- The leaf is empty and not the first, /repo/masstree_remove.hh:171-174, 182-187 and 190. -/
  | kill {s : State G} (i n : Nat) (h : s.pc i = .pub n) (he : ∀ k, s.items n k = none) (hl : s.lo n ≠ 0) :
      Step up s (State.to { s with dead := Function.update s.dead n true, dS := Function.update s.dS n true } i (.ulk n))
  /-- /repo/masstree_remove.hh:209-215. -/
  | unlink {s : State G} (i n q : Nat) (h : s.pc i = .ulk n) (hq : q < s.fresh) (hl : s.leaf q = true)
      (hg : s.gone q = false) (hn : s.next q = some n) : Step up s ((s.unlink q n).to i (.rpar n none (s.lo n)))
  /-- `locked_parent`, /repo/masstree_remove.hh:218 and /repo/masstree_struct.hh:557-561. -/
  | lockParentR {s : State G} (i n p ik : Nat) (r : Option Nat) (h : s.pc i = .rpar n r ik) (hp : s.parent n = some p)
      (hl : s.lock p = none) :
      Step up s (State.to { s with lock := Function.update s.lock p (some i) } i (.rgot p n r ik))
  /-- /repo/masstree_struct.hh:562-565 and /repo/masstree_remove.hh:219. -/
  | isParentR {s : State G} (i p n ik : Nat) (r : Option Nat) (h : s.pc i = .rgot p n r ik) (hp : s.parent n = some p) :
      Step up s (State.to { s with dI := Function.update s.dI p true } i (.rmod p n r ik))
  /-- /repo/masstree_struct.hh:566. -/
  | notParentR {s : State G} (i p n ik : Nat) (r : Option Nat) (h : s.pc i = .rgot p n r ik) (hp : s.parent n ≠ some p) :
      Step up s ((s.unlock p).to i (.rpar n r ik))
  /-- Take the node out, without checking that it is the child found, /repo/masstree_remove.hh:222-238. -/
  | removeKid {s : State G} (i p n ik : Nat) (r : Option Nat) (h : s.pc i = .rmod p n r ik) :
      Step up s ((s.removeKid up p r ik).to i ((s.removeKid up p r ik).removed p n (up (s.keys p) ik) ik))
  /-- `locked_parent`, /repo/masstree_remove.hh:263 and /repo/masstree_struct.hh:557-561. -/
  | lockParentD {s : State G} (i q p n ik y u : Nat) (h : s.pc i = .dpar q p n ik y) (hp : s.parent q = some u)
      (hl : s.lock u = none) :
      Step up s (State.to { s with lock := Function.update s.lock u (some i) } i (.dgot u q p n ik y))
  /-- It is the parent, and `q` is unlocked except the first time, /repo/masstree_struct.hh:562-565 and
  /repo/masstree_remove.hh:264-266. -/
  | isParentD {s : State G} (i q p n ik y u : Nat) (h : s.pc i = .dgot u q p n ik y) (hp : s.parent q = some u) :
      Step up s ((if q = p then s else s.unlock q).to i (.dset u q p n ik y))
  /-- /repo/masstree_struct.hh:566. -/
  | notParentD {s : State G} (i q p n ik y u : Nat) (h : s.pc i = .dgot u q p n ik y) (hp : s.parent q ≠ some u) :
      Step up s ((s.unlock u).to i (.dpar q p n ik y))
  /-- Rewrite the key, which is not marked, /repo/masstree_remove.hh:267-274. -/
  | rewrite {s : State G} (i q p n ik y u : Nat) (h : s.pc i = .dset u q p n ik y) :
      Step up s (State.to
        { s with
          keys := Function.update s.keys u
            (if up (s.keys u) ik = 0 then s.keys u else (s.keys u).set (up (s.keys u) ik - 1) y) } i
        (if s.goesOn u (up (s.keys u) ik) then .dpar u p n ik y else .dtop u p n y))
  /-- /repo/masstree_remove.hh:275. -/
  | unlockTop {s : State G} (i u p n y : Nat) (h : s.pc i = .dtop u p n y) : Step up s ((s.unlock u).to i (.rend p n y))
  /-- /repo/masstree_remove.hh:240-241. -/
  | unlockDead {s : State G} (i p n ik : Nat) (h : s.pc i = .rend p n ik) : Step up s ((s.unlock n).to i (.rnext p ik))
  /-- /repo/masstree_remove.hh:243-245 and 253. -/
  | finish {s : State G} (i p ik : Nat) (h : s.pc i = .rnext p ik) (hk : s.keys p ≠ [] ∨ s.rt p = true) :
      Step up s ((s.unlock p).to i .idle)
  /-- /repo/masstree_remove.hh:247-250. -/
  | killNode {s : State G} (i p ik : Nat) (h : s.pc i = .rnext p ik) (hk : s.keys p = []) (hr : s.rt p = false) :
      Step up s (State.to
        { s with
          dead := Function.update s.dead p true
          dS := Function.update s.dS p true
          kids := Function.update s.kids p [none] } i (.rpar p ((s.kids p).headD none) ik))

/-- A root leaf with any contents, and no operations. -/
structure Init (s : State G) : Prop where
  fresh : s.fresh = 1
  root : s.root = 0
  leaf : s.leaf 0 = true
  lock : ∀ n, s.lock n = none
  clean : ∀ n, s.clean n
  rt : s.rt 0 = true
  dead : s.dead 0 = false ∧ s.gone 0 = false
  parent : s.parent 0 = none
  next : s.next 0 = none
  lo : s.lo 0 = 0
  hi : s.hi 0 = top ∧ s.bd 0 = top ∧ s.elo 0 = 0
  items : s.items 0 = s.m
  small : ∀ k, s.m k ≠ none → k < top
  pc : ∀ i, s.pc i = .idle

end Verif.Prune
