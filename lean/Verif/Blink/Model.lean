import Mathlib.Logic.Function.Basic

/-!
# One layer of the tree under concurrent lookups, inserts, removals of entries and splits

Any number of threads look up keys without locks (`reach_leaf`, `find_unlocked`) or insert, replace and remove entries under
locks (`find_locked`, `find_insert`, `make_split`, `finish_remove`), one step per shared access.

Simplifications:
* Keys are the 8-byte key slices of the layer, numbers below `top`; a leaf maps a slice to the group of its entries (of the
  ten possible lengths, C07), of abstract type `G`.
* Entries are removed, but not leaves: a leaf that becomes empty stays (no `mark_deleted`, and internode heights fit, so the
  case `p->height_ > height + 1` of /repo/masstree_split.hh:218 does not arise).
* The version word is two counters that do not wrap and two marks (C10 and C09 relate it to the 32-bit word).
* A reader that reads the fields of a node one by one may see anything if the version changes meanwhile; if it does not,
  it sees the contents at one instant (C09).  So such reads are single steps whose result is arbitrary if the version is not
  the remembered one.
* The leaf list appears with its forward links; linking a new leaf is one step (C12).
* An internode changes while it is marked, in one step.
* Every insert that begins is finished (no `finish(0)`), and a leaf that has changed before it was locked is not locked
  (/repo/masstree_get.hh:101-105 locks it, marks nothing and unlocks it).
* Memory is sequentially consistent.
-/
namespace Verif.Blink

/-- Larger than all key slices. -/
def top : Nat := 2 ^ 64

attribute [irreducible] top

/-- Number of keys up to `k`: `bound_type::upper`, C06. -/
def upper (keys : List Nat) (k : Nat) : Nat := keys.countP (· ≤ k)

/-- Where a thread is. -/
inductive PC (G : Type) where
  | idle
  /-- `reach_leaf` at line 648 of /repo/masstree_struct.hh, looking for the root. -/
  | up (n : Nat)
  /-- Has the stable version `(vi, vs)` of `n`. -/
  | at_ (n vi vs : Nat)
  /-- Has read the child pointer `c` of `n`. -/
  | pick (n vi vs c : Nat)
  /-- Has the stable version of the child as well. -/
  | picked (n vi vs c ci cs : Nat)
  /-- Found that `n` has split and compares with its last key. -/
  | cmp (n vi vs : Nat)
  /-- `advance_to_key`, line 704. -/
  | adv (n vi vs : Nat)
  /-- `advance_to_key`, line 708. -/
  | go (n : Nat)
  /-- Has read the group `r` of its key in leaf `n`. -/
  | read (n vi vs : Nat) (r : Option G)
  /-- Lookup returned `r`. -/
  | done (r : Option G)
  /-- Has locked leaf `n` and may insert there. -/
  | hold (n : Nat)
  /-- Has inserted, is about to unlock. -/
  | pub (n : Nat)
  /-- The loop of `make_split`: `n` has split off `c` at key `x`, and `c` must be put into the parent.  `t` is the leaf for
  the new key, which is locked, once it is known, that is, if `n` and `c` are internodes. -/
  | par (n c x : Nat) (t : Option Nat)
  /-- Has locked `p` to see whether it is the parent. -/
  | got (p n c x : Nat) (t : Option Nat)
  /-- It is. -/
  | mrk (p n c x : Nat) (t : Option Nat)
  /-- Has marked it. -/
  | mod (p n c x : Nat) (t : Option Nat)
  /-- Has put `c` into the parent; `nx` is the new internode, if the parent was split, with its key. -/
  | fin (p : Option Nat) (nx : Option (Nat × Nat)) (n c x : Nat) (t : Option Nat)
  /-- Has marked the leaf `n` and must strip it. -/
  | cut (p : Option Nat) (nx : Option (Nat × Nat)) (n c x : Nat)
  /-- Must unlock `q`. -/
  | rel (p : Option Nat) (nx : Option (Nat × Nat)) (q t : Nat)
  /-- Must unlock `p`. -/
  | unl (p t : Nat)

structure State (G : Type) where
  leaf : Nat → Bool
  lock : Nat → Option Nat
  /-- Version word: insert and split counters, the marks, and the root bit. -/
  ins : Nat → Nat
  spl : Nat → Nat
  dI : Nat → Bool
  dS : Nat → Bool
  rt : Nat → Bool
  parent : Nat → Option Nat
  next : Nat → Option Nat
  items : Nat → Nat → Option G
  keys : Nat → List Nat
  kids : Nat → List Nat
  /-- The smallest key a node may have; of a leaf other than the first, `ikey_bound()`: slot 0 is never given to another key
  (/repo/masstree_insert.hh:50-51). -/
  lo : Nat → Nat
  /-- Ghost: a node is responsible for the keys from `lo` below `hi`. -/
  hi : Nat → Nat
  /-- Ghost: the parent knows the node to be responsible below `phi`. -/
  phi : Nat → Nat
  /-- Ghost: the contents of the internode are those below `chi`. -/
  chi : Nat → Nat
  /-- Nodes from `fresh` on are not allocated. -/
  fresh : Nat
  /-- `root_`. -/
  root : Nat
  /-- Ghost: the map that the layer represents. -/
  m : Nat → Option G
  pc : Nat → PC G
  /-- Key slice, root pointer and update (`none` for a lookup) of each thread.  An update that gives `none` removes. -/
  key : Nat → Nat
  base : Nat → Nat
  fn : Nat → Option (Option G → Option G)

variable {G : Type}

/-- The version has no mark: what `stable` waits for, /repo/nodeversion.hh:36-58. -/
def State.clean (s : State G) (n : Nat) : Prop := s.dI n = false ∧ s.dS n = false

/-- The node is clean and its version is the remembered one: `!has_changed`, /repo/nodeversion.hh:72-75. -/
def State.same (s : State G) (n vi vs : Nat) : Prop := s.clean n ∧ s.ins n = vi ∧ s.spl n = vs

/-- The child for key `k`, /repo/masstree_struct.hh:660-661. -/
def State.route (s : State G) (n k : Nat) : Nat := (s.kids n).getD (upper (s.keys n) k) 0

/-- `unlock`, /repo/nodeversion.hh:132-141. -/
def State.unlock (s : State G) (n : Nat) : State G :=
  { s with
    lock := Function.update s.lock n none
    ins := Function.update s.ins n (if s.dI n = true ∧ s.dS n = false then s.ins n + 1 else s.ins n)
    spl := Function.update s.spl n (if s.dS n = true then s.spl n + 1 else s.spl n)
    rt := Function.update s.rt n (s.rt n && !s.dS n)
    dI := Function.update s.dI n false
    dS := Function.update s.dS n false }

/-- The end of the loop of `make_split`, /repo/masstree_split.hh:283-293. -/
def PC.loop (p : Option Nat) (nx : Option (Nat × Nat)) (t : Nat) : PC G :=
  match p, nx with
  | some p, some (c, x) => .par p c x (some t)
  | some p, none => .unl p t
  | none, _ => .hold t

/-- What a reader saw of a leaf or internode: nothing is known if the version is not the remembered one. -/
def Seen (s : State G) (n vi vs : Nat) (P : Prop) : Prop := s.same n vi vs → P

/-- Allocate a leaf for the keys of leaf `n` from `x` on, and link it: /repo/masstree_split.hh:197-201 and 99-117. -/
def State.splitLeaf (s : State G) (i n x : Nat) : State G :=
  let c := s.fresh
  { s with
    leaf := Function.update s.leaf c true
    lock := Function.update s.lock c (some i)
    ins := Function.update s.ins c (s.ins n)
    spl := Function.update s.spl c (s.spl n)
    dI := Function.update s.dI c (s.dI n)
    dS := Function.update s.dS c (s.dS n)
    rt := Function.update s.rt c (s.rt n)
    parent := Function.update s.parent c none
    next := Function.update (Function.update s.next c (s.next n)) n (some c)
    items := Function.update s.items c (fun k => if x ≤ k then s.items n k else none)
    lo := Function.update s.lo c x
    hi := Function.update s.hi c (s.hi n)
    phi := Function.update s.phi c (s.hi n)
    chi := Function.update s.chi c (s.hi n)
    fresh := c + 1 }

/-- Make a new root with the children `n` and `c`: /repo/masstree_split.hh:219-230. -/
def State.newRoot (s : State G) (n c x : Nat) : State G :=
  let r := s.fresh
  { s with
    leaf := Function.update s.leaf r false
    lock := Function.update s.lock r none
    ins := Function.update s.ins r 0
    spl := Function.update s.spl r 0
    dI := Function.update s.dI r false
    dS := Function.update s.dS r false
    rt := Function.update s.rt r true
    parent := Function.update (Function.update (Function.update s.parent r none) c (some r)) n (some r)
    keys := Function.update s.keys r [x]
    kids := Function.update s.kids r [n, c]
    lo := Function.update s.lo r (s.lo n)
    hi := Function.update s.hi r (s.hi n)
    chi := Function.update s.chi r (s.hi n)
    phi := Function.update (Function.update s.phi r (s.hi n)) n x
    fresh := r + 1 }

/-- The keys and children of `p` with `c` added at key `x`. -/
def State.keysWith (s : State G) (p x : Nat) : List Nat := (s.keys p).insertIdx (upper (s.keys p) x) x
def State.kidsWith (s : State G) (p c x : Nat) : List Nat := (s.kids p).insertIdx (upper (s.keys p) x + 1) c

/-- Put `c` into `p`, which has room: /repo/masstree_split.hh:239-244. -/
def State.insertKid (s : State G) (p n c x : Nat) : State G :=
  { s with
    parent := Function.update s.parent c (some p)
    keys := Function.update s.keys p (s.keysWith p x)
    kids := Function.update s.kids p (s.kidsWith p c x)
    phi := Function.update s.phi n x }

/-- Put `c` into `p`, which is full, and split it before the key number `mid`, `y`: /repo/masstree_split.hh:232-238, 124-175
and 239-244. -/
def State.splitKid (s : State G) (i p n c x mid y : Nat) : State G :=
  let c2 := s.fresh
  { s with
    leaf := Function.update s.leaf c2 false
    lock := Function.update s.lock c2 (some i)
    ins := Function.update s.ins c2 (s.ins p)
    spl := Function.update s.spl c2 (s.spl p)
    dI := Function.update s.dI c2 (s.dI p)
    dS := Function.update (Function.update s.dS c2 (s.dS p)) p true
    rt := Function.update s.rt c2 false
    parent := fun q => if q ∈ (s.kidsWith p c x).drop (mid + 1) then some c2 else if q = c then some p else
      if q = c2 then none else s.parent q
    keys := Function.update (Function.update s.keys c2 ((s.keysWith p x).drop (mid + 1))) p ((s.keysWith p x).take mid)
    kids := Function.update (Function.update s.kids c2 ((s.kidsWith p c x).drop (mid + 1))) p
      ((s.kidsWith p c x).take (mid + 1))
    lo := Function.update s.lo c2 y
    hi := Function.update s.hi c2 (s.hi p)
    phi := Function.update (Function.update s.phi c2 (s.hi p)) n x
    chi := Function.update (Function.update s.chi c2 (s.hi p)) p y
    fresh := c2 + 1 }

/-- `s.to i pc'`: the thread goes on. -/
def State.to (s : State G) (i : Nat) (x : PC G) : State G := { s with pc := Function.update s.pc i x }

inductive Step : State G → State G → Prop where
  /-- An operation begins with the root pointer, /repo/masstree_tcursor.hh:34-37 and 108-110. -/
  | start {s : State G} (i k : Nat) (f : Option (Option G → Option G)) (hk : k < top) (h : s.pc i = .idle) :
      Step s (State.to { s with key := Function.update s.key i k, base := Function.update s.base i s.root,
                                fn := Function.update s.fn i f } i (.up s.root))
  /-- `fix_root`, /repo/masstree_struct.hh:791-799. -/
  | fixRoot {s : State G} (p : Nat) (h : s.parent s.root = some p) (hr : s.rt s.root = false) : Step s { s with root := p }
  /-- The root is found, /repo/masstree_struct.hh:648-651. -/
  | rooted {s : State G} (i n : Nat) (h : s.pc i = .up n) (hc : s.clean n) (hr : s.rt n = true) :
      Step s (s.to i (.at_ n (s.ins n) (s.spl n)))
  /-- Not the root, /repo/masstree_struct.hh:653; `maybe_parent` stays if there is none. -/
  | climb {s : State G} (i n : Nat) (h : s.pc i = .up n) : Step s (s.to i (.up ((s.parent n).getD n)))
  /-- Read the child pointer, /repo/masstree_struct.hh:660-661. -/
  | pick {s : State G} (i n vi vs c : Nat) (h : s.pc i = .at_ n vi vs) (hl : s.leaf n = false)
      (hc : Seen s n vi vs (c = s.route n (s.key i))) : Step s (s.to i (.pick n vi vs c))
  /-- Wait for the child, /repo/masstree_struct.hh:665. -/
  | child {s : State G} (i n vi vs c : Nat) (h : s.pc i = .pick n vi vs c) (hc : s.clean c) :
      Step s (s.to i (.picked n vi vs c (s.ins c) (s.spl c)))
  /-- The parent has not changed, /repo/masstree_struct.hh:667-670. -/
  | descend {s : State G} (i n vi vs c ci cs : Nat) (h : s.pc i = .picked n vi vs c ci cs) (hs : s.same n vi vs) :
      Step s (s.to i (.at_ c ci cs))
  /-- It has, but has not split, /repo/masstree_struct.hh:673-679. -/
  | again {s : State G} (i n vi vs c ci cs : Nat) (h : s.pc i = .picked n vi vs c ci cs) (hc : s.clean n)
      (hs : s.spl n = vs) : Step s (s.to i (.at_ n (s.ins n) (s.spl n)))
  /-- It may have split. -/
  | compare {s : State G} (i n vi vs c ci cs : Nat) (h : s.pc i = .picked n vi vs c ci cs) (hc : s.clean n)  :
      Step s (s.to i (.cmp n (s.ins n) (s.spl n)))
  /-- The key is not larger than the last key of the internode, /repo/masstree_struct.hh:588-599. -/
  | inside {s : State G} (i n vi vs z : Nat) (h : s.pc i = .cmp n vi vs) (hl : s.leaf n = false) (hc : s.clean n)
      (hz : z ∈ s.keys n) (hk : s.key i ≤ z) : Step s (s.to i (.at_ n vi vs))
  /-- `goto retry`, /repo/masstree_struct.hh:663 and 677. -/
  | retry {s : State G} (i n vi vs c : Nat) (h : s.pc i = .pick n vi vs c ∨ s.pc i = .cmp n vi vs) :
      Step s (s.to i (.up (s.base i)))
  /-- Read the leaf, /repo/masstree_get.hh:36-44. -/
  | look {s : State G} (i n vi vs : Nat) (r : Option G) (h : s.pc i = .at_ n vi vs) (hl : s.leaf n = true)
      (hr : Seen s n vi vs (r = s.items n (s.key i))) : Step s (s.to i (.read n vi vs r))
  /-- The leaf has not changed, /repo/masstree_get.hh:45 and 56. -/
  | found {s : State G} (i n vi vs : Nat) (r : Option G) (h : s.pc i = .read n vi vs r) (hf : s.fn i = none)
      (hs : s.same n vi vs) : Step s (s.to i (.done r))
  /-- It has, but has not split, /repo/masstree_struct.hh:699-700. -/
  | stay {s : State G} (i n vi vs : Nat) (r : Option G) (h : s.pc i = .read n vi vs r) (hc : s.clean n)
      (hs : s.spl n = vs) : Step s (s.to i (.at_ n (s.ins n) (s.spl n)))
  /-- It may have split. -/
  | compareLeaf {s : State G} (i n vi vs : Nat) (r : Option G) (h : s.pc i = .read n vi vs r) (hc : s.clean n) :
      Step s (s.to i (.cmp n (s.ins n) (s.spl n)))
  /-- The key is not larger than the last key of the leaf, or than the key removed last from a leaf that is empty,
  /repo/masstree_struct.hh:603-626. -/
  | insideLeaf {s : State G} (i n vi vs z : Nat) (h : s.pc i = .cmp n vi vs) (hl : s.leaf n = true) (hc : s.clean n)
      (hz : s.items n z ≠ none ∨ (∀ k, s.items n k = none) ∧ z < s.hi n) (hk : s.key i ≤ z) : Step s (s.to i (.at_ n vi vs))
  /-- It is, and the leaves are walked, /repo/masstree_struct.hh:701-703. -/
  | walk {s : State G} (i n vi vs : Nat) (h : s.pc i = .cmp n vi vs) (hl : s.leaf n = true) : Step s (s.to i (.adv n vi vs))
  /-- /repo/masstree_struct.hh:705-707. -/
  | forward {s : State G} (i n vi vs r : Nat) (h : s.pc i = .adv n vi vs) (hn : s.next n = some r) (hb : s.lo r ≤ s.key i) :
      Step s (s.to i (.go r))
  /-- /repo/masstree_struct.hh:708. -/
  | arrive {s : State G} (i n : Nat) (h : s.pc i = .go n) (hc : s.clean n) : Step s (s.to i (.adv n (s.ins n) (s.spl n)))
  /-- The walk ends, /repo/masstree_struct.hh:705-706 and 711. -/
  | arrived {s : State G} (i n vi vs : Nat) (h : s.pc i = .adv n vi vs) (hn : ∀ r, s.next n = some r → s.key i < s.lo r) :
      Step s (s.to i (.at_ n vi vs))
  /-- The caller takes the result. -/
  | return {s : State G} (i : Nat) (r : Option G) (h : s.pc i = .done r) : Step s (s.to i .idle)
  /-- Lock the leaf; it has not changed, /repo/masstree_get.hh:100-101 and 117. -/
  | acquire {s : State G} (i n vi vs : Nat) (r : Option G) (h : s.pc i = .read n vi vs r) (hf : s.fn i ≠ none)
      (hl : s.lock n = none) (hi : s.ins n = vi) (hs : s.spl n = vs) :
      Step s (State.to { s with lock := Function.update s.lock n (some i) } i (.hold n))
  /-- `mark_insert`, /repo/masstree_insert.hh:43 and 112, /repo/masstree_remove.hh:163-166. -/
  | markLeaf {s : State G} (i n : Nat) (h : s.pc i = .hold n) : Step s { s with dI := Function.update s.dI n true }
  /-- Publish the new entry or value, /repo/masstree_insert.hh:129-136, or the removal, /repo/masstree_remove.hh:168-170. -/
  | publish {s : State G} (i n : Nat) (f : Option G → Option G) (h : s.pc i = .hold n) (hf : s.fn i = some f) :
      Step s (State.to
        { s with
          items := Function.update s.items n
            (Function.update (s.items n) (s.key i) (f (s.items n (s.key i))))
          m := Function.update s.m (s.key i) (f (s.m (s.key i))) } i (.pub n))
  /-- /repo/masstree_insert.hh:151. -/
  | release {s : State G} (i n : Nat) (h : s.pc i = .pub n) : Step s ((s.unlock n).to i .idle)
  /-- Split the leaf at any key after the first, /repo/masstree_split.hh:197-201. -/
  | split {s : State G} (i n x : Nat) (h : s.pc i = .hold n) (hx : s.lo n < x) (hy : x < s.hi n) :
      Step s ((s.splitLeaf i n x).to i (.par n s.fresh x none))
  /-- There is no parent, /repo/masstree_split.hh:210 and 218-230. -/
  | newRoot {s : State G} (i n c x : Nat) (t : Option Nat) (h : s.pc i = .par n c x t) (hp : s.parent n = none) :
      Step s ((s.newRoot n c x).to i (.fin none none n c x t))
  /-- `locked_parent`, /repo/masstree_struct.hh:557-561. -/
  | lockParent {s : State G} (i n c x p : Nat) (t : Option Nat) (h : s.pc i = .par n c x t) (hp : s.parent n = some p)
      (hl : s.lock p = none) :
      Step s (State.to { s with lock := Function.update s.lock p (some i) } i (.got p n c x t))
  /-- /repo/masstree_struct.hh:562-565. -/
  | isParent {s : State G} (i p n c x : Nat) (t : Option Nat) (h : s.pc i = .got p n c x t) (hp : s.parent n = some p) :
      Step s (s.to i (.mrk p n c x t))
  /-- /repo/masstree_struct.hh:566. -/
  | notParent {s : State G} (i p n c x : Nat) (t : Option Nat) (h : s.pc i = .got p n c x t) (hp : s.parent n ≠ some p) :
      Step s ((s.unlock p).to i (.par n c x t))
  /-- /repo/masstree_split.hh:215. -/
  | markParent {s : State G} (i p n c x : Nat) (t : Option Nat) (h : s.pc i = .mrk p n c x t) :
      Step s (State.to { s with dI := Function.update s.dI p true } i (.mod p n c x t))
  /-- /repo/masstree_split.hh:239-244. -/
  | insertKid {s : State G} (i p n c x : Nat) (t : Option Nat) (h : s.pc i = .mod p n c x t) :
      Step s ((s.insertKid p n c x).to i (.fin (some p) none n c x t))
  /-- /repo/masstree_split.hh:232-244. -/
  | splitKid {s : State G} (i p n c x mid y : Nat) (t : Option Nat) (h : s.pc i = .mod p n c x t)
      (hy : (s.keysWith p x)[mid]? = some y) :
      Step s ((s.splitKid i p n c x mid y).to i (.fin (some p) (some (s.fresh, y)) n c x t))
  /-- /repo/masstree_split.hh:262. -/
  | markSplit {s : State G} (i n c x : Nat) (p : Option Nat) (nx : Option (Nat × Nat)) (h : s.pc i = .fin p nx n c x none) :
      Step s (State.to { s with dS := Function.update s.dS n true } i (.cut p nx n c x))
  /-- Strip the leaf; the new key goes left or right, /repo/masstree_split.hh:263-282. -/
  | strip {s : State G} (i n c x : Nat) (p : Option Nat) (nx : Option (Nat × Nat)) (h : s.pc i = .cut p nx n c x) :
      Step s (State.to
        { s with
          items := Function.update s.items n (fun k => if k < x then s.items n k else none)
          hi := Function.update s.hi n x
          chi := Function.update s.chi n x } i
        (if s.key i < x then .rel p nx c n else .rel p nx n c))
  /-- Unlock the left internode, /repo/masstree_split.hh:277-279. -/
  | unlockLeft {s : State G} (i n c x t : Nat) (p : Option Nat) (nx : Option (Nat × Nat))
      (h : s.pc i = .fin p nx n c x (some t)) :
      Step s (State.to { s.unlock n with hi := Function.update s.hi n x } i (.rel p nx c t))
  /-- Unlock the other node, /repo/masstree_split.hh:277-287. -/
  | unlockRight {s : State G} (i q t : Nat) (p : Option Nat) (nx : Option (Nat × Nat)) (h : s.pc i = .rel p nx q t) :
      Step s ((s.unlock q).to i (.loop p nx t))
  /-- /repo/masstree_split.hh:289. -/
  | unlockParent {s : State G} (i p t : Nat) (h : s.pc i = .unl p t) : Step s ((s.unlock p).to i (.hold t))

/-- A root leaf with any contents, and no operations. -/
structure Init (s : State G) : Prop where
  fresh : s.fresh = 1
  root : s.root = 0
  leaf : s.leaf 0 = true
  lock : ∀ n, s.lock n = none
  clean : ∀ n, s.clean n
  rt : s.rt 0 = true
  parent : s.parent 0 = none
  next : s.next 0 = none
  lo : s.lo 0 = 0
  hi : s.hi 0 = top ∧ s.phi 0 = top ∧ s.chi 0 = top
  items : s.items 0 = s.m
  small : ∀ k, s.m k ≠ none → k < top
  pc : ∀ i, s.pc i = .idle

inductive Reachable : State G → Prop where
  | init {s : State G} (h : Init s) : Reachable s
  | step {s s' : State G} (h : Reachable s) (hs : Step s s') : Reachable s'

end Verif.Blink
