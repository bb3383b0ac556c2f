/-!
# Scans of a layer while others change it

`scanstackelt` and the helpers for both directions, /repo/masstree_scan.hh, at the granularity of `Verif.Blink` and
`Verif.Prune`: one access to a leaf at a time, between which other threads do what they like.  A scan only reads, so it is an
observer of the history of a layer, which is given by `Hist`.

Entries of a leaf are in the order of their positions.  The position of an entry with slice `x` and length `l` is `16 * x + l`;
all entries with a suffix, and links to a layer, have length 9 (`key::compare`, /repo/masstree_key.hh:132-143).

Simplifications:
* The walk from the root of the layer to a leaf is the one of another thread of the model, which looks for the same slice
  (`reach_leaf`, and `advance_to_key` in `find_initial`).
* The permutation is read in one step, and what is found with it by searches, or read of the entries, is right if the version of
  the leaf still is the remembered one (C08 and C09).  By then, the value may be one that its entry had before, up to the
  time the permutation was read, since updates of values and removals need not change the version.
* `prev_` points to a leaf for smaller keys, and is null for the first leaf only (C12).  Nothing else is assumed of it.
* A link to another layer counts as an entry.  After the scan of that layer, the scan of this one goes on at `stable`
  (/repo/masstree_scan.hh:369-372), which it may do at any time.
-/
namespace Verif.Range

/-- What a scan reads of a layer, at every time; what it does not read is marked as ghost.  The contents of a slice are its
values by length. -/
structure Hist (V : Type) where
  /-- The node is an allocated leaf. -/
  leaf : Nat → Nat → Prop
  ins : Nat → Nat → Nat
  spl : Nat → Nat → Nat
  clean : Nat → Nat → Prop
  dead : Nat → Nat → Bool
  items : Nat → Nat → Nat → Option (Nat → Option V)
  next : Nat → Nat → Option Nat
  /-- `ikey_bound()`, or 0 for the first leaf. -/
  lo : Nat → Nat → Nat
  /-- `walk t k n vi vs`: a search for slice `k` is at leaf `n` with the version `(vi, vs)`, which is not deleted. -/
  walk : Nat → Nat → Nat → Nat → Nat → Prop
  /-- Ghost: the leaf is responsible for the slices below. -/
  hi : Nat → Nat → Nat
  /-- Ghost: the contents of the layer. -/
  m : Nat → Nat → Option (Nat → Option V)

variable {V : Type}

/-- The entry at position `p`. -/
def entry (f : Nat → Option (Nat → Option V)) (p : Nat) : Option V := (f (p / 16)).bind (· (p % 16))

/-- The version is the remembered one, which is not deleted: `!has_changed`, /repo/nodeversion.hh:72-75. -/
def Hist.Ok (h : Hist V) (t n vi vs : Nat) : Prop := h.clean t n ∧ h.ins t n = vi ∧ h.spl t n = vs ∧ h.dead t n = false

/-- The positions of the entries of leaf `n`, in order. -/
def Hist.Perm (h : Hist V) (t n : Nat) (K : List Nat) : Prop :=
  K.Pairwise (· < ·) ∧ ∀ p, p ∈ K ↔ entry (h.items t n) p ≠ none

/-- `kp`, /repo/masstree_scan.hh:71-76. -/
def kp (K : List Nat) (ki : Int) : Option Nat := if 0 ≤ ki then K[ki.toNat]? else none

/-- `bound_type::lower_by`: the index of the first entry that is not smaller (C08). -/
def lowerBy (K : List Nat) (ka : Nat) : Nat := K.countP (· < ka)

/-- The helpers of the two directions: `lower`, /repo/masstree_scan.hh:90-92 and 134-139. -/
def lower (fwd ub : Bool) (K : List Nat) (ka : Nat) : Int :=
  if fwd then lowerBy K ka
  else if ub then (K.length : Int) - 1
  else (lowerBy K ka : Int) - (if ka ∈ K then 0 else 1)

/-- `next`, /repo/masstree_scan.hh:99-101 and 146-148. -/
def nextKi (fwd : Bool) (ki : Int) : Int := if fwd then ki + 1 else ki - 1

/-- `is_duplicate`, /repo/masstree_scan.hh:85-89 and 129-133. -/
def dup (fwd ub : Bool) (ka p : Nat) : Bool := if fwd then decide (p ≤ ka) else decide (ka ≤ p) && !ub

/-- Where a scan is. -/
inductive PC where
  /-- On the way from the root to a leaf, in `find_initial` (`first`) or `find_retry`. -/
  | walk (first : Bool)
  /-- Has the version of leaf `n`, must read the permutation. -/
  | node (first : Bool) (n vi vs : Nat)
  /-- `find_initial` has read the permutation, at time `t`. -/
  | init (n vi vs t : Nat) (K : List Nat)
  /-- `find_next`. -/
  | scan (n vi vs t : Nat) (K : List Nat) (ki : Int)
  /-- The leaf is exhausted and has not changed; must call `advance`. -/
  | next (n : Nat)
  /-- Must call `stable` for leaf `n`. -/
  | move (n : Nat)
  /-- `stable` of the reverse helper: has the version of `n`, which is deleted or not, must look at the next leaf. -/
  | check (n vi vs : Nat) (d : Bool)
  /-- There are no more leaves. -/
  | fin

/-- The position of the key `ka`, `upper_bound_`, and what has been visited, the last first. -/
structure St (V : Type) where
  pc : PC
  ka : Nat
  ub : Bool
  out : List (Nat × V)

/-- One access at time `t`.  `want` says whether the entry at the position the scan starts with is to be visited, which depends
on its suffix and on `emit_equal` (/repo/masstree_scan.hh:217-234). -/
inductive Step (h : Hist V) (fwd : Bool) (want : V → Bool) (t : Nat) : St V → St V → Prop where
  /-- The leaf is reached, /repo/masstree_scan.hh:190-194 and 242-244. -/
  | reach {ka : Nat} {ub : Bool} {out : List (Nat × V)} (first : Bool) (n vi vs : Nat) (hw : h.walk t (ka / 16) n vi vs) :
      Step h fwd want t ⟨.walk first, ka, ub, out⟩ ⟨.node first n vi vs, ka, ub, out⟩
  /-- Read the permutation in `find_initial`, /repo/masstree_scan.hh:196. -/
  | permFirst {ka : Nat} {ub : Bool} {out : List (Nat × V)} (n vi vs : Nat) (K : List Nat)
      (hK : h.Ok t n vi vs → h.Perm t n K) :
      Step h fwd want t ⟨.node true n vi vs, ka, ub, out⟩ ⟨.init n vi vs t K, ka, ub, out⟩
  /-- The first entry is visited, /repo/masstree_scan.hh:198-232 and 348. -/
  | emitFirst {ka : Nat} {ub : Bool} {out : List (Nat × V)} (n vi vs u w : Nat) (K : List Nat) (v : V)
      (ho : h.Ok t n vi vs) (hk : ka ∈ K) (hu : u ≤ w ∧ w ≤ t) (hv : entry (h.items w n) ka = some v) (hw : want v = true) :
      Step h fwd want t ⟨.init n vi vs u K, ka, ub, out⟩
        ⟨.scan n vi vs u K (nextKi fwd (lowerBy K ka)), ka, ub, (ka, v) :: out⟩
  /-- It is skipped, /repo/masstree_scan.hh:233. -/
  | skipFirst {ka : Nat} {ub : Bool} {out : List (Nat × V)} (n vi vs u w : Nat) (K : List Nat) (v : V)
      (ho : h.Ok t n vi vs) (hk : ka ∈ K) (hu : u ≤ w ∧ w ≤ t) (hv : entry (h.items w n) ka = some v) (hw : want v = false) :
      Step h fwd want t ⟨.init n vi vs u K, ka, ub, out⟩ ⟨.scan n vi vs u K (nextKi fwd (lowerBy K ka)), ka, ub, out⟩
  /-- There is none, /repo/masstree_scan.hh:216, 95 and 142-143. -/
  | noFirst {ka : Nat} {ub : Bool} {out : List (Nat × V)} (n vi vs u : Nat) (K : List Nat) (ho : h.Ok t n vi vs)
      (hk : ka ∉ K) :
      Step h fwd want t ⟨.init n vi vs u K, ka, ub, out⟩
        ⟨.scan n vi vs u K (if fwd then (lowerBy K ka : Int) else (lowerBy K ka : Int) - 1), ka, ub, out⟩
  /-- The leaf has changed, /repo/masstree_scan.hh:210-214. -/
  | againFirst {ka : Nat} {ub : Bool} {out : List (Nat × V)} (n vi vs u : Nat) (K : List Nat) :
      Step h fwd want t ⟨.init n vi vs u K, ka, ub, out⟩ ⟨.walk true, ka, ub, out⟩
  /-- Read the permutation and find where to go on, /repo/masstree_scan.hh:247-249 and 304-306. -/
  | perm {ka : Nat} {ub : Bool} {out : List (Nat × V)} (n vi vs : Nat) (K : List Nat) (ki : Int)
      (hK : h.Ok t n vi vs → h.Perm t n K ∧ ki = lower fwd ub K ka) :
      Step h fwd want t ⟨.node false n vi vs, ka, ub, out⟩ ⟨.scan n vi vs t K ki, ka, ub, out⟩
  /-- An entry that has been passed already, /repo/masstree_scan.hh:274-277. -/
  | skip {ka : Nat} {ub : Bool} {out : List (Nat × V)} (n vi vs u p : Nat) (K : List Nat) (ki : Int)
      (ho : h.Ok t n vi vs) (hk : kp K ki = some p) (hd : dup fwd ub ka p = true) :
      Step h fwd want t ⟨.scan n vi vs u K ki, ka, ub, out⟩ ⟨.scan n vi vs u K (nextKi fwd ki), ka, ub, out⟩
  /-- Visit an entry, /repo/masstree_scan.hh:262-290 and 348. -/
  | emit {ka : Nat} {ub : Bool} {out : List (Nat × V)} (n vi vs u w p : Nat) (K : List Nat) (ki : Int) (v : V)
      (ho : h.Ok t n vi vs) (hk : kp K ki = some p) (hd : dup fwd ub ka p = false) (hu : u ≤ w ∧ w ≤ t)
      (hv : entry (h.items w n) p = some v) :
      Step h fwd want t ⟨.scan n vi vs u K ki, ka, ub, out⟩
        ⟨.scan n vi vs u K (nextKi fwd ki), p, false, (p, v) :: out⟩
  /-- There are no more entries, /repo/masstree_scan.hh:293. -/
  | exhausted {ka : Nat} {ub : Bool} {out : List (Nat × V)} (n vi vs u : Nat) (K : List Nat) (ki : Int)
      (ho : h.Ok t n vi vs) (hk : kp K ki = none) :
      Step h fwd want t ⟨.scan n vi vs u K ki, ka, ub, out⟩ ⟨.next n, ka, ub, out⟩
  /-- The leaf has changed, or the scan comes back from the layer visited last, /repo/masstree_scan.hh:272-273, 293 and
  363-368. -/
  | changed {ka : Nat} {ub : Bool} {out : List (Nat × V)} (n vi vs u : Nat) (K : List Nat) (ki : Int) :
      Step h fwd want t ⟨.scan n vi vs u K ki, ka, ub, out⟩ ⟨.move n, ka, ub, out⟩
  /-- `advance`, /repo/masstree_scan.hh:102-105 and 294. -/
  | forward {ka : Nat} {ub : Bool} {out : List (Nat × V)} (n r : Nat) (hf : fwd = true) (hn : h.next t n = some r) :
      Step h fwd want t ⟨.next n, ka, ub, out⟩ ⟨.move r, ka, ub, out⟩
  | forwardEnd {ka : Nat} {ub : Bool} {out : List (Nat × V)} (n : Nat) (hf : fwd = true) (hn : h.next t n = none) :
      Step h fwd want t ⟨.next n, ka, ub, out⟩ ⟨.fin, ka, ub, out⟩
  /-- `advance` of the reverse helper, /repo/masstree_scan.hh:152-157 and 294. -/
  | backward {ka : Nat} {ub : Bool} {out : List (Nat × V)} (n r : Nat) (hf : fwd = false) (hn : h.leaf t r)
      (hl : h.lo t r < h.lo t n) :
      Step h fwd want t ⟨.next n, ka, ub, out⟩ ⟨.move r, 16 * h.lo t n, ub, out⟩
  | backwardEnd {ka : Nat} {ub : Bool} {out : List (Nat × V)} (n : Nat) (hf : fwd = false) (hn : h.lo t n = 0) :
      Step h fwd want t ⟨.next n, ka, ub, out⟩ ⟨.fin, ka, false, out⟩
  /-- `stable`, /repo/masstree_scan.hh:106-109 and 303, and 257-258. -/
  | stable {ka : Nat} {ub : Bool} {out : List (Nat × V)} (n : Nat) (hf : fwd = true) (hc : h.clean t n) :
      Step h fwd want t ⟨.move n, ka, ub, out⟩
        ⟨if h.dead t n then .walk false else .node false n (h.ins t n) (h.spl t n), ka, ub, out⟩
  /-- `stable` of the reverse helper, /repo/masstree_scan.hh:161. -/
  | stableR {ka : Nat} {ub : Bool} {out : List (Nat × V)} (n : Nat) (hf : fwd = false) (hc : h.clean t n) :
      Step h fwd want t ⟨.move n, ka, ub, out⟩ ⟨.check n (h.ins t n) (h.spl t n) (h.dead t n), ka, ub, out⟩
  /-- /repo/masstree_scan.hh:162-167, and 257-258. -/
  | stay {ka : Nat} {ub : Bool} {out : List (Nat × V)} (n vi vs : Nat) (d : Bool)
      (hn : ∀ r, h.next t n = some r → ka / 16 < h.lo t r ∨ ka = 16 * h.lo t r) :
      Step h fwd want t ⟨.check n vi vs d, ka, ub, out⟩ ⟨if d then .walk false else .node false n vi vs, ka, ub, out⟩
  /-- /repo/masstree_scan.hh:168. -/
  | right {ka : Nat} {ub : Bool} {out : List (Nat × V)} (n vi vs r : Nat) (d : Bool) (hn : h.next t n = some r)
      (hk : ¬ (ka / 16 < h.lo t r ∨ ka = 16 * h.lo t r)) :
      Step h fwd want t ⟨.check n vi vs d, ka, ub, out⟩ ⟨.move r, ka, ub, out⟩

/-- How a scan begins: with `find_initial`, or, in a layer below, with `find_retry` for the smallest or the largest position,
/repo/masstree_scan.hh:335 and 374-376, /repo/masstree_key.hh:219-228.  There is no entry for the empty key in a layer below,
and the scan would not visit it.  Lengths above 8 are alike, and 15 stands for `ikey_size + 1` in the largest position. -/
inductive Begin (fwd : Bool) (b : Nat) (want : V → Bool) : St V → Prop where
  | first (hb : b / 16 < 2 ^ 64) : Begin fwd b want ⟨.walk true, b, false, []⟩
  | down (hf : fwd = true) (hb : b = 0) (hw : ∀ v, want v = false) : Begin fwd b want ⟨.walk false, b, false, []⟩
  | downReverse (hf : fwd = false) (hb : b = 16 * (2 ^ 64 - 1) + 15) (hw : ∀ v, want v = true) :
      Begin fwd b want ⟨.walk false, b, true, []⟩

/-- A scan that begins at time `a` is in the given state at the given time. -/
inductive Scan (h : Hist V) (fwd : Bool) (b : Nat) (want : V → Bool) (a : Nat) : Nat → St V → Prop where
  | begin {s : St V} (hb : Begin fwd b want s) : Scan h fwd b want a a s
  | wait {t : Nat} {s : St V} (hs : Scan h fwd b want a t s) : Scan h fwd b want a (t + 1) s
  | step {t : Nat} {s s' : St V} (hs : Scan h fwd b want a t s) (hn : Step h fwd want t s s') : Scan h fwd b want a t s'

end Verif.Range
