import Verif.Range.Reverse
import Verif.Scan.Initial

/-!
# Scans of a tree of layers while others change it

`basic_table::scan`, /repo/masstree_scan.hh:310-385, over layers that change meanwhile.  Each layer is scanned as in
`Verif.Range.Model`; this file is about going down to layers and back up.

Simplifications:
* The key of the scan is kept as the bytes of the layers above (`pre`), and the position in each layer.  That the buffer of the
  code holds just these bytes is the subject of C03 and C04; it must be large enough.
* The root of a layer is the layer (`root_` may be an old root, from which `reach_leaf` goes up).
* Layers have numbers, which are not used again.
-/
namespace Verif.Range

open Verif.Key (Bytes LexLt slice)
open Verif.Trie (ikeyBytes)

/-- A value of a leaf: that of a key that ends in this slice, that of a key with a suffix, or a layer. -/
inductive Ent (W : Type) where
  | val (w : W)
  | suf (ρ : Bytes) (w : W)
  | link (l : Nat)

variable {W : Type}

/-- The position of a key in its layer. -/
def pos (k : Bytes) : Nat := 16 * slice k + min k.length 9

/-- The bytes for a position, `assign_store_ikey` and `assign_store_length`, /repo/masstree_key.hh:202-212. -/
def keyAt (p : Nat) : Bytes := (ikeyBytes (p / 16)).take (p % 16)

/-- Where the scan of a layer starts: at a key, which is visited or not if it is there (`emit_equal`), or with all. -/
inductive Start where
  | all
  | key (k : Bytes) (e : Bool)

def Start.pos (fwd : Bool) : Start → Nat
  | .all => if fwd then 0 else 16 * (2 ^ 64 - 1) + 15
  | .key k _ => Range.pos k

/-- Whether to visit the entry at the position of the start, /repo/masstree_scan.hh:217-234; `initial_ksuf_match`, lines 82-84
and 126-128. -/
def Start.want (fwd : Bool) : Start → Ent W → Bool
  | .all, _ => !fwd
  | .key _ e, .val _ => e
  | .key k e, .suf ρ _ =>
    (if fwd then decide (0 < Scan.cmpBytes ρ (k.drop 8)) else decide (Scan.cmpBytes ρ (k.drop 8) < 0)) ||
      (decide (Scan.cmpBytes ρ (k.drop 8) = 0) && e)
  | .key _ _, .link _ => true

/-- The state at the start: `find_initial`, or `shift_clear` and `find_retry` (/repo/masstree_scan.hh:110-112, 171-174 and
374-380). -/
def Start.init (fwd : Bool) : Start → St (Ent W)
  | .all => ⟨.walk false, Start.all.pos fwd, !fwd, []⟩
  | .key k e => ⟨.walk true, (Start.key k e).pos fwd, false, []⟩

/-- The layer was found by `find_initial`. -/
def PC.first : PC → Bool
  | .init _ _ _ _ _ => true
  | _ => false

/-- The start in a layer below: `ka.shift()` in the loop of `find_initial`, /repo/masstree_scan.hh:334-340, otherwise all of it. -/
def Start.below (first : Bool) : Start → Start
  | .all => .all
  | .key k e => if first then .key (k.drop 8) e else .all

/-- The scan of a layer: which, from where, since when. -/
structure Frame (W : Type) where
  l : Nat
  st : Start
  /-- The bytes of the layers above. -/
  pre : Bytes
  a : Nat
  s : St (Ent W)

/-- `stack`, the current layer first, and what has been visited, the last first. -/
structure Conf (W : Type) where
  frames : List (Frame W)
  out : List (Bytes × W)

/-- One access at time `t`. -/
inductive TStep (R : Nat → Hist (Ent W)) (fwd : Bool) (t : Nat) : Conf W → Conf W → Prop where
  /-- In the current layer. -/
  | run (f : Frame W) (fs : List (Frame W)) (out : List (Bytes × W)) (s : St (Ent W))
      (hs : Step (R f.l) fwd (f.st.want fwd) t f.s s) (ho : s.out = f.s.out) :
      TStep R fwd t ⟨f :: fs, out⟩ ⟨{ f with s := s } :: fs, out⟩
  /-- `scan_emit`, /repo/masstree_scan.hh:344-350. -/
  | value (f : Frame W) (fs : List (Frame W)) (out : List (Bytes × W)) (s : St (Ent W)) (p : Nat) (w : W)
      (hs : Step (R f.l) fwd (f.st.want fwd) t f.s s) (ho : s.out = (p, .val w) :: f.s.out) :
      TStep R fwd t ⟨f :: fs, out⟩ ⟨{ f with s := s } :: fs, (f.pre ++ keyAt p, w) :: out⟩
  | suffix (f : Frame W) (fs : List (Frame W)) (out : List (Bytes × W)) (s : St (Ent W)) (p : Nat) (ρ : Bytes) (w : W)
      (hs : Step (R f.l) fwd (f.st.want fwd) t f.s s) (ho : s.out = (p, .suf ρ w) :: f.s.out) :
      TStep R fwd t ⟨f :: fs, out⟩ ⟨{ f with s := s } :: fs, (f.pre ++ keyAt p ++ ρ, w) :: out⟩
  /-- `scan_down`, /repo/masstree_scan.hh:334-340 and 374-376. -/
  | down (f : Frame W) (fs : List (Frame W)) (out : List (Bytes × W)) (s : St (Ent W)) (p l : Nat)
      (hs : Step (R f.l) fwd (f.st.want fwd) t f.s s) (ho : s.out = (p, .link l) :: f.s.out) :
      TStep R fwd t ⟨f :: fs, out⟩
        ⟨⟨l, f.st.below f.s.pc.first, f.pre ++ keyAt p, t, (f.st.below f.s.pc.first).init fwd⟩ :: { f with s := s } :: fs, out⟩
  /-- `scan_up`, /repo/masstree_scan.hh:359-372. -/
  | up (f g : Frame W) (fs : List (Frame W)) (out : List (Bytes × W)) (n vi vs u : Nat) (K : List Nat) (ki : Int)
      (hf : f.s.pc = .fin) (hg : g.s.pc = .scan n vi vs u K ki) :
      TStep R fwd t ⟨f :: g :: fs, out⟩ ⟨{ g with s := { g.s with pc := .move n } } :: fs, out⟩

/-- A scan of the tree from key `k` that begins at time `a`. -/
inductive Whole (R : Nat → Hist (Ent W)) (fwd : Bool) (k : Bytes) (e : Bool) (a : Nat) : Nat → Conf W → Prop where
  | begin : Whole R fwd k e a a ⟨[⟨0, .key k e, [], a, (Start.key k e).init fwd⟩], []⟩
  | wait {t : Nat} {c : Conf W} (h : Whole R fwd k e a t c) : Whole R fwd k e a (t + 1) c
  | step {t : Nat} {c c' : Conf W} (h : Whole R fwd k e a t c) (hs : TStep R fwd t c c') : Whole R fwd k e a t c'

/-- The value of a key at time `u`. -/
def find (R : Nat → Hist (Ent W)) (u l : Nat) (k : Bytes) : Option W :=
  match entry ((R l).m u) (pos k) with
  | some (.val w) => some w
  | some (.suf ρ w) => if ρ = k.drop 8 then some w else none
  | some (.link l') => if 8 < k.length then find R u l' (k.drop 8) else none
  | none => none
termination_by k.length
decreasing_by simp; omega

/-- Position of the keys with more bytes than one slice. -/
def Slot (p : Nat) : Prop := ∃ k : Bytes, k.length = 8 ∧ p = 16 * slice k + 9

/-- The layers hang together. -/
structure Tree (R : Nat → Hist (Ent W)) : Prop where
  /-- Keys that end in a slice, keys with suffixes, and layers are at their positions (C06). -/
  val : ∀ l u p w, entry ((R l).m u) p = some (.val w) → ∃ k : Bytes, k.length ≤ 8 ∧ p = pos k
  suf : ∀ l u p ρ w, entry ((R l).m u) p = some (.suf ρ w) → Slot p ∧ ρ ≠ []
  /-- In layers below there is no empty key. -/
  link : ∀ l u p l', entry ((R l).m u) p = some (.link l') → Slot p ∧ ∀ u', entry ((R l').m u') 0 = none
  /-- A layer is taken out of the tree when it is empty, and nothing is put into it any more (`gc_layer`,
  /repo/masstree_remove.hh:88-110, and /repo/masstree_get.hh:111-114). -/
  held : ∀ l u p l', entry ((R l).m u) p = some (.link l') → entry ((R l).m (u + 1)) p = some (.link l') ∨
    ∀ u', u ≤ u' → ∀ q, entry ((R l').m u') q = none

end Verif.Range
