import Verif.Range.Shut
import Verif.Range.Whole

/-!
# The layers of a tree, which threads create and collect

Every layer is a run of `Verif.Blink` or a tidy run of `Verif.Prune`; all runs have the same clock.  An entry of a layer changes
when a thread publishes in that layer, in one of the ways of `Change`.

Simplifications:
* A layer has a number, which is not used again.  Before it is linked into the tree, it has its contents already, and nothing
  changes there.
* `gc_layer` is modelled from line 88 of /repo/masstree_remove.hh on: a layer whose root is an internode is not collected (that
  internodes without keys are removed before, lines 64-85, is not modelled).
* Whoever locks the leaf of a layer that is marked (`mark_deleted_layer`) unlocks it and starts again at the root of the tree
  (/repo/masstree_get.hh:111-115).  In the run of the layer this is an update that changes nothing.
-/
namespace Verif.Range

open Verif.Key (Bytes slice)

variable {W : Type}

/-- The run of a layer. -/
inductive Lay (W : Type) where
  | blink (r : Nat → Blink.State (Nat → Option (Ent W)))
  | prune (up : List Nat → Nat → Nat) (r : Nat → Prune.State (Nat → Option (Ent W)))

def Lay.hist : Lay W → Hist (Ent W)
  | .blink r => Range.blink r
  | .prune _ r => Range.prune r

def Lay.Runs : Lay W → Prop
  | .blink r => Blink.Run r
  | .prune up r => Prune.TidyRun up r

/-- A thread has locked the root of the layer, which is an empty leaf, at time `t`, and marks it: /repo/masstree_remove.hh:88-107.
Who locks the leaf afterwards changes nothing, /repo/masstree_get.hh:111-115. -/
def Lay.Shut (t : Nat) : Lay W → Prop
  | .blink r => BlinkShut r t
  | .prune _ r => PruneShut r t

/-- Thread `i` looks up the slice of `k` in the layer, from time `a` to `b`, and reads the entry `v` (that of `k` or a longer
key, C01). -/
def Lay.Looks (i : Nat) (k : Bytes) (a b : Nat) (v : Option (Ent W)) : Lay W → Prop
  | .blink r => Blink.Op r i a b ∧ (r b).key i = slice k ∧ ∃ g, (r b).pc i = .done g ∧ g.bind (· (min k.length 9)) = v
  | .prune _ r => Prune.Op r i a b ∧ (r b).key i = slice k ∧ ∃ g, (r b).pc i = .done g ∧ g.bind (· (min k.length 9)) = v

/-- The entry at position `p` of layer `l` at time `t`. -/
def at_ (L : Nat → Lay W) (t l p : Nat) : Option (Ent W) := entry ((L l).hist.m t) p

/-- The value of a key at time `t`. -/
def get (L : Nat → Lay W) (t : Nat) (k : Bytes) : Option W := find (fun l => (L l).hist) t 0 k

/-- What may be at position `p` of layer `l`. -/
inductive Fits (l p : Nat) : Ent W → Prop where
  | val (k : Bytes) (w : W) (hk : k.length ≤ 8) (hp : p = pos k) (hl : l ≠ 0 → k ≠ []) : Fits l p (.val w)
  | suf (ρ : Bytes) (w : W) (hp : Slot p) (hρ : ρ ≠ []) : Fits l p (.suf ρ w)
  | link (l' : Nat) (hp : Slot p) (hl : l' ≠ 0) : Fits l p (.link l')

/-- Layer `l` has just the key `ρ`, with value `w`, perhaps in layers below. -/
inductive Twig (L : Nat → Lay W) (t : Nat) : Nat → Bytes → W → Prop where
  | val {l : Nat} {ρ : Bytes} {w : W} (hρ : ρ ≠ [] ∧ ρ.length ≤ 8) (he : at_ L t l (pos ρ) = some (.val w))
      (ho : ∀ q, q ≠ pos ρ → at_ L t l q = none) : Twig L t l ρ w
  | suf {l : Nat} {ρ : Bytes} {w : W} (hρ : 8 < ρ.length) (he : at_ L t l (pos ρ) = some (.suf (ρ.drop 8) w))
      (ho : ∀ q, q ≠ pos ρ → at_ L t l q = none) : Twig L t l ρ w
  | link {l l' : Nat} {ρ : Bytes} {w : W} (hρ : 8 < ρ.length) (he : at_ L t l (pos ρ) = some (.link l'))
      (ho : ∀ q, q ≠ pos ρ → at_ L t l q = none) (h : Twig L t l' (ρ.drop 8) w) : Twig L t l ρ w

/-- How the entry at position `p` of layer `l` may change at time `t`. -/
inductive Change (L : Nat → Lay W) (t l p : Nat) : Option (Ent W) → Option (Ent W) → Prop where
  /-- A value for a key is inserted or replaced, /repo/masstree_insert.hh:129-136. -/
  | put (v : Option (Ent W)) (k : Bytes) (w : W) (hk : k.length ≤ 8) (hp : p = pos k) (hl : l ≠ 0 → k ≠ [])
      (hv : ∀ e, v = some e → ∃ w', e = .val w') : Change L t l p v (some (.val w))
  /-- The same for a key with a suffix: no other one is at the position, /repo/masstree_insert.hh:36-38. -/
  | putLong (v : Option (Ent W)) (ρ : Bytes) (w : W) (hp : Slot p) (hρ : ρ ≠ [])
      (hv : ∀ e, v = some e → ∃ w', e = .suf ρ w') : Change L t l p v (some (.suf ρ w))
  /-- The entry is removed, /repo/masstree_remove.hh:168-170. -/
  | remove (w : W) : Change L t l p (some (.val w)) none
  | removeLong (ρ : Bytes) (w : W) : Change L t l p (some (.suf ρ w)) none
  /-- The key is put into a new layer, or layers, /repo/masstree_insert.hh:62-122. -/
  | layer (ρ : Bytes) (w : W) (l' : Nat) (h0 : l' ≠ 0) (hn : ∀ m q, at_ L t m q ≠ some (.link l'))
      (ht : Twig L t l' ρ w) : Change L t l p (some (.suf ρ w)) (some (.link l'))
  /-- The layer, which has been marked before, is collected, /repo/masstree_remove.hh:88-110, 142-143 and 168-170. -/
  | collect (l' x : Nat) (hx : x ≤ t) (hs : (L l').Shut x) : Change L t l p (some (.link l')) none

/-- A history of the tree. -/
structure World (L : Nat → Lay W) : Prop where
  runs : ∀ l, (L l).Runs
  fits : ∀ l p e, at_ L 0 l p = some e → Fits l p e
  once : ∀ l p l' p' m, at_ L 0 l p = some (.link m) → at_ L 0 l' p' = some (.link m) → l = l' ∧ p = p'
  change : ∀ t l p, at_ L (t + 1) l p ≠ at_ L t l p → Change L t l p (at_ L t l p) (at_ L (t + 1) l p)
  /-- One access at a time changes one entry. -/
  one : ∀ t l p l' p', at_ L (t + 1) l p ≠ at_ L t l p → at_ L (t + 1) l' p' ≠ at_ L t l' p' → l = l' ∧ p = p'

/-! ### A shut layer is empty for good -/

theorem Lay.Shut.empty {y : Lay W} {t : Nat} (hr : y.Runs) (h : y.Shut t) {u : Nat} (hu : t ≤ u) (q : Nat) :
    entry (y.hist.m u) q = none := by
  cases y with
  | blink r =>
    show entry ((r u).m) q = none
    unfold entry
    rw [blink_shut hr h hu]
    rfl
  | prune up r =>
    show entry ((r u).m) q = none
    unfold entry
    rw [prune_shut hr h hu]
    rfl

variable {L : Nat → Lay W}

theorem World.shut (h : World L) {t l : Nat} (hs : (L l).Shut t) {u : Nat} (hu : t ≤ u) (q : Nat) : at_ L u l q = none :=
  hs.empty (h.runs l) hu q

/-- A twig is not empty. -/
theorem Twig.ne {t l : Nat} {ρ : Bytes} {w : W} (h : Twig L t l ρ w) : at_ L t l (pos ρ) ≠ none := by
  cases h with
  | val _ he _ => rw [he]; simp
  | suf _ he _ => rw [he]; simp
  | link _ he _ _ => rw [he]; simp

/-- Its key. -/
theorem Twig.key {t l : Nat} {ρ : Bytes} {w : W} (h : Twig L t l ρ w) : ρ ≠ [] := by
  have long : 8 < ρ.length → ρ ≠ [] := by rintro h rfl; simp at h
  cases h with
  | val hρ _ _ => exact hρ.1
  | suf hρ _ _ => exact long hρ
  | link hρ _ _ _ => exact long hρ

/-! ### What is always so -/

structure Holds (L : Nat → Lay W) (t : Nat) : Prop where
  fits : ∀ l p e, at_ L t l p = some e → Fits l p e
  once : ∀ l p l' p' m, at_ L t l p = some (.link m) → at_ L t l' p' = some (.link m) → l = l' ∧ p = p'

theorem Holds.next {t : Nat} (ih : Holds L t)
    (change : ∀ l p, at_ L (t + 1) l p ≠ at_ L t l p → Change L t l p (at_ L t l p) (at_ L (t + 1) l p))
    (one : ∀ l p l' p', at_ L (t + 1) l p ≠ at_ L t l p → at_ L (t + 1) l' p' ≠ at_ L t l' p' → l = l' ∧ p = p') :
    Holds L (t + 1) := by
  have hfits : ∀ l p e, at_ L (t + 1) l p = some e → Fits l p e := by
    intro l p e he
    by_cases hc : at_ L (t + 1) l p = at_ L t l p
    · exact ih.fits l p e (hc ▸ he)
    · have := change l p hc
      rw [he] at this
      generalize hv : at_ L t l p = v at this
      cases this with
      | put _ k w hk hp hl _ => exact .val k w hk hp hl
      | putLong _ ρ w hp hρ _ => exact .suf ρ w hp hρ
      | layer ρ w l' h0 hn ht =>
        cases ih.fits l p _ hv with
        | suf _ _ hp _ => exact .link l' hp h0
  refine ⟨hfits, ?_⟩
  -- a new link is the only one to its layer
  have new : ∀ l p l' p' m, at_ L (t + 1) l p ≠ at_ L t l p → at_ L (t + 1) l p = some (.link m) →
      at_ L (t + 1) l' p' = some (.link m) → l = l' ∧ p = p' := by
    intro l p l' p' m hc h1 h2
    have := change l p hc
    rw [h1] at this
    generalize at_ L t l p = v at this
    cases this with
    | layer ρ w _ h0 hn ht =>
      by_cases hc' : at_ L (t + 1) l' p' = at_ L t l' p'
      · exact absurd (hc' ▸ h2) (hn l' p')
      · exact one l p l' p' hc hc'
  intro l p l' p' m h1 h2
  by_cases hc : at_ L (t + 1) l p = at_ L t l p
  · by_cases hc' : at_ L (t + 1) l' p' = at_ L t l' p'
    · exact ih.once l p l' p' m (hc ▸ h1) (hc' ▸ h2)
    · obtain ⟨e1, e2⟩ := new l' p' l p m hc' h2 h1
      exact ⟨e1.symm, e2.symm⟩
  · exact new l p l' p' m hc h1 h2

theorem World.holds (h : World L) (t : Nat) : Holds L t := by
  induction t with
  | zero => exact ⟨h.fits, h.once⟩
  | succ t ih => exact ih.next (h.change t) (h.one t)

/-- A link stays, or is removed because its layer is shut. -/
theorem World.held (h : World L) {t l p m : Nat} (he : at_ L t l p = some (.link m)) :
    at_ L (t + 1) l p = some (.link m) ∨ at_ L (t + 1) l p = none ∧ ∃ x, x ≤ t ∧ (L m).Shut x := by
  by_cases hc : at_ L (t + 1) l p = at_ L t l p
  · exact Or.inl (hc.trans he)
  · have := h.change t l p hc
    rw [he] at this
    generalize hv : at_ L (t + 1) l p = v at this
    cases this with
    | put _ k w hk hp hl hv' =>
      obtain ⟨_, h1⟩ := hv' _ rfl
      cases h1
    | putLong _ ρ w hp hρ hv' =>
      obtain ⟨_, h1⟩ := hv' _ rfl
      cases h1
    | collect _ x hx hs => exact Or.inr ⟨rfl, x, hx, hs⟩

theorem pos_zero {k : Bytes} (h : pos k = 0) : k = [] := by
  unfold pos at h
  cases k with
  | nil => rfl
  | cons a k => simp only [List.length_cons] at h; omega

/-- What scans assume of the tree. -/
theorem World.tree (h : World L) : Tree fun l => (L l).hist where
  val l u p w he := by
    cases (h.holds u).fits l p _ he with
    | val k _ hk hp _ => exact ⟨k, hk, hp⟩
  suf l u p ρ w he := by
    cases (h.holds u).fits l p _ he with
    | suf _ _ hp hρ => exact ⟨hp, hρ⟩
  link l u p l' he := by
    cases (h.holds u).fits l p _ he with
    | link _ hp hl =>
      refine ⟨hp, fun u' => ?_⟩
      cases hv : at_ L u' l' 0 with
      | none => exact hv
      | some e =>
        exfalso
        have slot0 : ¬ Slot 0 := fun h => by have := h.mod; omega
        cases (h.holds u').fits l' 0 e hv with
        | val k w hk hp0 hne => exact hne hl (pos_zero hp0.symm)
        | suf _ _ hp0 _ => exact slot0 hp0
        | link _ hp0 _ => exact slot0 hp0
  held l u p l' he := by
    rcases h.held he with h1 | ⟨_, x, hx, h1⟩
    · exact Or.inl h1
    · exact Or.inr fun u' hu q => h.shut h1 (by omega) q

end Verif.Range
