import Verif.Range.OnBlink
import Verif.Range.OnPrune
import Mathlib.Tactic.ByContra

/-!
# Layers that nobody can change any more

`gc_layer` locks the root of a layer, which is an empty leaf, and marks it (`mark_deleted_layer`).  Whoever locks the leaf
afterwards finds the mark and leaves it as it is: it does not split it and publishes nothing.
-/
namespace Verif.Range

/-! ### Without removals of leaves -/

section
open Verif.Blink

variable {G : Type}

/-- The map has only key slices. -/
theorem blink_small {r : Nat → State G} (h : Run r) (t : Nat) {k : Nat} (hk : (r t).m k ≠ none) : k < top := by
  induction t with
  | zero => exact h.init.small k hk
  | succ t ih =>
    rcases h.step t with h1 | h1
    · rw [h1] at hk; exact ih hk
    · rcases step_map (h.inv t) h1 with ⟨h2, _⟩ | ⟨i, f, ⟨_, n, h2, _⟩, h3, _⟩
      · rw [h2] at hk; exact ih hk
      · by_cases hki : k = (r t).key i
        · subst hki
          exact (h.inv t).key i (by rw [h2]; simp)
        · rw [h3, Function.update_of_ne hki] at hk; exact ih hk

/-- After a publication a thread unlocks the leaf. -/
theorem blink_pub {s s' : State G} (hs : Blink.Step s s') {n j : Nat} (hp : s.pc j = .pub n) (hj : s'.lock n = some j) :
    s'.pc j = .pub n := by
  cases hs <;>
    (try simp only [State.to, State.unlock, State.splitLeaf, State.newRoot, State.splitKid, State.insertKid,
      Function.update_apply] at hj ⊢) <;>
    grind

/-- Who locks a leaf, holds it. -/
theorem blink_lock {s s' : State G} (h : Inv s) (hs : Blink.Step s s') {n j : Nat} (hn : n < s.fresh) (hl : s.leaf n = true)
    (hj : s'.lock n = some j) : s.lock n = some j ∨ s'.pc j = .hold n := by
  have hne : n ≠ s.fresh := by omega
  cases hs with
  | lockParent i q c x p t hp hp' hl' =>
    have h1 := h.loc i
    rw [hp] at h1
    have : n ≠ p := by
      rintro rfl
      have := h.parent q n h1.1.1.1 hp'
      rw [this.2] at hl; cases hl
    left
    simpa [State.to, this] using hj
  | _ =>
    clear h
    (try simp only [State.to, State.unlock, State.splitLeaf, State.newRoot, State.splitKid, State.insertKid,
      Function.update_apply] at hj ⊢)
    grind

/-- A leaf that nobody splits keeps its range. -/
theorem blink_hold {s s' : State G} (h : Inv s) (hs : Blink.Step s s') {n : Nat} (hn : n < s.fresh)
    (hP : ∀ j, s.lock n = some j → s.pc j = .hold n ∨ s.pc j = .pub n) : s'.hi n = s.hi n := by
  have hne : n ≠ s.fresh := by omega
  cases hs with
  | split j q x hp hx hy => simp [State.to, State.splitLeaf, hne]
  | newRoot j q c x t hp hr => simp [State.to, State.newRoot, hne]
  | splitKid j p q c x mid y t hp => simp [State.to, State.splitKid, hne]
  | strip j q c x p nx hp =>
    have : n ≠ q := by
      rintro rfl
      rcases hP j (h.own j n (by rw [hp]; exact Or.inr (Or.inr (Or.inl rfl)))) with h1 | h1 <;> (rw [h1] at hp; cases hp)
    simp [State.to, this]
  | unlockLeft j q c x t p nx hp =>
    have : n ≠ q := by
      rintro rfl
      rcases hP j (h.own j n (by rw [hp]; exact Or.inr (Or.inr (Or.inl rfl)))) with h1 | h1 <;> (rw [h1] at hp; cases hp)
    simp [State.to, this]
  | _ => rfl

/-- A thread has locked leaf `n`, the root of the layer, found it empty and marked it, at time `t`.  Who locks it afterwards
publishes nothing and unlocks it. -/
def BlinkShut (r : Nat → State G) (t : Nat) : Prop :=
  ∃ i n, (r t).pc i = .hold n ∧ (r t).root = n ∧ (r t).rt n = true ∧ (r t).dS n = false ∧ (∀ k, (r t).items n k = none) ∧
    ∀ u j, t ≤ u → (r u).pc j = .hold n →
      (r (u + 1)).pc j = .hold n ∨ (r (u + 1)).pc j = .pub n ∧ ∀ f, (r u).fn j = some f → f none = none

theorem blink_shut {r : Nat → State G} (h : Run r) {t : Nat} (hs : BlinkShut r t) {u : Nat} (hu : t ≤ u) (k : Nat) :
    (r u).m k = none := by
  obtain ⟨i, n, hp, hr, hrt, hd, he, hD⟩ := hs
  have key : ∀ d, n < (r (t + d)).fresh ∧ (r (t + d)).leaf n = true ∧ (r (t + d)).lo n = 0 ∧ (r (t + d)).hi n = top ∧
      (∀ j, (r (t + d)).lock n = some j → (r (t + d)).pc j = .hold n ∨ (r (t + d)).pc j = .pub n) ∧
      ∀ k, (r (t + d)).m k = none := by
    intro d
    induction d with
    | zero =>
      have hi := h.inv t
      have l := hi.loc i
      rw [hp] at l
      have h0 : (r t).lo n = 0 := by rw [← hr]; exact hi.root.2
      have h1 := hi.rt n l.1 hrt h0 hd
      refine ⟨l.1, l.2.1, h0, h1, fun j hj => ?_, fun k => ?_⟩
      · have := hi.own i n (by rw [hp]; rfl)
        change (r t).lock n = some j at hj
        rw [this] at hj
        cases hj
        exact Or.inl hp
      · by_contra hk
        have hk' := blink_small h t hk
        exact hk (by show (r t).m k = none; rw [← hi.val n k l.1 l.2.1 (by omega) (by rw [h1]; exact hk')]; exact he k)
    | succ d ih =>
      obtain ⟨i1, i2, i3, i4, i5, i6⟩ := ih
      rw [← Nat.add_assoc]
      rcases h.step (t + d) with h1 | h1
      · rw [h1]; exact ⟨i1, i2, i3, i4, i5, i6⟩
      · have hm := h.mono (t + d)
        have hi := h.inv (t + d)
        refine ⟨Nat.lt_of_lt_of_le i1 hm.fresh, by rw [hm.leaf n i1]; exact i2, by rw [hm.lo n i1]; exact i3,
          by rw [blink_hold hi h1 i1 i5]; exact i4, fun j hj => ?_, fun k => ?_⟩
        · rcases blink_lock hi h1 i1 i2 hj with h2 | h2
          · rcases i5 j h2 with h3 | h3
            · rcases hD (t + d) j (by omega) h3 with h4 | h4
              · exact Or.inl h4
              · exact Or.inr h4.1
            · exact Or.inr (blink_pub h1 h3 hj)
          · exact Or.inl h2
        · rcases step_map hi h1 with ⟨h5, _⟩ | ⟨j, f, ⟨h5, q, h6, h7⟩, h8, _⟩
          · rw [h5]; exact i6 k
          · by_cases hq : n = q
            · subst hq
              rcases hD (t + d) j (by omega) h6 with h9 | h9
              · rw [h7] at h9; cases h9
              · rw [h8]
                by_cases hk : k = (r (t + d)).key j
                · subst hk; rw [Function.update_self, i6]; exact h9.2 f h5
                · rw [Function.update_of_ne hk]; exact i6 k
            · exfalso
              have ho' := hi.own j q (by rw [h6]; rfl)
              have l2 := hi.loc j
              rw [h6] at l2
              have := (hi.disj n q _ i1 l2.1 hq i2 l2.2.1 (by omega) (by rw [i4]; exact hi.key j (by rw [h6]; simp))
                l2.2.2.1 l2.2.2.2).2.1
              rw [ho'] at this
              rcases i5 j this with h9 | h9 <;> rw [h6] at h9 <;> cases h9
              exact hq rfl
  have := (key (u - t)).2.2.2.2.2 k
  rwa [show t + (u - t) = u by omega] at this

end

/-! ### With removals of leaves -/

section
open Verif.Prune

variable {G : Type} {up : List Nat → Nat → Nat}

/-- The map has only key slices. -/
theorem prune_small {r : Nat → State G} (h : TidyRun up r) (t : Nat) {k : Nat} (hk : (r t).m k ≠ none) : k < top := by
  induction t with
  | zero => exact h.init.small k hk
  | succ t ih =>
    rcases h.step t with h1 | h1
    · rw [h1] at hk; exact ih hk
    · rcases step_map (h.inv t) h1 with ⟨h2, _⟩ | ⟨i, f, ⟨_, n, h2, _⟩, h3, _⟩
      · rw [h2] at hk; exact ih hk
      · by_cases hki : k = (r t).key i
        · subst hki
          exact (h.inv t).key i (by rw [h2]; simp)
        · rw [h3, Function.update_of_ne hki] at hk; exact ih hk

/-- After a publication a thread unlocks the first leaf. -/
theorem prune_pub {s s' : State G} (hs : Prune.Step up s s') {n j : Nat} (h0 : s.lo n = 0) (hp : s.pc j = .pub n)
    (hj : s'.lock n = some j) : s'.pc j = .pub n := by
  cases hs <;>
    (try simp only [State.to, State.unlock, State.splitLeaf, State.newRoot, State.splitKid, State.insertKid, State.wedge,
      State.unlink, State.removeKid, Function.update_apply] at hj ⊢) <;>
    grind

/-- Who locks a leaf, holds it. -/
theorem prune_lock {s s' : State G} (h : Inv s) (hs : Prune.Step up s s') {n j : Nat} (hn : n < s.fresh) (hl : s.leaf n = true)
    (hj : s'.lock n = some j) : s.lock n = some j ∨ s'.pc j = .hold n := by
  have hne : n ≠ s.fresh := by omega
  have inner : ∀ {q p : Nat}, q < s.fresh → s.parent q = some p → n ≠ p := by
    rintro q p hq hp rfl
    have := (h.parent q n hq hp).2.1
    rw [this] at hl; cases hl
  cases hs with
  | lockParent i q c x p t hp hp' hl' =>
    have h1 := h.loc i
    rw [hp] at h1
    left
    simpa [State.to, inner h1.1.1.1 hp'] using hj
  | lockParentR i q p ik t hp hp' hl' =>
    have h1 := h.loc i
    rw [hp] at h1
    left
    have : q < s.fresh := by cases t <;> exact h1.1
    simpa [State.to, inner this hp'] using hj
  | lockParentD i q p n' ik y u hp hp' hl' =>
    have h1 := h.loc i
    rw [hp] at h1
    left
    simpa [State.to, inner h1.2.1.1 hp'] using hj
  | isParentD i q p n' ik y u hp hp' =>
    left
    by_cases hq : q = p
    · simpa [State.to, hq] using hj
    · simp only [State.to, if_neg hq, State.unlock, Function.update_apply] at hj
      split at hj
      · cases hj
      · exact hj
  | _ =>
    clear h inner
    (try simp only [State.to, State.unlock, State.splitLeaf, State.newRoot, State.splitKid, State.insertKid, State.wedge,
      State.unlink, State.removeKid, Function.update_apply] at hj ⊢)
    grind

/-- A leaf that nobody splits keeps its end. -/
theorem prune_hold {s s' : State G} (h : Inv s) (hs : Prune.Step up s s') {n : Nat} (hn : n < s.fresh)
    (hP : ∀ j, s.lock n = some j → s.pc j = .hold n ∨ s.pc j = .pub n) (ht : s.hi n = top) : s'.hi n = top := by
  have hne : n ≠ s.fresh := by omega
  cases hs with
  | split j q x hp hx hy => simp [State.to, State.splitLeaf, hne, ht]
  | newRoot j q c x t hp hr => simp [State.to, State.newRoot, hne, ht]
  | wedge j p q c x t hp => simp [State.to, State.wedge, hne, ht]
  | splitKid j p q c x mid y d t hp =>
    have : n ≠ p := by
      rintro rfl
      rcases hP j (h.own j n (by rw [hp]; exact Or.inl rfl)) with h1 | h1 <;> (rw [h1] at hp; cases hp)
    simp [State.to, State.splitKid, hne, this, ht]
  | strip j q c x p nx hp =>
    have : n ≠ q := by
      rintro rfl
      rcases hP j (h.own j n (by rw [hp]; exact Or.inr (Or.inr (Or.inl rfl)))) with h1 | h1 <;> (rw [h1] at hp; cases hp)
    simp [State.to, this, ht]
  | unlink j q p hp hq hl' hg hnx =>
    have hj := h.loc j
    rw [hp] at hj
    have := (h.rng q hj.1).2.2.2
    show (if s.lo q ≤ s.hi n ∧ s.hi n ≤ s.hi q then s.hi q else s.hi n) = top
    split
    · omega
    · exact ht
  | isParentD j q p n' ik y u hp hq =>
    show (if q = p then s else s.unlock q).hi n = top
    split <;> exact ht
  | removeKid j p n' ik q hp =>
    show (s.removeKid up p q ik).hi n = top
    rw [(removeKid_keeps p q ik).1]; exact ht
  | _ => exact ht

/-- The first leaf is not removed. -/
theorem prune_first {s s' : State G} (h : Inv s) (hs : Prune.Step up s s') {n : Nat} (hn : n < s.fresh) (h0 : s.lo n = 0)
    (hg : s.gone n = false) : s'.gone n = false := by
  have hne : n ≠ s.fresh := by omega
  cases hs with
  | split j q x hp hx hy => simp [State.to, State.splitLeaf, hne, hg]
  | newRoot j q c x t hp hr => simp [State.to, State.newRoot, hne, hg]
  | wedge j p q c x t hp => simp [State.to, State.wedge, hne, hg]
  | splitKid j p q c x mid y d t hp => simp [State.to, State.splitKid, hne, hg]
  | unlink j q p hp hq hl' hg' hnx =>
    have hj := h.loc j
    rw [hp] at hj
    have : n ≠ q := by rintro rfl; exact hj.2.2.2.2.1 h0
    show Function.update s.gone q true n = false
    rw [Function.update_of_ne this]; exact hg
  | isParentD j q p n' ik y u hp hq =>
    show (if q = p then s else s.unlock q).gone n = false
    split <;> exact hg
  | removeKid j p n' ik q hp =>
    show (s.removeKid up p q ik).gone n = false
    unfold State.removeKid
    dsimp only
    split
    · exact hg
    · split <;> exact hg
  | _ => exact hg

/-- As `BlinkShut`. -/
def PruneShut (r : Nat → State G) (t : Nat) : Prop :=
  ∃ i n, (r t).pc i = .hold n ∧ (r t).root = n ∧ (r t).rt n = true ∧ (r t).dS n = false ∧ (∀ k, (r t).items n k = none) ∧
    ∀ u j, t ≤ u → (r u).pc j = .hold n →
      (r (u + 1)).pc j = .hold n ∨ (r (u + 1)).pc j = .pub n ∧ ∀ f, (r u).fn j = some f → f none = none

theorem prune_shut {r : Nat → State G} (h : TidyRun up r) {t : Nat} (hs : PruneShut r t) {u : Nat} (hu : t ≤ u) (k : Nat) :
    (r u).m k = none := by
  obtain ⟨i, n, hp, hr, hrt, hd, he, hD⟩ := hs
  have key : ∀ d, n < (r (t + d)).fresh ∧ (r (t + d)).leaf n = true ∧ (r (t + d)).lo n = 0 ∧ (r (t + d)).hi n = top ∧
      (r (t + d)).gone n = false ∧
      (∀ j, (r (t + d)).lock n = some j → (r (t + d)).pc j = .hold n ∨ (r (t + d)).pc j = .pub n) ∧
      ∀ k, (r (t + d)).m k = none := by
    intro d
    induction d with
    | zero =>
      have hi := h.inv t
      have l := hi.loc i
      rw [hp] at l
      have h0 : (r t).lo n = 0 := by rw [← hr]; exact hi.root.2
      have h1 := hi.rt n l.1 hrt h0 hd
      refine ⟨l.1, l.2.1, h0, h1, l.2.2.2.2.2, fun j hj => ?_, fun k => ?_⟩
      · have := hi.own i n (by rw [hp]; rfl)
        change (r t).lock n = some j at hj
        rw [this] at hj
        cases hj
        exact Or.inl hp
      · by_contra hk
        have hk' := prune_small h t hk
        exact hk (by
          show (r t).m k = none
          rw [← hi.val n k l.1 l.2.1 l.2.2.2.2.2 (by omega) (by rw [h1]; exact hk')]
          exact he k)
    | succ d ih =>
      obtain ⟨i1, i2, i3, i4, ig, i5, i6⟩ := ih
      rw [← Nat.add_assoc]
      rcases h.step (t + d) with h1 | h1
      · rw [h1]; exact ⟨i1, i2, i3, i4, ig, i5, i6⟩
      · have hm := h.mono (t + d)
        have hi := h.inv (t + d)
        refine ⟨Nat.lt_of_lt_of_le i1 hm.fresh, by rw [hm.leaf n i1]; exact i2, by rw [hm.lo n i1]; exact i3,
          prune_hold hi h1 i1 i5 i4, prune_first hi h1 i1 i3 ig, fun j hj => ?_, fun k => ?_⟩
        · rcases prune_lock hi h1 i1 i2 hj with h2 | h2
          · rcases i5 j h2 with h3 | h3
            · rcases hD (t + d) j (by omega) h3 with h4 | h4
              · exact Or.inl h4
              · exact Or.inr h4.1
            · exact Or.inr (prune_pub h1 i3 h3 hj)
          · exact Or.inl h2
        · rcases step_map hi h1 with ⟨h5, _⟩ | ⟨j, f, ⟨h5, q, h6, h7⟩, h8, _⟩
          · rw [h5]; exact i6 k
          · by_cases hq : n = q
            · subst hq
              rcases hD (t + d) j (by omega) h6 with h9 | h9
              · rw [h7] at h9; cases h9
              · rw [h8]
                by_cases hk : k = (r (t + d)).key j
                · subst hk; rw [Function.update_self, i6]; exact h9.2 f h5
                · rw [Function.update_of_ne hk]; exact i6 k
            · exfalso
              have ho' := hi.own j q (by rw [h6]; rfl)
              have l2 := hi.loc j
              rw [h6] at l2
              have := (hi.disj n q _ i1 l2.1 hq i2 l2.2.1 ig l2.2.2.2.2.2 (by omega)
                (by rw [i4]; exact hi.key j (by rw [h6]; simp)) l2.2.2.1 l2.2.2.2.1).2.1
              rw [ho'] at this
              rcases i5 j this with h9 | h9 <;> rw [h6] at h9 <;> cases h9
              exact hq rfl
  have := (key (u - t)).2.2.2.2.2.2 k
  rwa [show t + (u - t) = u by omega] at this

end

end Verif.Range
