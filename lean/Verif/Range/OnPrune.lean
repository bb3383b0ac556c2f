import Verif.Range.Sound
import Verif.Prune.Trace

/-!
# Scans of a layer with removals of leaves
-/
namespace Verif.Range

open Verif.Prune

variable {V : Type}

/-- What a scan reads of a run of `Verif.Prune`. -/
def prune (r : Nat → State (Nat → Option V)) : Hist V where
  leaf t n := n < (r t).fresh ∧ (r t).leaf n = true
  ins t := (r t).ins
  spl t := (r t).spl
  clean t := (r t).clean
  dead t := (r t).dead
  items t := (r t).items
  next t := (r t).next
  lo t := (r t).lo
  walk t k n vi vs := ∃ i, (r t).pc i = .at_ n vi vs ∧ (r t).leaf n = true ∧ (r t).key i = k ∧
    ((r t).spl n = vs → (r t).dS n = false → (r t).dead n = false)
  hi t := (r t).hi
  m t := (r t).m

/-- A leaf that has been unlinked links to where it ended. -/
def Left {G : Type} (s : State G) : Prop := ∀ n, n < s.fresh → s.leaf n = true → s.gone n = true →
  (∀ q, s.next n = some q → s.lo q ≤ s.hi n) ∧ (s.next n = none → s.hi n = top)

section
variable {G : Type} {up : List Nat → Nat → Nat} {s s' : State G}

theorem removeKid_keeps (p : Nat) (q : Option Nat) (ik : Nat) :
    (s.removeKid up p q ik).hi = s.hi ∧ (s.removeKid up p q ik).next = s.next ∧ (s.removeKid up p q ik).lo = s.lo ∧
    (s.removeKid up p q ik).leaf = s.leaf ∧ (s.removeKid up p q ik).gone = s.gone ∧ (s.removeKid up p q ik).fresh = s.fresh ∧
    (s.removeKid up p q ik).m = s.m := by
  unfold State.removeKid
  cases q with
  | some c => exact ⟨rfl, rfl, rfl, rfl, rfl, rfl, rfl⟩
  | none => dsimp only; split <;> exact ⟨rfl, rfl, rfl, rfl, rfl, rfl, rfl⟩

/-- The range of a leaf grows only into a range without entries. -/
theorem prune_hi (h : Inv s) (hs : Prune.Step up s s') {n k : Nat} (hn : n < s.fresh) (hl : s.leaf n = true)
    (h1 : s.hi n ≤ k) (h2 : k < s'.hi n) : s.m k = none := by
  have hne : n ≠ s.fresh := by omega
  cases hs with
  | split i q x hp hx hy => simp [State.to, State.splitLeaf, hne] at h2; omega
  | newRoot i q c x t hp hr => simp [State.to, State.newRoot, hne] at h2; omega
  | wedge i p q c x t hp => simp [State.to, State.wedge, hne] at h2; omega
  | splitKid i p q c x mid y d t hp =>
    have hloc := h.loc i
    rw [hp] at hloc
    have hp' : s.leaf p = false := hloc.2.2.2.2.1.2
    have : n ≠ p := by rintro rfl; rw [hl] at hp'; cases hp'
    simp [State.to, State.splitKid, hne, this] at h2
    omega
  | strip i q c x p nx hp =>
    have hloc := h.loc i
    rw [hp] at hloc
    have := hloc.2.2.1.2.2.2.2.2.2.1
    by_cases hq : n = q
    · subst hq; simp [State.to] at h2; omega
    · simp [State.to, hq] at h2; omega
  | unlink i q p hp hq hl' hg hnx =>
    have hloc := h.loc i
    rw [hp] at hloc
    obtain ⟨l1, l2, l3, l4, l5, l6, l7⟩ := hloc
    have h2 : k < if s.lo q ≤ s.hi n ∧ s.hi n ≤ s.hi q then s.hi q else s.hi n := h2
    split at h2
    · rw [← h.val q k l1 l2 l4 (by omega) (by omega)]; exact l7 k
    · omega
  | isParentD i q p n' ik y u hp hq =>
    have h2 : k < (if q = p then s else s.unlock q).hi n := h2
    split at h2
    · omega
    · have h2 : k < s.hi n := h2
      omega
  | removeKid i p n' ik q hp =>
    have h2 : k < (s.removeKid up p q ik).hi n := h2
    rw [(removeKid_keeps p q ik).1] at h2
    omega
  | _ => exact absurd h2 (by show ¬ k < s.hi n; omega)

theorem left_step (h : Inv s) (hs : Prune.Step up s s') (hf : Left s) : Left s' := by
  intro n hn hl hg
  cases hs with
  | split i q x hp hx hy =>
    have hq := h.loc i
    rw [hp] at hq
    obtain ⟨l1, l2, l3, l4, l5, l6⟩ := hq
    have hne : n ≠ s.fresh := by rintro rfl; simp [State.to, State.splitLeaf] at hg
    have hnf : n < s.fresh := by
      have : n < s.fresh + 1 := hn
      omega
    simp only [State.to, State.splitLeaf, Function.update_of_ne hne] at hl hg
    have hnq : n ≠ q := by rintro rfl; rw [hg] at l6; cases l6
    simp only [State.to, State.splitLeaf, Function.update_of_ne hne, Function.update_of_ne hnq]
    obtain ⟨h1, h2⟩ := hf n hnf hl hg
    refine ⟨fun z hz => ?_, h2⟩
    have := (h.next n z hnf hl hz).1
    rw [Function.update_of_ne (by omega)]
    exact h1 z hz
  | newRoot i q c x t hp hr =>
    have hne : n ≠ s.fresh := by rintro rfl; simp [State.to, State.newRoot] at hl
    have hnf : n < s.fresh := by
      have : n < s.fresh + 1 := hn
      omega
    simp only [State.to, State.newRoot, Function.update_of_ne hne] at hl hg ⊢
    obtain ⟨h1, h2⟩ := hf n hnf hl hg
    refine ⟨fun z hz => ?_, h2⟩
    have := (h.next n z hnf hl hz).1
    rw [Function.update_of_ne (by omega)]
    exact h1 z hz
  | wedge i p q c x t hp =>
    have hne : n ≠ s.fresh := by rintro rfl; simp [State.to, State.wedge] at hl
    have hnf : n < s.fresh := by
      have : n < s.fresh + 1 := hn
      omega
    simp only [State.to, State.wedge, Function.update_of_ne hne] at hl hg ⊢
    obtain ⟨h1, h2⟩ := hf n hnf hl hg
    refine ⟨fun z hz => ?_, h2⟩
    have := (h.next n z hnf hl hz).1
    rw [Function.update_of_ne (by omega)]
    exact h1 z hz
  | splitKid i p q c x mid y d t hp =>
    have hloc := h.loc i
    rw [hp] at hloc
    have hp' : s.leaf p = false := hloc.2.2.2.2.1.2
    have hne : n ≠ s.fresh := by rintro rfl; simp [State.to, State.splitKid] at hl
    have hnf : n < s.fresh := by
      have : n < s.fresh + 1 := hn
      omega
    simp only [State.to, State.splitKid, Function.update_of_ne hne] at hl hg
    have hnp : n ≠ p := by rintro rfl; rw [hl] at hp'; cases hp'
    simp only [State.to, State.splitKid, Function.update_of_ne hne, Function.update_of_ne hnp]
    obtain ⟨h1, h2⟩ := hf n hnf hl hg
    refine ⟨fun z hz => ?_, h2⟩
    have := (h.next n z hnf hl hz).1
    rw [Function.update_of_ne (by omega)]
    exact h1 z hz
  | strip i q c x p nx hp =>
    have hloc := h.loc i
    rw [hp] at hloc
    have hq : s.gone q = false := hloc.2.2.1.2.2.2.2.2.2.2.2.1
    have hg : s.gone n = true := hg
    have hnq : n ≠ q := by intro e; rw [← e, hg] at hq; cases hq
    simp only [State.to, Function.update_of_ne hnq]
    exact hf n hn hl hg
  | unlink i q p hp hq hl' hg' hnx =>
    have hloc := h.loc i
    rw [hp] at hloc
    obtain ⟨l1, l2, l3, l4, l5, l6, l7⟩ := hloc
    have hn : n < s.fresh := hn
    have hl : s.leaf n = true := hl
    have hsame : Function.update s.next p (s.next q) n = s.next n := by
      by_cases hnp : n = p
      · subst hnp
        by_cases hnq : n = q
        · subst hnq; simp
        · have hg : Function.update s.gone q true n = true := hg
          rw [Function.update_of_ne hnq, hg'] at hg; cases hg
      · rw [Function.update_of_ne hnp]
    have hold : (∀ z, s.next n = some z → s.lo z ≤ s.hi n) ∧ (s.next n = none → s.hi n = top) := by
      by_cases hnq : n = q
      · subst hnq
        exact ⟨fun z hz => (h.next n z l1 l2 hz).2.2 l4, h.last n l1 l2 l4⟩
      · have hg : Function.update s.gone q true n = true := hg
        rw [Function.update_of_ne hnq] at hg
        exact hf n hn hl hg
    have hrng := (h.rng q l1).2.2.2
    show (∀ z, Function.update s.next p (s.next q) n = some z →
        s.lo z ≤ if s.lo q ≤ s.hi n ∧ s.hi n ≤ s.hi q then s.hi q else s.hi n) ∧
      (Function.update s.next p (s.next q) n = none → (if s.lo q ≤ s.hi n ∧ s.hi n ≤ s.hi q then s.hi q else s.hi n) = top)
    rw [hsame]
    refine ⟨fun z hz => ?_, fun hz => ?_⟩
    · have := hold.1 z hz
      split <;> omega
    · have := hold.2 hz
      split <;> omega
  | isParentD i q p n' ik y u hp hq =>
    have e : ∀ (x : State G), (if q = p then x else x.unlock q).fresh = x.fresh ∧ (if q = p then x else x.unlock q).leaf = x.leaf ∧
        (if q = p then x else x.unlock q).gone = x.gone ∧ (if q = p then x else x.unlock q).next = x.next ∧
        (if q = p then x else x.unlock q).lo = x.lo ∧ (if q = p then x else x.unlock q).hi = x.hi := by
      intro x; split <;> exact ⟨rfl, rfl, rfl, rfl, rfl, rfl⟩
    obtain ⟨e1, e2, e3, e4, e5, e6⟩ := e s
    simp only [State.to, e1, e2, e3, e4, e5, e6] at hn hl hg ⊢
    exact hf n hn hl hg
  | removeKid i p n' ik q hp =>
    obtain ⟨e1, e2, e3, e4, e5, e6, e7⟩ := removeKid_keeps (s := s) (up := up) p q ik
    simp only [State.to, e1, e2, e3, e4, e5, e6] at hn hl hg ⊢
    exact hf n hn hl hg
  | _ => exact hf n hn hl hg

theorem left_run {r : Nat → State G} (h : TidyRun up r) (t : Nat) : Left (r t) := by
  induction t with
  | zero =>
    intro n hn hl hg
    have hf := h.init.fresh
    obtain rfl : n = 0 := by omega
    rw [h.init.dead.2] at hg; cases hg
  | succ t ih =>
    rcases h.step t with h1 | h1
    · rw [h1]; exact ih
    · exact left_step (h.inv t) h1 ih

end

theorem prune_sound {up : List Nat → Nat → Nat} {r : Nat → State (Nat → Option V)} (h : TidyRun up r) : (prune r).Sound where
  leaf t n hn := ⟨Nat.lt_of_lt_of_le hn.1 (h.mono t).fresh, by
    show (r (t + 1)).leaf n = true
    rw [(h.mono t).leaf n hn.1]; exact hn.2⟩
  lo t n hn := (h.mono t).lo n hn.1
  ins t n hn := (h.mono t).ins n hn.1
  spl t n hn := (h.mono t).spl n hn.1
  back t n vi vs hn h1 h2 ho := by
    obtain ⟨o1, o2, o3, o4⟩ := ho
    obtain ⟨⟨s1, s2, s3⟩, _⟩ := Same.mono (h.mono t) hn.1 h1 h2 ⟨o1, o2, o3⟩
    have o3' : (r (t + 1)).spl n = vs := o3
    obtain ⟨h3, h4, h5⟩ := (h.mono t).hi n hn.1 (by rw [o3', s3]) o1.2
    exact ⟨⟨s1, s2, s3, h4.symm.trans o4⟩, h5⟩
  grow t n k hn h1 h2 := by
    rcases h.step t with h3 | h3
    · have h1 : (r t).hi n ≤ k := h1
      have h2 : k < (r (t + 1)).hi n := h2
      rw [h3] at h2
      omega
    · exact prune_hi (h.inv t) h3 hn.1 hn.2 h1 h2
  top t n hn := by
    have := ((h.inv t).rng n hn.1).2.2.2
    unfold top at this
    exact this
  val t n k hn hd := (h.inv t).val n k hn.1 hn.2 (by
    cases hg : (r t).gone n with
    | false => rfl
    | true => rw [((h.inv t).gone n hn.1 hg).2.1.symm.trans hd])
  dom t n k hn hd := (h.inv t).dom n k hn.1 hn.2 (by
    cases hg : (r t).gone n with
    | false => rfl
    | true => rw [((h.inv t).gone n hn.1 hg).2.1.symm.trans hd])
  next t n q hn hq := by
    obtain ⟨h1, h2, h3⟩ := (h.inv t).next n q hn.1 hn.2 hq
    refine ⟨⟨h1, h2⟩, ?_⟩
    cases hg : (r t).gone n with
    | false => exact h3 hg
    | true => exact (left_run h t n hn.1 hn.2 hg).1 q hq
  last t n hn hq := by
    have : (r t).hi n = top := by
      cases hg : (r t).gone n with
      | false => exact (h.inv t).last n hn.1 hn.2 hg hq
      | true => exact (left_run h t n hn.1 hn.2 hg).2 hq
    unfold top at this
    exact this
  walk t k n vi vs hw := by
    obtain ⟨i, h1, h2, h3, h4⟩ := hw
    have hl := (h.inv t).loc i
    rw [h1, h3] at hl
    obtain ⟨⟨l1, l2, l3, l4⟩, l5⟩ := hl
    exact ⟨⟨l1, h2⟩, l2, l5, l3, fun ho => l4 ho.2.2.1 ho.1.2 ho.2.2.2⟩

end Verif.Range
