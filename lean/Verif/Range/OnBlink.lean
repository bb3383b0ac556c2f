import Verif.Range.Sound
import Verif.Blink.Trace

/-!
# Scans of a layer without removals of leaves
-/
namespace Verif.Range

open Verif.Blink

variable {V : Type}

/-- What a scan reads of a run of `Verif.Blink`. -/
def blink (r : Nat → State (Nat → Option V)) : Hist V where
  leaf t n := n < (r t).fresh ∧ (r t).leaf n = true
  ins t := (r t).ins
  spl t := (r t).spl
  clean t := (r t).clean
  dead _ _ := false
  items t := (r t).items
  next t := (r t).next
  lo t := (r t).lo
  walk t k n vi vs := ∃ i, (r t).pc i = .at_ n vi vs ∧ (r t).leaf n = true ∧ (r t).key i = k
  hi t := (r t).hi
  m t := (r t).m

/-- The range of a node does not grow. -/
theorem blink_hi {G : Type} {s s' : State G} (h : Inv s) (hs : Blink.Step s s') {n : Nat} (hn : n < s.fresh) :
    s'.hi n ≤ s.hi n := by
  have hne : n ≠ s.fresh := by omega
  cases hs with
  | split i q x hp hx hy => simp [State.to, State.splitLeaf, hne]
  | newRoot i q c x t hp hr => simp [State.to, State.newRoot, hne]
  | splitKid i p q c x mid y t hp => simp [State.to, State.splitKid, hne]
  | strip i q c x p nx hp =>
    have hl := h.loc i
    rw [hp] at hl
    have := hl.1.2.2.2.2.2.1
    by_cases hq : n = q
    · subst hq; simp [State.to]; omega
    · simp [State.to, hq]
  | unlockLeft i q c x t p nx hp =>
    have hl := h.loc i
    rw [hp] at hl
    have := hl.1.2.2.2.2.2.1
    by_cases hq : n = q
    · subst hq; simp [State.to]; omega
    · simp [State.to, hq]
  | _ => exact Nat.le_refl _

theorem blink_sound {r : Nat → State (Nat → Option V)} (h : Run r) : (blink r).Sound where
  leaf t n hn := ⟨Nat.lt_of_lt_of_le hn.1 (h.mono t).fresh, by
    show (r (t + 1)).leaf n = true
    rw [(h.mono t).leaf n hn.1]; exact hn.2⟩
  lo t n hn := (h.mono t).lo n hn.1
  ins t n hn := (h.mono t).ins n hn.1
  spl t n hn := (h.mono t).spl n hn.1
  back t n vi vs hn h1 h2 ho := by
    obtain ⟨o1, o2, o3, _⟩ := ho
    obtain ⟨⟨s1, s2, s3⟩, _⟩ := Same.mono (h.mono t) hn.1 h1 h2 ⟨o1, o2, o3⟩
    refine ⟨⟨s1, s2, s3, rfl⟩, Nat.le_of_eq ?_⟩
    exact ((h.mono t).hi n hn.1 (by have o3' : (r (t + 1)).spl n = vs := o3
                                    rw [o3', s3]) o1.2).2.symm
  grow t n k hn h1 h2 := by
    have : (r (t + 1)).hi n ≤ (r t).hi n := by
      rcases h.step t with h3 | h3
      · rw [h3]; exact Nat.le_refl _
      · exact blink_hi (h.inv t) h3 hn.1
    have h1 : (r t).hi n ≤ k := h1
    have h2 : k < (r (t + 1)).hi n := h2
    omega
  top t n hn := by
    have := ((h.inv t).rng n hn.1).2.2.1
    unfold top at this
    exact this
  val t n k hn _ := (h.inv t).val n k hn.1 hn.2
  dom t n k hn _ := (h.inv t).dom n k hn.1 hn.2
  next t n q hn hq := by
    obtain ⟨h1, h2, h3⟩ := (h.inv t).next n q hn.1 hn.2 hq
    exact ⟨⟨h1, h2⟩, h3⟩
  last t n hn hq := by
    have := (h.inv t).last n hn.1 hn.2 hq
    unfold top at this
    exact this
  walk t k n vi vs hw := by
    obtain ⟨i, h1, h2, h3⟩ := hw
    have hl := (h.inv t).loc i
    rw [h1, h3] at hl
    obtain ⟨⟨l1, l2, l3, l4⟩, l5⟩ := hl
    exact ⟨⟨l1, h2⟩, l2, l5, l3, fun ho => l4 ho.2.2.1 ho.1.2⟩

end Verif.Range
