import Verif.Blink.NewRoot

/-!
# Inserting a child
-/
namespace Verif.Blink

variable {G : Type}

/-- A child that is split can be inserted into its parent. -/
theorem with_kid {s : State G} (h : Inv s) {p n c x : Nat} (hn : s.parent n = some p) (hpc : s.parent c = none)
    (hO : s.Open n c x) :
    Good (s.lo p) (s.chi p) (s.keysWith p x) (s.kidsWith p c x) ∧
    (∀ k, routeOf (s.keysWith p x) (s.kidsWith p c x) k =
      if x ≤ k ∧ routeOf (s.keys p) (s.kids p) k = n then c else routeOf (s.keys p) (s.kids p) k) ∧
    ∀ q, q ∈ s.kidsWith p c x ↔ q = c ∨ q ∈ s.kids p := by
  obtain ⟨⟨p1, p2, p3, p4, p5, p6, p7, p8, p9, p10⟩, q1, q2⟩ := hO
  have hpar := h.parent n p p1 hn
  have hs := h.slot n p p1 hn
  have hg := h.good p hpar.1 hpar.2
  have h1 := hs (s.lo n) (Nat.le_refl _) (by omega)
  have h2 := hs (x - 1) (by omega) (by omega)
  have h3 := hs x (by omega) (by omega)
  have hx : x ∉ s.keys p := fun hx => hg.route_change hx (by rw [h2.2.2, h3.2.2])
  have hc : c ∉ s.kids p := fun hc => by
    have := (h.kid p c hpar.1 hpar.2 hc).2
    rw [hpc] at this; cases this
  obtain ⟨g1, g2⟩ := hg.insert (x := x) (c := c) ⟨by omega, by omega⟩ hx hc
  refine ⟨g1, fun k => ?_, fun q => ?_⟩
  · unfold State.keysWith State.kidsWith
    rw [g2, h3.2.2]
  · unfold State.kidsWith
    rw [List.mem_insertIdx]
    have := upper_le (s.keys p) x
    have := hg.len
    omega

local macro "heavy" : tactic => `(tactic|
  ((try simp only [State.to, State.insertKid, Function.update_apply, PC.Owns, PC.Half, PC.Loose, PC.Pre, State.Loc, State.In,
      State.Target, State.Pair, State.Open, State.clean, State.Level, State.Above] at *) <;> grind))

set_option maxHeartbeats 1000000 in
theorem inv_insertKid {s : State G} (h : Inv s) (i p n c x : Nat) (t : Option Nat) (hp : s.pc i = .mod p n c x t) :
    Inv ((s.insertKid p n c x).to i (.fin (some p) none n c x t)) := by
  have hloc := h.loc i
  have hlck := h.lck i
  have hown := h.own i
  rw [hp] at hloc hlck hown
  obtain ⟨hO, q3, q4, q5, ⟨a1, a2, a3⟩, q6, q7, q8, q9, q10⟩ := hloc
  have hO' := hO
  obtain ⟨⟨p1, p2, p3, p4, p5, p6, p7, p8, p9, p10⟩, q1, q2⟩ := hO'
  have hlp := hown p (by simp [PC.Owns])
  have hln := hown n (by simp [PC.Owns])
  have hlc := hown c (by simp [PC.Owns])
  have hpar := h.parent n p p1 q9
  have hs := h.slot n p p1 q9
  have hrng := h.rng n p1
  obtain ⟨hg, hgr, hgm⟩ := with_kid h q9 q2 hO
  have hmono : Mono s ((s.insertKid p n c x).to i (.fin (some p) none n c x t)) := by
    refine ⟨Nat.le_refl _, ?_, ?_, ?_, ?_, ?_, ?_⟩ <;> (clear h hg hgr hgm; heavy)
  have hframe : Frame i s ((s.insertKid p n c x).to i (.fin (some p) none n c x t)) := by
    refine ⟨?_, fun _ _ => rfl, fun _ _ => rfl, ?_, ?_, ?_, ?_, ?_, ?_, ?_, ?_⟩ <;> (clear h hmono hg hgr hgm; heavy)
  -- children of other nodes
  have hother : ∀ a q, a < s.fresh → s.leaf a = false → q ∈ s.kids a → q < s.fresh ∧ q ≠ c ∧ (a ≠ p → q ≠ n) ∧
      s.parent q = some a := by
    intro a q ha hl hq
    have := h.kid a q ha hl hq
    refine ⟨this.1, ?_, ?_, this.2⟩
    · rintro rfl; rw [q2] at this; cases this.2
    · rintro hne rfl; rw [q9] at this; exact hne (Option.some.inj this.2).symm
  refine inv_heavy (x := .fin (some p) none n c x t) h hmono hframe (by simp [State.to]) (by simp [hp]) rfl rfl rfl ?_ ?_ ?_ h.dirty
    h.alloc ?_ h.leafChi h.chi ?_ ?_ ?_ ?_ ?_ ?_ ?_ h.rt h.val h.dom ?_ h.last h.next
  · clear hmono hframe h hother hg hgr hgm
    cases t with
    | none => heavy
    | some t => heavy
  · clear hmono hframe h hother hg hgr hgm; heavy
  · clear hmono hframe h hother hg hgr hgm; heavy
  · have := h.rng
    clear hmono hframe h hother hg hgr hgm; heavy
  · rw [hp]
    clear hmono hframe h hother hg hgr hgm; heavy
  · rw [hp]
    clear hmono hframe h hother hg hgr hgm; heavy
  · have := h.parent
    clear hmono hframe h hother hg hgr hgm; heavy
  · intro a b ha hb k h1 h2
    have hsa := h.slot a b
    have hsn := h.slot n p
    simp only [State.to, State.insertKid, Function.update_apply] at ha hb h1 h2 ⊢
    by_cases hbp : b = p
    · subst hbp
      simp only [if_true]
      rw [hgr]
      clear hmono hframe h hother hg hgr hgm
      grind
    · clear hmono hframe h hother hg hgr hgm
      grind
  · intro a ha hl
    by_cases hap : a = p
    · subst hap; simpa [State.to, State.insertKid] using hg
    · simp only [State.to, State.insertKid, Function.update_of_ne hap] at *
      exact h.good a ha hl
  · intro a q ha hl hq
    by_cases hap : a = p
    · subst hap
      simp only [State.to, State.insertKid, Function.update_self] at *
      rw [hgm] at hq
      rcases hq with rfl | hq
      · exact ⟨p2, by rw [Function.update_self]⟩
      · have := hother a q ha hl hq
        rw [Function.update_of_ne this.2.1]
        exact ⟨this.1, this.2.2.2⟩
    · simp only [State.to, State.insertKid, Function.update_of_ne hap] at *
      have := hother a q ha hl hq
      rw [Function.update_of_ne this.2.1]
      exact ⟨this.1, this.2.2.2⟩
  · intro a k ha hl h1 h2
    by_cases hap : a = p
    · subst hap
      simp only [State.to, State.insertKid, Function.update_self] at *
      rw [hgr]
      have hk := h.kidRng a k ha hl h1 h2
      clear hmono hframe h hother hg hgr hgm
      simp only [Function.update_apply]
      grind
    · simp only [State.to, State.insertKid, Function.update_of_ne hap] at *
      have := hother a _ ha hl ((h.good a ha hl).route_mem k)
      rw [Function.update_of_ne (this.2.2.1 hap)]
      exact h.kidRng a k ha hl h1 h2
  · -- disj
    rw [hp]
    intro a b k h1 h2 h3 h4 h5 h6 h7 h8 h9
    clear hmono hframe h hother hg hgr hgm
    heavy

end Verif.Blink
