import Verif.Blink.Split

/-!
# A new root
-/
namespace Verif.Blink

variable {G : Type}

local macro "heavy" : tactic => `(tactic|
  ((try simp only [State.to, State.newRoot, Function.update_apply, PC.Owns, PC.Half, PC.Loose, PC.Pre, State.Loc, State.In,
      State.Target, State.Pair, State.Open, State.clean, State.Level, State.Above] at *) <;> grind))

set_option maxHeartbeats 1000000 in
theorem inv_newRoot {s : State G} (h : Inv s) (i n c x : Nat) (t : Option Nat) (hp : s.pc i = .par n c x t)
    (hpar : s.parent n = none) : Inv ((s.newRoot n c x).to i (.fin none none n c x t)) := by
  have hloc := h.loc i
  have hlck := h.lck i
  have hown := h.own i
  rw [hp] at hloc hlck hown
  obtain ⟨⟨⟨p1, p2, p3, p4, p5, p6, p7, p8, p9, p10⟩, q1, q2⟩, q3, q4, q5⟩ := hloc
  have hln := hown n (Or.inl rfl)
  have hlc := hown c (Or.inr (Or.inl rfl))
  have hlf := h.alloc s.fresh (Nat.le_refl _)
  have hnf : n ≠ s.fresh := by omega
  have hcf : c ≠ s.fresh := by omega
  have hroot : s.lo n = 0 ∧ s.phi n = top := by
    rcases h.att n p1 hpar with h1 | h1
    · exact h1
    · rw [holder_of hln, hp] at h1; exact absurd h1 p3
  have hrng := h.rng n p1
  have hold : ∀ q, q < s.fresh → q ≠ s.fresh := fun q hq => by omega
  obtain ⟨hg, hgr⟩ := Good.single (lo := s.lo n) (hi := s.hi n) ⟨p4, p6⟩ p3
  have hmono : Mono s ((s.newRoot n c x).to i (.fin none none n c x t)) := by
    refine ⟨Nat.le_succ _, ?_, ?_, ?_, ?_, ?_, ?_⟩ <;> (clear h; heavy)
  have hframe : Frame i s ((s.newRoot n c x).to i (.fin none none n c x t)) := by
    have hal := h.alloc
    refine ⟨?_, fun _ _ => rfl, fun _ _ => rfl, ?_, ?_, ?_, ?_, ?_, ?_, ?_, ?_⟩ <;> (clear h hmono; heavy)
  -- the nodes that have a parent are other nodes
  have hother : ∀ a q, a < s.fresh → s.leaf a = false → q ∈ s.kids a → q < s.fresh ∧ q ≠ n ∧ q ≠ c ∧ q ≠ s.fresh ∧
      s.parent q = some a := by
    intro a q ha hl hq
    have := h.kid a q ha hl hq
    refine ⟨this.1, ?_, ?_, by omega, this.2⟩
    · rintro rfl; rw [hpar] at this; cases this.2
    · rintro rfl; rw [q2] at this; cases this.2
  refine inv_heavy (x := .fin none none n c x t) h hmono hframe (by simp [State.to]) (by simp [hp]) rfl rfl rfl ?_ ?_ ?_ ?_ ?_ ?_ ?_
    ?_ ?_ ?_ ?_ ?_ ?_ ?_ ?_ ?_ ?_ ?_ ?_ ?_ ?_
  · clear hmono hframe h hother hg hgr
    cases t with
    | none => heavy
    | some t => heavy
  · clear hmono hframe h hother hg hgr; heavy
  · clear hmono hframe h hother hg hgr; heavy
  · have := h.dirty
    clear hmono hframe h hother hg hgr; heavy
  · have := h.alloc
    clear hmono hframe h hother hg hgr; heavy
  · have := h.rng
    clear hmono hframe h hother hg hgr; heavy
  · have := h.leafChi
    clear hmono hframe h hother hg hgr; heavy
  · have := h.chi
    clear hmono hframe h hother hg hgr; heavy
  · rw [hp]
    clear hmono hframe h hother hg hgr; heavy
  · rw [hp]
    clear hmono hframe h hother hg hgr; heavy
  · have := h.parent
    clear hmono hframe h hother hg hgr; heavy
  · intro a b ha hb k h1 h2
    simp only [State.to, State.newRoot, Function.update_apply] at ha hb h1 h2 ⊢
    by_cases hbf : b = s.fresh
    · subst hbf
      simp only [if_true]
      rw [hgr]
      have hpf := h.parent a s.fresh
      clear hmono hframe h hother hg hgr
      grind
    · have hs := h.slot a b
      have hpf := h.parent a b
      clear hmono hframe h hother hg hgr
      grind
  · intro a ha hl
    by_cases haf : a = s.fresh
    · subst haf; simpa [State.to, State.newRoot] using hg
    · simp only [State.to, State.newRoot, Function.update_of_ne haf] at *
      exact h.good a (by omega) hl
  · intro a q ha hl hq
    by_cases haf : a = s.fresh
    · subst haf
      clear hmono hframe h hother hg hgr
      heavy
    · simp only [State.to, State.newRoot, Function.update_of_ne haf] at *
      have := hother a q (by omega) hl hq
      rw [Function.update_of_ne this.2.1, Function.update_of_ne this.2.2.1, Function.update_of_ne this.2.2.2.1]
      exact ⟨by omega, this.2.2.2.2⟩
  · intro a k ha hl h1 h2
    by_cases haf : a = s.fresh
    · subst haf
      simp only [State.to, State.newRoot, Function.update_self] at *
      rw [hgr]
      clear hmono hframe h hother hg hgr
      simp only [Function.update_apply]
      grind
    · simp only [State.to, State.newRoot, Function.update_of_ne haf] at *
      have := hother a _ (by omega) hl ((h.good a (by omega) hl).route_mem k)
      rw [Function.update_of_ne this.2.1, Function.update_of_ne this.2.2.2.1, Function.update_of_ne this.2.2.2.1]
      exact h.kidRng a k (by omega) hl h1 h2
  · have := h.rt
    clear hmono hframe h hother hg hgr; heavy
  · have := h.val
    clear hmono hframe h hother hg hgr; heavy
  · have := h.dom
    clear hmono hframe h hother hg hgr; heavy
  · -- disj
    rw [hp]
    intro a b k h1 h2 h3 h4 h5 h6 h7 h8 h9
    clear hmono hframe h hother hg hgr
    heavy
  · have := h.last
    clear hmono hframe h hother hg hgr; heavy
  · have := h.next
    clear hmono hframe h hother hg hgr; heavy

end Verif.Blink
