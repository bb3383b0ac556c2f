import Verif.Blink.Strip

/-!
# Splitting a leaf
-/
namespace Verif.Blink

variable {G : Type}

local macro "heavy" : tactic => `(tactic|
  ((try simp only [State.to, State.splitLeaf, Function.update_apply, PC.Owns, PC.Half, PC.Loose, PC.Pre, State.Loc, State.In,
      State.Target, State.Pair, State.Open, State.clean, State.Level, State.Above] at *) <;> grind))

set_option maxHeartbeats 1000000 in
theorem inv_split {s : State G} (h : Inv s) (i n x : Nat) (hp : s.pc i = .hold n) (hx : s.lo n < x) (hy : x < s.hi n) :
    Inv ((s.splitLeaf i n x).to i (.par n s.fresh x none)) := by
  have hloc := h.loc i
  have hlck := h.lck i
  have hown := h.own i
  rw [hp] at hloc hlck hown
  obtain ⟨t1, t2, t3, t4⟩ := hloc
  have hln := hown n rfl
  have hlf := h.alloc s.fresh (Nat.le_refl _)
  have hnf : n ≠ s.fresh := by omega
  have hphi : s.phi n = s.hi n := by
    rcases h.phi n t1 with h1 | h1
    · exact h1
    · rw [holder_of hln, hp] at h1; exact h1.elim
  have hold : ∀ q, q < s.fresh → q ≠ s.fresh := fun q hq => by omega
  have hmono : Mono s ((s.splitLeaf i n x).to i (.par n s.fresh x none)) := by
    refine ⟨Nat.le_succ _, ?_, ?_, ?_, ?_, ?_, ?_⟩ <;> (clear h; heavy)
  have hframe : Frame i s ((s.splitLeaf i n x).to i (.par n s.fresh x none)) := by
    have hal := h.alloc
    refine ⟨?_, fun _ _ => rfl, fun _ _ => rfl, ?_, ?_, ?_, ?_, ?_, ?_, ?_, ?_⟩ <;> (clear h hmono; heavy)
  refine inv_heavy (x := .par n s.fresh x none) h hmono hframe (by simp [State.to]) (by simp [hp]) rfl rfl rfl ?_ ?_ ?_ ?_ ?_ ?_ ?_
    ?_ ?_ ?_ ?_ ?_ ?_ ?_ ?_ ?_ ?_ ?_ ?_ ?_ ?_
  · clear hmono hframe h; heavy
  · have := h.alloc
    clear hmono hframe h; heavy
  · clear hmono hframe h; heavy
  · have := h.dirty
    clear hmono hframe h; heavy
  · have := h.alloc
    clear hmono hframe h; heavy
  · have := h.rng
    clear hmono hframe h; heavy
  · have := h.leafChi
    clear hmono hframe h; heavy
  · have := h.chi
    clear hmono hframe h; heavy
  · rw [hp]
    clear hmono hframe h; heavy
  · rw [hp]
    clear hmono hframe h; heavy
  · have := h.parent
    clear hmono hframe h; heavy
  · intro a b ha hb k h1 h2
    have haf : a ≠ s.fresh := by
      rintro rfl; simp [State.to, State.splitLeaf] at hb
    have ha' : a < s.fresh := by simp only [State.to, State.splitLeaf] at ha; omega
    simp only [State.to, State.splitLeaf, Function.update_of_ne haf] at hb h1 h2
    have hb' := h.parent a b ha' hb
    have hbf := hold b hb'.1
    simp only [State.to, State.splitLeaf, Function.update_of_ne hbf]
    exact h.slot a b ha' hb k h1 h2
  · intro a ha hl
    have haf : a ≠ s.fresh := by
      rintro rfl; simp [State.to, State.splitLeaf] at hl
    simp only [State.to, State.splitLeaf, Function.update_of_ne haf] at *
    exact h.good a (by omega) hl
  · intro a q ha hl hq
    have haf : a ≠ s.fresh := by
      rintro rfl; simp [State.to, State.splitLeaf] at hl
    simp only [State.to, State.splitLeaf, Function.update_of_ne haf] at *
    have := h.kid a q (by omega) hl hq
    rw [Function.update_of_ne (hold q this.1)]
    exact ⟨by omega, this.2⟩
  · intro a k ha hl h1 h2
    have haf : a ≠ s.fresh := by
      rintro rfl; simp [State.to, State.splitLeaf] at hl
    simp only [State.to, State.splitLeaf, Function.update_of_ne haf] at *
    have := h.kid a _ (by omega) hl ((h.good a (by omega) hl).route_mem k)
    rw [Function.update_of_ne (hold _ this.1), Function.update_of_ne (hold _ this.1)]
    exact h.kidRng a k (by omega) hl h1 h2
  · have := h.rt
    clear hmono hframe h; heavy
  · have := h.val
    intro q k
    by_cases hq : q = s.fresh
    · subst hq
      simp only [State.to, State.splitLeaf, Function.update_self]
      intro _ _ h1 h2
      rw [if_pos h1]
      exact h.val n k t1 t2 (by omega) h2
    · simp only [State.to, State.splitLeaf, Function.update_of_ne hq]
      intro h1
      exact h.val q k (by omega)
  · intro q k
    by_cases hq : q = s.fresh
    · subst hq
      simp only [State.to, State.splitLeaf, Function.update_self]
      intro _ _ h1
      by_cases hk : x ≤ k
      · rw [if_pos hk] at h1
        exact ⟨hk, (h.dom n k t1 t2 h1).2⟩
      · rw [if_neg hk] at h1; exact absurd rfl h1
    · simp only [State.to, State.splitLeaf, Function.update_of_ne hq]
      intro h1
      exact h.dom q k (by omega)
  · -- disj
    rw [hp]
    have := h.disj
    intro a b k h1 h2 h3 h4 h5 h6 h7 h8 h9
    -- another leaf cannot overlap the one that is locked
    have hno : ∀ q, q < s.fresh → q ≠ n → s.leaf q = true → s.lo q ≤ k → k < s.hi q → s.lo n ≤ k → k < s.hi n → False := by
      intro q e1 e2 e3 e4 e5 e6 e7
      have := (h.disj n q k t1 e1 (fun e => e2 e.symm) t2 e3 e6 e7 e4 e5).2.2
      rw [holder_of hln, hp] at this
      exact this
    clear hmono hframe h this
    heavy
  · have := h.last
    clear hmono hframe h; heavy
  · have := h.next
    clear hmono hframe h; heavy

end Verif.Blink
