import Verif.Prune.Strip

/-!
# Splitting a leaf
-/
namespace Verif.Prune

variable {G : Type}

local macro "heavy" : tactic => `(tactic|
  ((try simp only [State.to, State.splitLeaf, Function.update_apply, PC.Owns, PC.Skew, PC.Loose, PC.Pre, State.Loc, State.In,
      State.Target, State.Pair, State.Open, State.clean, State.Level, State.Above, id] at *) <;> grind))

set_option maxHeartbeats 1000000 in
theorem inv_split {s : State G} (h : Inv s) (i n x : Nat) (hp : s.pc i = .hold n) (hx : s.lo n < x)
    (hy : s.items n x ≠ none ∨ x = s.key i) :
    Inv ((s.splitLeaf i n x).to i (.par n s.fresh x none)) ∧ Mono s ((s.splitLeaf i n x).to i (.par n s.fresh x none)) := by
  have hloc := h.loc i
  have hlck := h.lck i
  have hown := h.own i
  rw [hp] at hloc hlck hown
  obtain ⟨t1, t2, t3, t4, t5, t6⟩ := hloc
  replace hy : x < s.hi n := by
    rcases hy with hy | rfl
    · exact (h.dom n x t1 t2 t6 hy).2
    · exact t4
  have hln := hown n rfl
  have hlf := h.alloc s.fresh (Nat.le_refl _)
  have hnf : n ≠ s.fresh := by omega
  have hbd : s.bd n = s.hi n := by
    rcases h.skew n t1 with h1 | h1
    · exact h1
    · rw [holder_of hln, hp] at h1; exact h1.elim
  have hold : ∀ q, q < s.fresh → q ≠ s.fresh := fun q hq => by omega
  have hpf := h.parent
  have hmono : Mono s ((s.splitLeaf i n x).to i (.par n s.fresh x none)) := by
    refine ⟨Nat.le_succ _, ?_, ?_, ?_, ?_, ?_, ?_, ?_⟩ <;> (clear h hpf; heavy)
  have hframe : Frame i id s ((s.splitLeaf i n x).to i (.par n s.fresh x none)) := by
    have hal := h.alloc
    refine ⟨?_, fun _ _ => rfl, fun _ _ => rfl, fun _ => Nat.le_refl _, ?_, ?_, ?_, ?_, ?_, ?_, ?_, ?_, ?_, ?_, ?_⟩ <;>
      (clear h hmono hpf; heavy)
  have hni : ∀ a, (State.to (s.splitLeaf i n x) i (.par n s.fresh x none)).leaf a = false → a ≠ s.fresh := by
    rintro a hl rfl; simp [State.to, State.splitLeaf] at hl
  refine ⟨inv_heavy (x := .par n s.fresh x none) h hmono hframe (by simp [State.to]) (by simp [hp]) rfl rfl rfl ?_ ?_ ?_ ?_ ?_ ?_ ?_
    ?_ ?_ ?_ ?_ ?_ ?_ ?_ ?_ ?_ ?_ ?_ ?_ ?_ ?_ ?_ ?_, hmono⟩
  · clear hmono hframe h hpf; heavy
  · have := h.alloc
    clear hmono hframe h hpf; heavy
  · clear hmono hframe h hpf; heavy
  · have := h.dirty
    clear hmono hframe h hpf; heavy
  · have := h.alloc
    clear hmono hframe h hpf; heavy
  · have := h.rng
    clear hmono hframe h hpf; heavy
  · have := h.live
    clear hmono hframe h hpf; heavy
  · have := h.gone
    clear hmono hframe h hpf; heavy
  · rw [hp]
    clear hmono hframe h hpf; heavy
  · rw [hp]
    clear hmono hframe h hpf; heavy
  · clear hmono hframe h; heavy
  · intro a ha hl hd
    have haf := hni a hl
    simp only [State.to, State.splitLeaf, Function.update_of_ne haf] at *
    refine (h.node a (by omega) hl hd).congr_id fun q hq => ?_
    have := hold q (h.kid a q (by omega) hl hq).1
    simp only [Function.update_of_ne this, and_self]
  · intro a ha hl hd
    have haf := hni a hl
    simp only [State.to, State.splitLeaf, Function.update_of_ne haf] at *
    exact h.deadNode a (by omega) hl hd
  · intro a z ha hl hd
    have haf := hni a hl
    simp only [State.to, State.splitLeaf, Function.update_of_ne haf] at *
    exact h.keys a z (by omega) hl hd
  · intro a ha hl
    have haf := hni a hl
    simp only [State.to, State.splitLeaf, Function.update_of_ne haf] at *
    exact h.sorted a (by omega) hl
  · intro a q ha hl hq
    have haf := hni a hl
    simp only [State.to, State.splitLeaf, Function.update_of_ne haf] at *
    have := h.kid a q (by omega) hl hq
    rw [Function.update_of_ne (hold q this.1)]
    exact ⟨by omega, this.2⟩
  · intro a ha hl
    have haf := hni a hl
    simp only [State.to, State.splitLeaf, Function.update_of_ne haf] at *
    exact h.nodup a (by omega) hl
  · have := h.rt
    clear hmono hframe h hpf; heavy
  · intro q k
    by_cases hq : q = s.fresh
    · subst hq
      simp only [State.to, State.splitLeaf, Function.update_self]
      intro _ _ _ h1 h2
      rw [if_pos h1]
      exact h.val n k t1 t2 t6 (by omega) h2
    · simp only [State.to, State.splitLeaf, Function.update_of_ne hq]
      intro h1
      exact h.val q k (by omega)
  · intro q k
    by_cases hq : q = s.fresh
    · subst hq
      simp only [State.to, State.splitLeaf, Function.update_self]
      intro _ _ _ h1
      by_cases hk : x ≤ k
      · rw [if_pos hk] at h1
        exact ⟨hk, (h.dom n k t1 t2 t6 h1).2⟩
      · rw [if_neg hk] at h1; exact absurd rfl h1
    · simp only [State.to, State.splitLeaf, Function.update_of_ne hq]
      intro h1
      exact h.dom q k (by omega)
  · -- disj
    rw [hp]
    intro a b k h1 h2 h3 h4 h5 h6 h7 h8 h9 h10 h11
    -- another leaf cannot overlap the one that is locked
    have hno : ∀ q, q < s.fresh → q ≠ n → s.leaf q = true → s.gone q = false → s.lo q ≤ k → k < s.hi q → s.lo n ≤ k →
        k < s.hi n → False := by
      intro q e1 e2 e3 e8 e4 e5 e6 e7
      have := (h.disj n q k t1 e1 (fun e => e2 e.symm) t2 e3 t6 e8 e6 e7 e4 e5).2.2
      rw [holder_of hln, hp] at this
      exact this
    have hex : ∀ a b, s.lo a ≤ k → k < s.hi a → s.lo b ≤ k → k < s.hi b → ∃ k, s.lo a ≤ k ∧ k < s.hi a ∧ s.lo b ≤ k ∧ k < s.hi b :=
      fun a b e1 e2 e3 e4 => ⟨k, e1, e2, e3, e4⟩
    generalize hE : (fun a b => ∃ k, s.lo a ≤ k ∧ k < s.hi a ∧ s.lo b ≤ k ∧ k < s.hi b) = E
    have hE' := fun a b => congrFun (congrFun hE a) b
    simp only [hE'] at hex ⊢
    clear hmono hframe h hpf hE hE'
    heavy
  · have := h.last
    clear hmono hframe h hpf; heavy
  · have := h.next
    clear hmono hframe h hpf; heavy

end Verif.Prune
