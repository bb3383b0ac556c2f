import Verif.Prune.Split

/-!
# A new root
-/
namespace Verif.Prune

variable {G : Type}

/-- What the range of the left node becomes. -/
theorem halves {s : State G} (h : Inv s) {k n c x : Nat} {t : Option Nat} (hO : s.Open n c x) (hL : s.Level k n c x t) :
    s.gone n = false ∧ s.elo n ≤ s.elo c ∧ s.elo c ≤ s.hi n ∧ s.elo c ≤ s.bd n ∧ (s.leaf n = true → s.lo n < s.elo c) ∧
      (t ≠ none → s.elo c = s.hi n) := by
  obtain ⟨⟨p1, p2, p3, p4, p5, p6, p7, p8⟩, q1, q2⟩ := hO
  have hn := h.rng n p1
  have hc := h.rng c p2
  match t with
  | none =>
    obtain ⟨l1, l2, l3, l4, l5, l6, l7, l8, l9, l10, l11⟩ := hL
    have h1 := h.live n p1 l1 l9
    have h2 := h.live c p2 (by rw [p8]; exact l1) l11
    exact ⟨l9, by omega, by omega, by omega, fun _ => by omega, fun h => absurd rfl h⟩
  | some l =>
    obtain ⟨l1, l2, l3, l4⟩ := hL
    refine ⟨?_, by omega, by omega, by omega, (fun e => by rw [l1] at e; cases e), fun _ => l3.symm⟩
    cases hg : s.gone n with
    | false => rfl
    | true => rw [(h.gone n p1 hg).1] at l1; cases l1

local macro "heavy" : tactic => `(tactic|
  ((try simp only [State.to, State.newRoot, Function.update_apply, PC.Owns, PC.Skew, PC.Loose, PC.Pre, State.Loc, State.In,
      State.Target, State.Pair, State.Open, State.clean, State.Level, State.Above, id] at *) <;> grind))

set_option maxHeartbeats 1000000 in
theorem inv_newRoot {s : State G} (h : Inv s) (i n c x : Nat) (t : Option Nat) (hp : s.pc i = .par n c x t)
    (hpar : s.parent n = none) : Inv ((s.newRoot n c x).to i (.fin none none n c x t)) ∧
    Mono s ((s.newRoot n c x).to i (.fin none none n c x t)) := by
  have hloc := h.loc i
  have hlck := h.lck i
  have hown := h.own i
  rw [hp] at hloc hlck hown
  obtain ⟨h0, h1, _⟩ := hloc
  obtain ⟨b1, b2, b3, b4, b5, b6⟩ := halves h h0 h1
  have hloc := h.loc i
  rw [hp] at hloc
  obtain ⟨⟨⟨p1, p2, p3, p4, p5, p6, p7, p8⟩, q1, q2⟩, q3, q4, q5⟩ := hloc
  have hln := hown n (Or.inl rfl)
  have hlc := hown c (Or.inr (Or.inl rfl))
  have hlf := h.alloc s.fresh (Nat.le_refl _)
  have hnf : n ≠ s.fresh := by omega
  have hcf : c ≠ s.fresh := by omega
  have hroot : s.lo n = 0 ∧ s.bd n = top := by
    rcases h.att n p1 hpar with h1 | h1
    · exact h1
    · rw [holder_of hln, hp] at h1; exact absurd h1 p3
  have hold : ∀ q, q < s.fresh → q ≠ s.fresh := fun q hq => by omega
  have hmono : Mono s ((s.newRoot n c x).to i (.fin none none n c x t)) := by
    refine ⟨Nat.le_succ _, ?_, ?_, ?_, ?_, ?_, ?_, ?_⟩ <;> (clear h h0 h1; heavy)
  have hframe : Frame i id s ((s.newRoot n c x).to i (.fin none none n c x t)) := by
    have hal := h.alloc
    refine ⟨?_, fun _ _ => rfl, fun _ _ => rfl, fun _ => Nat.le_refl _, ?_, ?_, ?_, ?_, ?_, ?_, ?_, ?_, ?_, ?_, ?_⟩ <;>
      (clear h hmono h0 h1; heavy)
  -- the nodes that have a parent are other nodes
  have hother : ∀ a q, a < s.fresh → s.leaf a = false → some q ∈ s.kids a → q < s.fresh ∧ q ≠ n ∧ q ≠ c ∧ q ≠ s.fresh ∧
      s.parent q = some a := by
    intro a q ha hl hq
    have := h.kid a q ha hl hq
    refine ⟨this.1, ?_, ?_, by omega, this.2⟩
    · rintro rfl; rw [hpar] at this; cases this.2
    · rintro rfl; rw [q2] at this; cases this.2
  refine ⟨inv_heavy (x := .fin none none n c x t) h hmono hframe (by simp [State.to]) (by simp [hp]) rfl rfl rfl ?_ ?_ ?_ ?_ ?_ ?_ ?_
    ?_ ?_ ?_ ?_ ?_ ?_ ?_ ?_ ?_ ?_ ?_ ?_ ?_ ?_ ?_ ?_, hmono⟩
  · clear hmono hframe h hother h0 h1
    cases t with
    | none => heavy
    | some t => heavy
  · clear hmono hframe h hother h0 h1; heavy
  · clear hmono hframe h hother h0 h1; heavy
  · have := h.dirty
    clear hmono hframe h hother h0 h1; heavy
  · have := h.alloc
    clear hmono hframe h hother h0 h1; heavy
  · have := h.rng
    clear hmono hframe h hother h0 h1; heavy
  · have := h.live
    clear hmono hframe h hother h0 h1; heavy
  · have := h.gone
    clear hmono hframe h hother h0 h1; heavy
  · rw [hp]
    clear hmono hframe h hother h0 h1; heavy
  · rw [hp]
    clear hmono hframe h hother h0 h1; heavy
  · have := h.parent
    clear hmono hframe h hother h0 h1; heavy
  · intro a ha hl hd
    by_cases haf : a = s.fresh
    · subst haf
      simp only [State.to, State.newRoot, Function.update_self]
      apply Node.single <;> simp only [Function.update_apply] <;> (clear hmono hframe h hother h0 h1; grind)
    · simp only [State.to, State.newRoot, Function.update_of_ne haf] at *
      refine (h.node a (by omega) hl hd).congr_id fun q hq => ?_
      obtain ⟨c1, c2, c3, c4, c5⟩ := hother a q (by omega) hl hq
      simp only [Function.update_of_ne c2, Function.update_of_ne c3, Function.update_of_ne c4, and_self]
  · intro a ha hl hd
    by_cases haf : a = s.fresh
    · subst haf; simp [State.to, State.newRoot] at hd
    · simp only [State.to, State.newRoot, Function.update_of_ne haf] at *
      exact h.deadNode a (by omega) hl hd
  · have := h.keys
    clear hmono hframe h hother h0 h1; heavy
  · intro a ha hl
    by_cases haf : a = s.fresh
    · subst haf; simp [State.to, State.newRoot]
    · simp only [State.to, State.newRoot, Function.update_of_ne haf] at *
      exact h.sorted a (by omega) hl
  · intro a q ha hl hq
    by_cases haf : a = s.fresh
    · subst haf
      clear hmono hframe h hother h0 h1
      heavy
    · simp only [State.to, State.newRoot, Function.update_of_ne haf] at *
      have := hother a q (by omega) hl hq
      rw [Function.update_of_ne this.2.1, Function.update_of_ne this.2.2.1, Function.update_of_ne this.2.2.2.1]
      exact ⟨by omega, this.2.2.2.2⟩
  · intro a ha hl
    by_cases haf : a = s.fresh
    · subst haf
      simp only [State.to, State.newRoot, Function.update_self]
      simp [p3]
    · simp only [State.to, State.newRoot, Function.update_of_ne haf] at *
      exact h.nodup a (by omega) hl
  · have := h.rt
    clear hmono hframe h hother h0 h1; heavy
  · have := h.val
    clear hmono hframe h hother h0 h1; heavy
  · have := h.dom
    clear hmono hframe h hother h0 h1; heavy
  · -- disj
    rw [hp]
    intro a b k h1 h2 h3 h4 h5 h6 h7 h8 h9 h10 h11
    have haf : a ≠ s.fresh := by rintro rfl; simp [State.to, State.newRoot] at h4
    have hbf : b ≠ s.fresh := by rintro rfl; simp [State.to, State.newRoot] at h5
    simp only [State.to, State.newRoot, Function.update_of_ne haf, Function.update_of_ne hbf] at *
    by_cases hP : (PC.par (G := G) n c x t).Pre ∧ (PC.par (G := G) n c x t).Owns a ∧ (PC.par (G := G) n c x t).Owns b
    · clear hmono hframe h hother h0
      heavy
    · exact Or.inr ⟨by omega, by omega, h6, h7, ⟨k, h8, h9, h10, h11⟩, hP⟩
  · have := h.last
    clear hmono hframe h hother h0 h1; heavy
  · have := h.next
    clear hmono hframe h hother h0 h1; heavy

end Verif.Prune
