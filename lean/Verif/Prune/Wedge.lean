import Verif.Prune.NewRoot
import Verif.Prune.Nodup

/-!
# A new internode below the parent
-/
namespace Verif.Prune

variable {G : Type}

local macro "heavy" : tactic => `(tactic|
  ((try simp only [State.to, State.wedge, Function.update_apply, PC.Owns, PC.Skew, PC.Loose, PC.Pre, State.Loc, State.In,
      State.Target, State.Pair, State.Open, State.clean, State.Level, State.Above, id] at *) <;> grind))

/-- The internode that has a child is not deleted. -/
theorem Inv.alive {s : State G} (h : Inv s) {p n j : Nat} (hp : p < s.fresh) (hl : s.leaf p = false)
    (hn : (s.kids p)[j]? = some (some n)) : s.dead p = false := by
  cases hd : s.dead p with
  | false => rfl
  | true =>
    rw [(h.deadNode p hp hl hd).2] at hn
    match j with
    | 0 => simp at hn
    | j + 1 => simp at hn

set_option maxHeartbeats 1000000 in
theorem inv_wedge {up : List Nat → Nat → Nat} {s : State G} (h : Inv s) (ht : Tidy up s) (i p n c x : Nat) (t : Option Nat)
    (hp : s.pc i = .mod p n c x t) :
    Inv ((s.wedge up p n c x).to i (.fin (some p) none n c x t)) ∧
    Mono s ((s.wedge up p n c x).to i (.fin (some p) none n c x t)) := by
  obtain ⟨hj, -⟩ := ht.mod i p n c x t hp
  have hloc := h.loc i
  have hlck := h.lck i
  have hown := h.own i
  rw [hp] at hloc hlck hown
  obtain ⟨h0, h1, _⟩ := hloc
  obtain ⟨b1, b2, b3, b4, b5, b6⟩ := halves h h0 h1
  clear h0 h1
  have hloc := h.loc i
  rw [hp] at hloc
  obtain ⟨⟨⟨p1, p2, p3, p4, p5, p6, p7, p8⟩, q1, q2⟩, q3, q4, q5, ⟨a1, a2⟩, q6, q7, q8, q9, q10⟩ := hloc
  have hlp := hown p (by simp [PC.Owns])
  have hln := hown n (by simp [PC.Owns])
  have hlc := hown c (by simp [PC.Owns])
  have hlf := h.alloc s.fresh (Nat.le_refl _)
  have hpf : p ≠ s.fresh := by omega
  have hnf : n ≠ s.fresh := by omega
  have hcf : c ≠ s.fresh := by omega
  have hpar := (h.parent n p p1 q9).2.2
  have hal := h.alive a1 a2 hj
  have hnd := h.nodup p a1 a2
  have hold : ∀ q, q < s.fresh → q ≠ s.fresh := fun q hq => by omega
  have hmono : Mono s ((s.wedge up p n c x).to i (.fin (some p) none n c x t)) := by
    refine ⟨Nat.le_succ _, ?_, ?_, ?_, ?_, ?_, ?_, ?_⟩ <;> (clear h ht hnd; heavy)
  have hframe : Frame i id s ((s.wedge up p n c x).to i (.fin (some p) none n c x t)) := by
    have hal := h.alloc
    refine ⟨?_, fun _ _ => rfl, fun _ _ => rfl, fun _ => Nat.le_refl _, ?_, ?_, ?_, ?_, ?_, ?_, ?_, ?_, ?_, ?_, ?_⟩ <;>
      (clear h hmono ht hnd; heavy)
  -- children of other nodes
  have hother : ∀ a q, a < s.fresh → s.leaf a = false → some q ∈ s.kids a → q < s.fresh ∧ (a ≠ p → q ≠ n) ∧ q ≠ c ∧ q ≠ s.fresh ∧
      s.parent q = some a := by
    intro a q ha hl hq
    have := h.kid a q ha hl hq
    refine ⟨this.1, ?_, ?_, by omega, this.2⟩
    · rintro hne rfl; rw [q9] at this; exact hne (Option.some.inj this.2).symm
    · rintro rfl; rw [q2] at this; cases this.2
  have hfk : some s.fresh ∉ s.kids p := fun e => (hother p _ a1 a2 e).2.2.2.1 rfl
  refine ⟨inv_heavy (x := .fin (some p) none n c x t) h hmono hframe (by simp [State.to]) (by simp [hp]) rfl rfl rfl ?_ ?_ ?_ ?_ ?_ ?_ ?_
    ?_ ?_ ?_ ?_ ?_ ?_ ?_ ?_ ?_ ?_ ?_ ?_ ?_ ?_ ?_ ?_, hmono⟩
  · clear hmono hframe h hother ht hnd
    cases t with
    | none => heavy
    | some t => heavy
  · clear hmono hframe h hother ht hnd; heavy
  · clear hmono hframe h hother ht hnd; heavy
  · have := h.dirty
    clear hmono hframe h hother ht hnd; heavy
  · have := h.alloc
    clear hmono hframe h hother ht hnd; heavy
  · have := h.rng
    clear hmono hframe h hother ht hnd; heavy
  · have := h.live
    clear hmono hframe h hother ht hnd; heavy
  · have := h.gone
    clear hmono hframe h hother ht hnd; heavy
  · rw [hp]
    clear hmono hframe h hother ht hnd; heavy
  · rw [hp]
    clear hmono hframe h hother ht hnd; heavy
  · have := h.parent
    clear hmono hframe h hother ht hnd; heavy
  · intro a ha hl hd
    by_cases haf : a = s.fresh
    · subst haf
      simp only [State.to, State.wedge, Function.update_self]
      apply Node.single <;> simp only [Function.update_apply] <;> (clear hmono hframe h hother ht hnd; grind)
    · by_cases hap : a = p
      · subst hap
        simp only [State.to, State.wedge, Function.update_of_ne haf, Function.update_self] at *
        refine (h.node a a1 a2 hal).replace hj hnd (fun q hq hqn => ?_) ?_ ?_ ?_ ?_
        · obtain ⟨c1, c2, c3, c4, c5⟩ := hother a q a1 a2 hq
          simp only [Function.update_of_ne hqn, Function.update_of_ne c3, Function.update_of_ne c4, and_self]
        · rw [Function.update_self]
        · rw [Function.update_of_ne hnf.symm, Function.update_self]
        · rw [Function.update_self]; exact Nat.le_refl _
        · rw [Function.update_self]; exact id
      · simp only [State.to, State.wedge, Function.update_of_ne haf, Function.update_of_ne hap] at *
        refine (h.node a (by omega) hl hd).congr_id fun q hq => ?_
        obtain ⟨c1, c2, c3, c4, c5⟩ := hother a q (by omega) hl hq
        simp only [Function.update_of_ne (c2 hap), Function.update_of_ne c4, and_self]
  · intro a ha hl hd
    by_cases haf : a = s.fresh
    · subst haf; simp [State.to, State.wedge] at hd
    · by_cases hap : a = p
      · subst hap
        simp only [State.to, State.wedge, Function.update_of_ne haf] at hd
        rw [hal] at hd; cases hd
      · simp only [State.to, State.wedge, Function.update_of_ne haf, Function.update_of_ne hap] at *
        exact h.deadNode a (by omega) hl hd
  · have := h.keys
    clear hmono hframe h hother ht hnd; heavy
  · intro a ha hl
    by_cases haf : a = s.fresh
    · subst haf; simp [State.to, State.wedge]
    · simp only [State.to, State.wedge, Function.update_of_ne haf] at *
      exact h.sorted a (by omega) hl
  · intro a q ha hl hq
    by_cases haf : a = s.fresh
    · subst haf
      clear hmono hframe h hother ht hnd
      heavy
    · by_cases hap : a = p
      · subst hap
        simp only [State.to, State.wedge, Function.update_of_ne haf, Function.update_self] at *
        rcases mem_set_of hnd hj hq with e | ⟨e1, e2⟩
        · cases e
          rw [Function.update_of_ne hnf.symm, Function.update_of_ne hcf.symm, Function.update_self]
          exact ⟨by omega, rfl⟩
        · have := hother a q a1 a2 e1
          have hqn : q ≠ n := fun e => e2 (by rw [e])
          rw [Function.update_of_ne hqn, Function.update_of_ne this.2.2.1, Function.update_of_ne this.2.2.2.1]
          exact ⟨by omega, this.2.2.2.2⟩
      · simp only [State.to, State.wedge, Function.update_of_ne haf, Function.update_of_ne hap] at *
        have := hother a q (by omega) hl hq
        rw [Function.update_of_ne (this.2.1 hap), Function.update_of_ne this.2.2.1, Function.update_of_ne this.2.2.2.1]
        exact ⟨by omega, this.2.2.2.2⟩
  · intro a ha hl
    by_cases haf : a = s.fresh
    · subst haf
      simp only [State.to, State.wedge, Function.update_self]
      simp [p3]
    · by_cases hap : a = p
      · subst hap
        simp only [State.to, State.wedge, Function.update_of_ne haf, Function.update_self] at *
        exact hnd.set hfk
      · simp only [State.to, State.wedge, Function.update_of_ne haf, Function.update_of_ne hap] at *
        exact h.nodup a (by omega) hl
  · have := h.rt
    clear hmono hframe h hother ht hnd; heavy
  · have := h.val
    clear hmono hframe h hother ht hnd; heavy
  · have := h.dom
    clear hmono hframe h hother ht hnd; heavy
  · -- disj
    rw [hp]
    intro a b k h1 h2 h3 h4 h5 h6 h7 h8 h9 h10 h11
    have haf : a ≠ s.fresh := by rintro rfl; simp [State.to, State.wedge] at h4
    have hbf : b ≠ s.fresh := by rintro rfl; simp [State.to, State.wedge] at h5
    simp only [State.to, State.wedge, Function.update_of_ne haf, Function.update_of_ne hbf] at *
    by_cases hP : (PC.mod (G := G) p n c x t).Pre ∧ (PC.mod (G := G) p n c x t).Owns a ∧ (PC.mod (G := G) p n c x t).Owns b
    · clear hmono hframe h hother ht hnd
      heavy
    · exact Or.inr ⟨by omega, by omega, h6, h7, ⟨k, h8, h9, h10, h11⟩, hP⟩
  · have := h.last
    clear hmono hframe h hother ht hnd; heavy
  · have := h.next
    clear hmono hframe h hother ht hnd; heavy

end Verif.Prune
