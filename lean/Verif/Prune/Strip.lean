import Verif.Prune.Heavy

/-!
# Stripping the left leaf
-/
namespace Verif.Prune

variable {G : Type}

local macro "heavy" : tactic => `(tactic|
  ((try simp only [State.to, State.unlock, Function.update_apply, PC.Owns, PC.Skew, PC.Loose, PC.Pre, State.Loc, State.In,
      State.Target, State.Pair, State.Open, State.clean, State.Level, State.Above, id] at *) <;> grind))

set_option maxHeartbeats 1000000 in
theorem inv_strip_to {s : State G} (h : Inv s) (i n c x : Nat) (p : Option Nat) (nx : Option (Nat × Nat)) (z : PC G)
    (hp : s.pc i = .cut p nx n c x)
    (hz : z = if s.key i < x then .rel p nx c n else .rel p nx n c) :
    Inv (State.to
        { s with
          items := Function.update s.items n (fun k => if k < x then s.items n k else none)
          hi := Function.update s.hi n x } i z) ∧
    Mono s (State.to
        { s with
          items := Function.update s.items n (fun k => if k < x then s.items n k else none)
          hi := Function.update s.hi n x } i z) := by
  have hloc := h.loc i
  have hlck := h.lck i
  have hown := h.own i
  rw [hp] at hloc hlck hown
  obtain ⟨⟨p1, p2, p3, p4, p5, p6, p7, p8⟩, q1, ⟨l1, l2, l3, l4, l5, l6, l7, l8, l9, l10, l11⟩, q2, q3, q4, q5, q6, q7⟩ := hloc
  have hrng := h.rng n p1
  have hlive := h.live c p2 (by rw [p8]; exact l1) l11
  have hliven := h.live n p1 l1 l9
  have hln := hown n (by simp [PC.Owns])
  have hlc := hown c (by simp [PC.Owns])
  have hpl : ∀ q, p = some q → q < s.fresh ∧ s.leaf q = false := by
    intro q hq; subst hq
    match nx with
    | none => exact ⟨q3.1, q3.2⟩
    | some (a, y) => exact ⟨q3.2.2.2.1.1, q3.1⟩
  have hnl : ∀ q, nx.map Prod.fst = some q → q < s.fresh ∧ s.leaf q = false := by
    intro q hq
    match p, nx with
    | none, nx => rw [show nx = none from q3] at hq; simp at hq
    | some p, some (c2, y) =>
      simp only [Option.map_some, Option.some.injEq] at hq
      subst hq
      exact ⟨q3.2.2.2.1.2.1, by rw [q3.2.2.2.1.2.2.2.2.2.2.2]; exact q3.1⟩
  have hown2 : ∀ q, z.Owns q ↔ (PC.cut (G := G) p nx n c x).Owns q := by
    intro q; subst hz
    split <;> simp only [PC.Owns] <;> grind
  have hz1 : ∀ q, z.Loose q ↔ nx.map Prod.fst = some q := by
    intro q; subst hz
    split <;> rfl
  have hz2 : ∀ q, z.Skew q ↔ p = some q ∧ nx ≠ none := by
    intro q; subst hz
    split <;> rfl
  have habove : State.Above (State.to
        { s with
          items := Function.update s.items n (fun k => if k < x then s.items n k else none)
          hi := Function.update s.hi n x } i z) p nx := by
    match p, nx with
    | none, _ => exact q3
    | some p, none => exact q3
    | some p, some (c2, y) =>
      clear h hz
      heavy
  have hmono : Mono s (State.to
        { s with
          items := Function.update s.items n (fun k => if k < x then s.items n k else none)
          hi := Function.update s.hi n x } i z) := by
    refine ⟨Nat.le_refl _, fun _ _ => rfl, fun _ _ => rfl, fun _ _ => Nat.le_refl _, fun _ _ => Nat.le_refl _, ?_,
      fun _ _ h _ _ => h, fun _ _ _ _ _ _ _ h => ⟨h, Nat.le_refl _⟩⟩
    intro q _ _ hd
    clear habove h hz
    heavy
  have hframe : Frame i id s (State.to
        { s with
          items := Function.update s.items n (fun k => if k < x then s.items n k else none)
          hi := Function.update s.hi n x } i z) := by
    have hq : ∀ q j, s.lock q = some j → j ≠ i → q ≠ n := fun q j h1 h2 e => by subst e; rw [hln] at h1; exact h2 (Option.some.inj h1).symm
    exact { pc := fun j hj => by simp only [State.to, Function.update_of_ne hj]
            key := fun _ _ => rfl
            base := fun _ _ => rfl
            le := fun _ => Nat.le_refl _
            dI := fun _ _ _ _ => rfl
            dS := fun _ _ _ _ => rfl
            dead := fun _ _ _ _ => rfl
            gone := fun _ _ _ _ => rfl
            items := fun q j h1 h2 => by simp only [State.to, Function.update_of_ne (hq q j h1 h2)]
            hi := fun q j h1 h2 => by simp only [State.to, Function.update_of_ne (hq q j h1 h2)]; rfl
            bd := fun _ _ _ _ => rfl
            elo := fun _ _ _ _ => rfl
            next := fun _ _ _ _ _ _ h => h
            loose := fun _ _ _ _ h => h
            parent := fun _ _ _ _ _ _ h => ⟨h, rfl, rfl⟩ }
  have hni : ∀ a, s.leaf a = false → a ≠ n := by rintro a hl rfl; rw [l1] at hl; cases hl
  refine ⟨inv_heavy (x := z) h hmono hframe (by simp [State.to]) (by simp [hp]) rfl rfl rfl ?_ ?_ ?_ h.dirty h.alloc ?_ ?_ h.gone ?_
    ?_ h.parent ?_ h.deadNode ?_ h.sorted h.kid h.nodup ?_ ?_ ?_ ?_ ?_ ?_, hmono⟩
  · -- loc
    clear hown2 hz1 hz2 hmono hframe h
    subst hz
    split
    · refine ⟨?_, ?_, ?_, habove, q5, q4, q7, q6⟩ <;> (clear habove; heavy)
    · refine ⟨?_, ?_, ?_, habove, q4, q5, q6, q7⟩ <;> (clear habove; heavy)
  · intro q
    rw [hown2]
    exact ⟨hlck q, hown q⟩
  · exact fun _ _ _ => Iff.rfl
  · have := h.rng
    clear h habove hmono hframe hz
    heavy
  · have := h.live
    clear h habove hmono hframe hz
    heavy
  · -- skew
    intro q hq
    rw [hp, hz2]
    clear h habove hmono hframe hz
    heavy
  · -- att
    intro q hq hpar
    rw [hp]
    by_cases h2 : nx.map Prod.fst = some q
    · exact Or.inr (Or.inl ((hz1 q).mpr h2))
    · exact Or.inr (Or.inr ⟨hq, hpar, id, h2⟩)
  · intro a ha hl hd
    have hne := hni a hl
    simp only [State.to, Function.update_of_ne hne]
    exact h.node a ha hl hd
  · intro a w ha hl hd
    have hne := hni a hl
    simp only [State.to, Function.update_of_ne hne] at *
    exact h.keys a w ha hl hd
  · have := h.rt
    clear h habove hmono hframe hz
    heavy
  · intro q k hq hl hg h1 h2
    change k < Function.update s.hi n x q at h2
    show Function.update s.items n _ q k = s.m k
    by_cases hqn : q = n
    · subst hqn
      rw [Function.update_self] at h2 ⊢
      rw [if_pos h2]
      exact h.val q k hq hl hg h1 (by omega)
    · rw [Function.update_of_ne hqn] at h2 ⊢; exact h.val q k hq hl hg h1 h2
  · intro q k hq hl hg hi
    have hd := h.dom q k hq hl hg
    change Function.update s.items n _ q k ≠ none at hi
    show s.lo q ≤ k ∧ k < Function.update s.hi n x q
    by_cases hqn : q = n
    · subst hqn
      rw [Function.update_self] at hi ⊢
      by_cases hk : k < x
      · rw [if_pos hk] at hi; exact ⟨(hd hi).1, hk⟩
      · rw [if_neg hk] at hi; exact absurd rfl hi
    · rw [Function.update_of_ne hqn] at hi ⊢; exact hd hi
  · -- disj
    intro a b k h1 h2 h3 h4 h5 h10 h11 h6 h7 h8 h9
    refine Or.inr ⟨h1, h2, h10, h11, ⟨k, h6, ?_, h8, ?_⟩, ?_⟩
    · clear h habove hmono hframe hz hown hlck hpl hnl hown2 hz1
      heavy
    · clear h habove hmono hframe hz hown hlck hpl hnl hown2 hz1
      heavy
    · rw [hp]
      clear h habove hmono hframe hz hown hlck hown2 hz1
      heavy
  · have := h.last
    clear h habove hmono hframe hz
    heavy
  · have := h.next
    clear h habove hmono hframe hz
    heavy

theorem inv_strip {s : State G} (h : Inv s) (i n c x : Nat) (p : Option Nat) (nx : Option (Nat × Nat))
    (hp : s.pc i = .cut p nx n c x) :
    Inv (State.to
        { s with
          items := Function.update s.items n (fun k => if k < x then s.items n k else none)
          hi := Function.update s.hi n x } i
        (if s.key i < x then .rel p nx c n else .rel p nx n c)) ∧
    Mono s (State.to
        { s with
          items := Function.update s.items n (fun k => if k < x then s.items n k else none)
          hi := Function.update s.hi n x } i
        (if s.key i < x then .rel p nx c n else .rel p nx n c)) :=
  inv_strip_to h i n c x p nx _ hp rfl

end Verif.Prune
