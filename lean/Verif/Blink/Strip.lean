import Verif.Blink.Heavy

/-!
# Completing a split: stripping the left leaf, unlocking the left internode
-/
namespace Verif.Blink

variable {G : Type}

local macro "heavy" : tactic => `(tactic|
  ((try simp only [State.to, State.unlock, Function.update_apply, PC.Owns, PC.Half, PC.Loose, PC.Pre, State.Loc, State.In,
      State.Target, State.Pair, State.Open, State.clean, State.Level, State.Above] at *) <;> grind))

set_option maxHeartbeats 1000000 in
theorem inv_strip_to {s : State G} (h : Inv s) (i n c x : Nat) (p : Option Nat) (nx : Option (Nat × Nat)) (z : PC G)
    (hp : s.pc i = .cut p nx n c x)
    (hz : z = if s.key i < x then .rel p nx c n else .rel p nx n c) :
    Inv (State.to
        { s with
          items := Function.update s.items n (fun k => if k < x then s.items n k else none)
          hi := Function.update s.hi n x
          chi := Function.update s.chi n x } i z) := by
  have hloc := h.loc i
  have hlck := h.lck i
  have hown := h.own i
  have hleaf := h.leafChi
  rw [hp] at hloc hlck hown
  obtain ⟨⟨p1, p2, p3, p4, p5, p6, p7, p8, p9, p10⟩, q1, ⟨l1, l2, l3, l4⟩, q2, q3, q4, q5, q6, q7⟩ := hloc
  have hrng := h.rng n p1
  have hln := hown n (by simp [PC.Owns])
  have hlc := hown c (by simp [PC.Owns])
  have hpl : ∀ q, p = some q → q < s.fresh ∧ s.leaf q = false := by
    intro q hq; subst hq
    cases nx with
    | none => exact ⟨q3.1, q3.2.1⟩
    | some y => exact ⟨q3.2.2.2.1.1, q3.1⟩
  have hnl : ∀ q, nx.map Prod.fst = some q → q < s.fresh ∧ s.leaf q = false := by
    intro q hq
    match p, nx with
    | none, nx => rw [show nx = none from q3] at hq; simp at hq
    | some p, some (c2, y) =>
      simp only [Option.map_some, Option.some.injEq] at hq
      subst hq
      exact ⟨q3.2.2.2.1.2.1, by rw [q3.2.2.2.1.2.2.2.2.2.2.2.2.2]; exact q3.1⟩
  have hown2 : ∀ q, z.Owns q ↔ (PC.cut (G := G) p nx n c x).Owns q := by
    intro q; subst hz
    split <;> simp only [PC.Owns] <;> grind
  have hz1 : ∀ q, z.Loose q ↔ nx.map Prod.fst = some q := by
    intro q; subst hz
    split <;> rfl
  have habove : State.Above (State.to
        { s with
          items := Function.update s.items n (fun k => if k < x then s.items n k else none)
          hi := Function.update s.hi n x
          chi := Function.update s.chi n x } i z) p nx := by
    match p, nx with
    | none, _ => exact q3
    | some p, none => exact q3
    | some p, some (c2, y) =>
      clear h hz hleaf
      heavy
  have hmono : Mono s (State.to
        { s with
          items := Function.update s.items n (fun k => if k < x then s.items n k else none)
          hi := Function.update s.hi n x
          chi := Function.update s.chi n x } i z) := by
    refine ⟨Nat.le_refl _, fun _ _ => rfl, fun _ _ => rfl, fun _ _ => Nat.le_refl _, fun _ _ => Nat.le_refl _, ?_,
      fun _ _ h _ _ => ⟨h, rfl, rfl⟩⟩
    intro q _ _ hd
    clear habove h hz
    heavy
  have hframe : Frame i s (State.to
        { s with
          items := Function.update s.items n (fun k => if k < x then s.items n k else none)
          hi := Function.update s.hi n x
          chi := Function.update s.chi n x } i z) := by
    refine ⟨fun j hj => by simp only [State.to, Function.update_of_ne hj], fun _ _ => rfl, fun _ _ => rfl, fun _ _ _ _ => rfl,
      fun _ _ _ _ => rfl, ?_, fun _ _ _ _ => rfl, ?_, fun _ _ _ _ => rfl, fun _ _ _ _ h => h,
      fun _ _ _ _ _ _ h => h⟩ <;> (clear habove hmono h hz; heavy)
  refine inv_heavy (x := z) h hmono hframe (by simp [State.to]) (by simp [hp]) rfl rfl rfl ?_ ?_ ?_ h.dirty h.alloc ?_ ?_ ?_ ?_ ?_
    h.parent ?_ ?_ h.kid ?_ ?_ ?_ ?_ ?_ ?_ ?_
  · -- loc
    clear hown2 hz1 hmono hframe h
    subst hz
    split
    · refine ⟨?_, ?_, ?_, ?_, habove, q5, q4, q7, q6⟩ <;> (clear habove; heavy)
    · refine ⟨?_, ?_, ?_, ?_, habove, q4, q5, q6, q7⟩ <;> (clear habove; heavy)
  · intro q
    rw [hown2]
    exact ⟨hlck q, hown q⟩
  · exact fun _ _ _ => Iff.rfl
  · have := h.rng
    clear h habove hmono hframe
    heavy
  · clear h habove hmono hframe
    heavy
  · have := h.chi
    clear h habove hmono hframe
    heavy
  · -- phi
    have := h.phi
    intro q hq
    rw [hp]
    clear h habove hmono hframe hz
    heavy
  · -- att
    intro q hq hpar
    rw [hp]
    by_cases h2 : nx.map Prod.fst = some q
    · exact Or.inr (Or.inl ((hz1 q).mpr h2))
    · exact Or.inr (Or.inr ⟨hq, hpar, rfl, h2⟩)
  · -- slot
    intro a b ha hb k h1 h2
    have := h.slot a b ha hb k h1 h2
    have := h.parent a b ha hb
    have hne : b ≠ n := by rintro rfl; rw [l1] at this; simp at this
    simp only [State.to, Function.update_of_ne hne]
    assumption
  · intro a ha hl
    have hne : a ≠ n := by rintro rfl; change s.leaf a = false at hl; rw [l1] at hl; cases hl
    simp only [State.to, Function.update_of_ne hne]
    exact h.good a ha hl
  · intro a k ha hl h1 h2
    have hne : a ≠ n := by rintro rfl; change s.leaf a = false at hl; rw [l1] at hl; cases hl
    simp only [State.to, Function.update_of_ne hne] at *
    exact h.kidRng a k ha hl h1 h2
  · have := h.rt
    clear h habove hmono hframe hz
    heavy
  · intro q k hq hl h1 h2
    change k < Function.update s.hi n x q at h2
    show Function.update s.items n _ q k = s.m k
    by_cases hqn : q = n
    · subst hqn
      rw [Function.update_self] at h2 ⊢
      rw [if_pos h2]
      exact h.val q k hq hl h1 (by omega)
    · rw [Function.update_of_ne hqn] at h2 ⊢; exact h.val q k hq hl h1 h2
  · intro q k hq hl hi
    have hd := h.dom q k hq hl
    change Function.update s.items n _ q k ≠ none at hi
    show s.lo q ≤ k ∧ k < Function.update s.hi n x q
    by_cases hqn : q = n
    · subst hqn
      rw [Function.update_self] at hi ⊢
      by_cases hk : k < x
      · rw [if_pos hk] at hi; exact ⟨(hd hi).1, hk⟩
      · rw [if_neg hk] at hi; exact absurd rfl hi
    · rw [Function.update_of_ne hqn] at hi ⊢; exact hd hi
  · -- disj
    intro a b k h1 h2 h3 h4 h5 h6 h7 h8 h9
    refine Or.inr ⟨h1, h2, ?_, ?_, ?_⟩
    · clear h habove hmono hframe hz hown hlck hpl hnl hown2 hz1
      heavy
    · clear h habove hmono hframe hz hown hlck hpl hnl hown2 hz1
      heavy
    · rw [hp]
      clear h habove hmono hframe hz hown hlck hown2 hz1
      heavy
  · have := h.last
    clear h habove hmono hframe hz
    heavy
  · have := h.next
    clear h habove hmono hframe hz
    heavy

theorem inv_strip {s : State G} (h : Inv s) (i n c x : Nat) (p : Option Nat) (nx : Option (Nat × Nat))
    (hp : s.pc i = .cut p nx n c x) :
    Inv (State.to
        { s with
          items := Function.update s.items n (fun k => if k < x then s.items n k else none)
          hi := Function.update s.hi n x
          chi := Function.update s.chi n x } i
        (if s.key i < x then .rel p nx c n else .rel p nx n c)) :=
  inv_strip_to h i n c x p nx _ hp rfl

set_option maxHeartbeats 1000000 in
theorem inv_unlockLeft {s : State G} (h : Inv s) (i n c x t : Nat) (p : Option Nat) (nx : Option (Nat × Nat))
    (hp : s.pc i = .fin p nx n c x (some t)) :
    Inv (State.to { s.unlock n with hi := Function.update s.hi n x } i (.rel p nx c t)) := by
  have hloc := h.loc i
  have hlck := h.lck i
  have hown := h.own i
  have hleaf := h.leafChi
  rw [hp] at hloc hlck hown
  obtain ⟨⟨p1, p2, p3, p4, p5, p6, p7, p8, p9, p10⟩, q1, ⟨l1, l2, l3, l4⟩, r1, r2, q3, q4, q5, q6, q7, q8, q9⟩ := hloc
  have hrng := h.rng n p1
  have hln := hown n (by simp [PC.Owns])
  have hlc := hown c (by simp [PC.Owns])
  have hlt := hown t (by simp [PC.Owns])
  have habove : State.Above (State.to { s.unlock n with hi := Function.update s.hi n x } i (.rel p nx c t)) p nx := by
    match p, nx with
    | none, _ => exact q3
    | some p, none => clear h hleaf; heavy
    | some p, some (c2, y) =>
      clear h hleaf
      heavy
  have hmono : Mono s (State.to { s.unlock n with hi := Function.update s.hi n x } i (.rel p nx c t)) := by
    refine ⟨Nat.le_refl _, fun _ _ => rfl, fun _ _ => rfl, ?_, ?_, ?_, ?_⟩ <;>
    (clear habove h; heavy)
  have hframe : Frame i s (State.to { s.unlock n with hi := Function.update s.hi n x } i (.rel p nx c t)) := by
    refine ⟨fun j hj => by simp only [State.to, State.unlock, Function.update_of_ne hj], fun _ _ => rfl, fun _ _ => rfl, ?_,
      ?_, ?_, fun _ _ _ _ => rfl, fun _ _ _ _ => rfl, fun _ _ _ _ => rfl, fun _ _ _ _ h => h,
      fun _ _ _ _ _ _ h => h⟩ <;> (clear habove hmono h; heavy)
  refine inv_heavy (x := .rel p nx c t) h hmono hframe (by simp [State.to]) (by simp [hp]) rfl rfl rfl ?_ ?_ ?_ ?_ ?_ ?_ ?_ ?_ ?_ ?_
    h.parent h.slot h.good h.kid h.kidRng ?_ ?_ ?_ ?_ ?_ ?_
  · -- loc
    clear hmono hframe h
    refine ⟨?_, ?_, ?_, ?_, habove, q5, ?_, q8, ?_⟩ <;> (clear habove; heavy)
  · clear hmono hframe h habove
    heavy
  · clear hmono hframe h habove
    heavy
  · have := h.dirty
    clear h habove hmono hframe
    heavy
  · have := h.alloc
    clear h habove hmono hframe
    heavy
  · have := h.rng
    clear h habove hmono hframe
    heavy
  · clear h habove hmono hframe
    heavy
  · have := h.chi
    clear h habove hmono hframe
    heavy
  · -- phi
    have := h.phi
    intro q hq
    rw [hp]
    clear h habove hmono hframe
    heavy
  · -- att
    intro q hq hpar
    rw [hp]
    by_cases h2 : nx.map Prod.fst = some q
    · exact Or.inr (Or.inl h2)
    · exact Or.inr (Or.inr ⟨hq, hpar, rfl, h2⟩)
  · have := h.rt
    clear h habove hmono hframe
    heavy
  · intro q k hq hl h1 h2
    have hqn : q ≠ n := by rintro rfl; change s.leaf q = true at hl; rw [l1] at hl; cases hl
    simp only [State.to, State.unlock, Function.update_of_ne hqn] at *
    exact h.val q k hq hl h1 h2
  · intro q k hq hl hi
    have hqn : q ≠ n := by rintro rfl; change s.leaf q = true at hl; rw [l1] at hl; cases hl
    simp only [State.to, State.unlock, Function.update_of_ne hqn] at *
    exact h.dom q k hq hl hi
  · -- disj
    intro a b k h1 h2 h3 h4 h5 h6 h7 h8 h9
    have hqn : a ≠ n := by rintro rfl; change s.leaf a = true at h4; rw [l1] at h4; cases h4
    have hqm : b ≠ n := by rintro rfl; change s.leaf b = true at h5; rw [l1] at h5; cases h5
    simp only [State.to, State.unlock, Function.update_of_ne hqn, Function.update_of_ne hqm] at *
    refine Or.inr ⟨h1, h2, h7, h9, ?_⟩
    rw [hp]
    exact fun he => by simp [PC.Pre] at he
  · have := h.last
    clear h habove hmono hframe
    heavy
  · have := h.next
    clear h habove hmono hframe
    heavy

end Verif.Blink
