import Verif.Blink.Steps

/-!
# Histories of a layer
-/
namespace Verif.Blink

variable {G : Type}

/-- An execution: a state for every time, from an initial state, by steps of any threads in any order. -/
structure Run (r : Nat → State G) : Prop where
  init : Init (r 0)
  step : ∀ t, r (t + 1) = r t ∨ Step (r t) (r (t + 1))

/-- Thread `i` begins an operation after time `a`, and is still at it at time `b`. -/
structure Op (r : Nat → State G) (i a b : Nat) : Prop where
  lt : a < b
  idle : (r a).pc i = .idle
  busy : ∀ t, a < t → t ≤ b → (r t).pc i ≠ .idle

/-- In this step thread `i` publishes the result of its update `f`. -/
def Publishes (s s' : State G) (i : Nat) (f : Option G → Option G) : Prop :=
  s.fn i = some f ∧ ∃ n, s.pc i = .hold n ∧ s'.pc i = .pub n

theorem Run.inv {r : Nat → State G} (h : Run r) (t : Nat) : Inv (r t) := by
  induction t with
  | zero => exact init_inv h.init
  | succ t ih =>
    rcases h.step t with h1 | h1
    · rw [h1]; exact ih
    · exact step_inv ih h1

theorem Run.mono {r : Nat → State G} (h : Run r) (t : Nat) : Mono (r t) (r (t + 1)) := by
  rcases h.step t with h1 | h1
  · rw [h1]
    exact ⟨Nat.le_refl _, fun _ _ => rfl, fun _ _ => rfl, fun _ _ => Nat.le_refl _, fun _ _ => Nat.le_refl _,
      fun _ _ _ h => ⟨h, rfl⟩, fun _ _ h _ _ => ⟨h, rfl, rfl⟩⟩
  · exact step_mono (h.inv t) h1

/-- The operation of a thread does not change while it is busy. -/
theorem step_op {s s' : State G} (hs : Step s s') {i : Nat} (hi : s.pc i ≠ .idle) : s'.key i = s.key i ∧ s'.fn i = s.fn i := by
  cases hs with
  | start j k f hk hp =>
    have : i ≠ j := by rintro rfl; exact hi hp
    simp [State.to, this]
  | _ => exact ⟨rfl, rfl⟩

theorem Run.op {r : Nat → State G} (h : Run r) {t i : Nat} (hi : (r t).pc i ≠ .idle) :
    (r (t + 1)).key i = (r t).key i ∧ (r (t + 1)).fn i = (r t).fn i := by
  rcases h.step t with h1 | h1
  · rw [h1]; exact ⟨rfl, rfl⟩
  · exact step_op h1 hi

theorem Op.const {r : Nat → State G} (h : Run r) {i a b : Nat} (ho : Op r i a b) :
    ∀ t, a < t → t ≤ b → (r t).key i = (r b).key i ∧ (r t).fn i = (r b).fn i := by
  obtain ⟨h1, h2, h3⟩ := ho
  clear h1
  induction b with
  | zero => intro t h4 h5; omega
  | succ b ih =>
    intro t h4 h5
    by_cases ht : t = b + 1
    · subst ht; exact ⟨rfl, rfl⟩
    · have hb := h.op (h3 b (by omega) (by omega))
      have := ih (fun t h6 h7 => h3 t h6 (by omega)) t h4 (by omega)
      rw [hb.1, hb.2]; exact this

/-- The map changes only when a thread publishes. -/
theorem step_map {s s' : State G} (h : Inv s) (hs : Step s s') :
    (s'.m = s.m ∧ ∀ i f, ¬ Publishes s s' i f) ∨
    ∃ i f, Publishes s s' i f ∧ s'.m = Function.update s.m (s.key i) (f (s.m (s.key i))) ∧
      (∃ n, s.pc i = .hold n ∧ s.items n (s.key i) = s.m (s.key i)) ∧ ∀ j g, Publishes s s' j g → j = i := by
  cases hs with
  | publish i n f hp hf =>
    have hl := h.loc i
    rw [hp] at hl
    refine Or.inr ⟨i, f, ⟨hf, n, hp, by simp [State.to]⟩, rfl, ⟨n, hp, h.val n _ hl.1 hl.2.1 hl.2.2.1 hl.2.2.2⟩, ?_⟩
    rintro j g ⟨h1, m, h2, h3⟩
    by_contra hj
    simp only [State.to, Function.update_of_ne hj] at h3
    rw [h2] at h3; cases h3
  | _ =>
    refine Or.inl ⟨rfl, ?_⟩
    rintro j g ⟨h1, m, h2, h3⟩
    simp only [State.to, State.unlock, State.splitLeaf, State.newRoot, State.insertKid, State.splitKid,
      Function.update_apply] at h3
    revert h3
    first
    | (split
       · intro h3
         first
         | cases h3
         | (revert h3; split <;> (intro h3; cases h3))
         | (revert h3; unfold PC.loop; split <;> (intro h3; cases h3))
       · intro h3; rw [h2] at h3; cases h3)
    | (intro h3; rw [h2] at h3; cases h3)

/-- The result of a lookup is the value of its key at some time since time `a`. -/
def Seen.Since (r : Nat → State G) (i a b : Nat) : PC G → Prop
  | .read n vi vs v => (r b).same n vi vs → ∃ t, a < t ∧ t ≤ b ∧ (r t).m ((r b).key i) = v
  | .done v => ∃ t, a < t ∧ t ≤ b ∧ (r t).m ((r b).key i) = v
  | _ => True

theorem Seen.Since.next {r : Nat → State G} (h : Run r) {i a b : Nat} (hi : (r b).pc i ≠ .idle) {x : PC G}
    (hl : (r b).Loc ((r b).key i) x) (hs : Seen.Since r i a b x) : Seen.Since r i a (b + 1) x := by
  have hk := (h.op hi).1
  cases x with
  | read n vi vs v =>
    intro hsame
    rw [hk]
    obtain ⟨t, h1, h2, h3⟩ := hs (Same.mono (h.mono b) hl.1.1 hl.2.1 hl.1.2.2.1 hsame).1
    exact ⟨t, h1, by omega, h3⟩
  | done v =>
    unfold Seen.Since
    rw [hk]
    obtain ⟨t, h1, h2, h3⟩ := hs
    exact ⟨t, h1, by omega, h3⟩
  | _ => trivial

/-- How a reader gets a result. -/
theorem step_read {s s' : State G} (hs : Step s s') {i n vi vs : Nat} {v : Option G} (hx : s'.pc i = .read n vi vs v) :
    s.pc i = .read n vi vs v ∨ (s.pc i = .at_ n vi vs ∧ s.leaf n = true ∧ Seen s n vi vs (v = s.items n (s.key i)) ∧
      s'.m = s.m) := by
  cases hs with
  | look j n' vi' vs' v' hp hl hr =>
    by_cases hj : i = j
    · subst hj
      simp only [State.to, Function.update_self] at hx
      cases hx
      exact Or.inr ⟨hp, hl, hr, rfl⟩
    · simp only [State.to, Function.update_of_ne hj] at hx; exact Or.inl hx
  | _ =>
    simp only [State.to, State.unlock, State.splitLeaf, State.newRoot, State.insertKid, State.splitKid,
      Function.update_apply] at hx
    revert hx
    first
    | (split
       · intro h3
         first
         | cases h3
         | (revert h3; split <;> (intro h3; cases h3))
         | (revert h3; unfold PC.loop; split <;> (intro h3; cases h3))
       · intro h3; exact Or.inl h3)
    | (intro h3; exact Or.inl h3)

theorem step_done {s s' : State G} (hs : Step s s') {i : Nat} {v : Option G} (hx : s'.pc i = .done v) :
    s.pc i = .done v ∨ ∃ n vi vs, s.pc i = .read n vi vs v ∧ s.same n vi vs := by
  cases hs with
  | found j n' vi' vs' v' hp hf hr =>
    by_cases hj : i = j
    · subst hj
      simp only [State.to, Function.update_self] at hx
      cases hx
      exact Or.inr ⟨_, _, _, hp, hr⟩
    · simp only [State.to, Function.update_of_ne hj] at hx; exact Or.inl hx
  | _ =>
    simp only [State.to, State.unlock, State.splitLeaf, State.newRoot, State.insertKid, State.splitKid,
      Function.update_apply] at hx
    revert hx
    first
    | (split
       · intro h3
         first
         | cases h3
         | (revert h3; split <;> (intro h3; cases h3))
         | (revert h3; unfold PC.loop; split <;> (intro h3; cases h3))
       · intro h3; exact Or.inl h3)
    | (intro h3; exact Or.inl h3)

theorem Seen.since {r : Nat → State G} (h : Run r) {i a b : Nat} (ho : Op r i a b) : Seen.Since r i a b ((r b).pc i) := by
  obtain ⟨h1, h2, h3⟩ := ho
  induction b with
  | zero => omega
  | succ b ih =>
    by_cases hab : a = b
    · -- the operation begins
      subst hab
      rcases h.step a with h4 | h4
      · exact absurd (by rw [h4]; exact h2) (h3 (a + 1) (by omega) (Nat.le_refl _))
      · generalize hr : r (a + 1) = s' at *
        have hb := h3 (a + 1) (by omega) (Nat.le_refl _)
        rw [hr] at hb
        have : ∀ n vi vs v, s'.pc i ≠ .read n vi vs v ∧ s'.pc i ≠ .done v := by
          refine fun n vi vs v => ⟨fun e => ?_, fun e => ?_⟩
          · rcases step_read h4 e with h5 | h5
            · rw [h2] at h5; cases h5
            · rw [h2] at h5; cases h5.1
          · rcases step_done h4 e with h5 | ⟨_, _, _, h5, _⟩ <;> (rw [h2] at h5; cases h5)
        cases hx : s'.pc i with
        | read n vi vs v => exact absurd hx (this n vi vs v).1
        | done v => exact absurd hx (this 0 0 0 v).2
        | _ => trivial
    · have ih := ih (by omega) fun t h4 h5 => h3 t h4 (by omega)
      have hbusy := h3 b (by omega) (by omega)
      have hloc := (h.inv b).loc i
      have hinv := h.inv b
      have hnext := fun x hl hs => Seen.Since.next h (a := a) hbusy (x := x) hl hs
      have hk := (h.op hbusy).1
      rcases h.step b with h4 | h4
      · have := hnext _ hloc ih
        rwa [show (r (b + 1)).pc i = (r b).pc i by rw [h4]]
      · -- the position does not change, or is not one of a reader with a result
        by_cases hpc : (r (b + 1)).pc i = (r b).pc i
        · rw [hpc]; exact hnext _ hloc ih
        · cases hx : (r (b + 1)).pc i with
          | read n vi vs v =>
            have hsame := Same.mono (h.mono b) (n := n) (vi := vi) (vs := vs)
            have hlook := (step_read h4 hx).resolve_left fun e => hpc (hx.trans e.symm)
            obtain ⟨e1, e2, e3, e4⟩ := hlook
            rw [e1] at hloc
            intro hs
            have hs' := (hsame hloc.1.1 hloc.2 hloc.1.2.2.1 hs).1
            obtain ⟨⟨c1, c2⟩, c3, c4⟩ := hs'
            refine ⟨b, by omega, by omega, ?_⟩
            rw [hk, e3 ⟨⟨c1, c2⟩, c3, c4⟩]
            exact (hinv.val n _ hloc.1.1 e2 hloc.1.2.1 (hloc.1.2.2.2 c4 c2)).symm
          | done v =>
            have hfound := (step_done h4 hx).resolve_left fun e => hpc (hx.trans e.symm)
            obtain ⟨n, vi, vs, e1, e2⟩ := hfound
            rw [e1] at ih
            obtain ⟨t, t1, t2, t3⟩ := ih e2
            unfold Seen.Since
            rw [hk]
            exact ⟨t, t1, by omega, t3⟩
          | _ => trivial

/-- An update that returns has just unlocked its leaf. -/
theorem step_return {s s' : State G} (hs : Step s s') {i : Nat} {f : Option G → Option G} (hf : s.fn i = some f) (h1 : s.pc i ≠ .idle)
    (h2 : s'.pc i = .idle) : (∃ n, s.pc i = .pub n) ∨ ∃ v, s.pc i = .done v := by
  cases hs with
  | release j n hp =>
    by_cases hj : i = j
    · subst hj; exact Or.inl ⟨n, hp⟩
    · simp [State.to, State.unlock, hj] at h2; exact absurd h2 h1
  | «return» j v hp =>
    by_cases hj : i = j
    · subst hj; exact Or.inr ⟨v, hp⟩
    · simp [State.to, hj] at h2; exact absurd h2 h1
  | _ =>
    exfalso
    revert h2
    simp only [State.to, State.unlock, State.splitLeaf, State.newRoot, State.insertKid, State.splitKid, Function.update_apply]
    first
    | (split
       · intro h3
         first
         | cases h3
         | (revert h3; split <;> (intro h3; cases h3))
         | (revert h3; unfold PC.loop; split <;> (intro h3; cases h3))
       · intro h3; exact h1 h3)
    | (intro h3; exact h1 h3)

/-- How a thread gets to the position after publishing or after a lookup. -/
theorem step_after {s s' : State G} (hs : Step s s') {i : Nat} :
    (∀ n, s'.pc i = .pub n → s.pc i = .pub n ∨ s.pc i = .hold n) ∧
    (∀ v, s'.pc i = .done v → s.pc i = .done v ∨ s.fn i = none) ∧
    (∀ n, s.pc i = .pub n → s'.pc i = .pub n ∨ s'.pc i = .idle) := by
  cases hs with
  | publish j n f hp hf =>
    by_cases hj : i = j
    · subst hj; simp [State.to, hp]
    · simp [State.to, hj]; exact ⟨fun n h => Or.inl h, fun v h => Or.inl h, fun n h => Or.inl h⟩
  | found j n vi vs v hp hf hs =>
    by_cases hj : i = j
    · subst hj; simp [State.to, hp, hf]
    · simp [State.to, hj]; exact ⟨fun n h => Or.inl h, fun v h => Or.inl h, fun n h => Or.inl h⟩
  | release j n hp =>
    by_cases hj : i = j
    · subst hj; simp [State.to, State.unlock]
    · simp [State.to, State.unlock, hj]; exact ⟨fun n h => Or.inl h, fun v h => Or.inl h, fun n h => Or.inl h⟩
  | _ =>
    simp only [State.to, State.unlock, State.splitLeaf, State.newRoot, State.insertKid, State.splitKid, Function.update_apply]
    first
    | (split
       · next hp hij =>
         subst hij
         refine ⟨fun n h3 => ?_, fun v h3 => ?_, fun n h3 => ?_⟩
         · first
           | cases h3
           | (revert h3; split <;> (intro h3; cases h3))
           | (revert h3; unfold PC.loop; split <;> (intro h3; cases h3))
         · first
           | cases h3
           | (revert h3; split <;> (intro h3; cases h3))
           | (revert h3; unfold PC.loop; split <;> (intro h3; cases h3))
         · simp_all
       · exact ⟨fun n h => Or.inl h, fun v h => Or.inl h, fun n h => Or.inl h⟩)
    | exact ⟨fun n h => Or.inl h, fun v h => Or.inl h, fun n h => Or.inl h⟩

end Verif.Blink
