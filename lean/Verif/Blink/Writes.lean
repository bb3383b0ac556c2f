import Verif.Blink.Locks

/-!
# Publishing an entry and stripping a node
-/
namespace Verif.Blink

variable {G : Type}

/-- A change of the lock holder's position that keeps its locks. -/
theorem holder_to {s s' : State G} {i : Nat} {x : PC G} (hl : s'.lock = s.lock) (hpc : s'.pc = Function.update s.pc i x) (n : Nat) :
    s'.holder n = if s.lock n = some i then x else s.holder n := by
  unfold State.holder
  rw [hl, hpc]
  cases h : s.lock n with
  | none => simp
  | some j =>
    by_cases hj : j = i
    · subst hj; simp
    · simp [hj]

theorem inv_publish {s : State G} (h : Inv s) (i n : Nat) (f : Option G → Option G) (hp : s.pc i = .hold n) :
    Inv (State.to
        { s with
          items := Function.update s.items n
            (Function.update (s.items n) (s.key i) (f (s.items n (s.key i))))
          m := Function.update s.m (s.key i) (f (s.m (s.key i))) } i (.pub n)) := by
  have hloc := h.loc i
  rw [hp] at hloc
  obtain ⟨t1, t2, t3, t4⟩ := hloc
  have hlk : s.lock n = some i := h.own i n (by rw [hp]; rfl)
  have hlck := h.lck i
  rw [hp] at hlck
  have honly : ∀ q, q < s.fresh → s.leaf q = true → s.lo q ≤ s.key i → s.key i < s.hi q → q = n := by
    intro q h1 h2 h3 h4
    by_contra hne
    have := (h.disj n q (s.key i) t1 h1 (fun e => hne e.symm) t2 h2 t3 t4 h3 h4).2.2
    rw [holder_of hlk, hp] at this
    exact this
  generalize hs' : State.to
        { s with
          items := Function.update s.items n
            (Function.update (s.items n) (s.key i) (f (s.items n (s.key i))))
          m := Function.update s.m (s.key i) (f (s.m (s.key i))) } i (.pub n) = s'
  have hmono : Mono s s' := by
    subst hs'
    exact ⟨Nat.le_refl _, fun _ _ => rfl, fun _ _ => rfl, fun _ _ => Nat.le_refl _, fun _ _ => Nat.le_refl _,
      fun _ _ _ h => ⟨h, rfl⟩, fun _ _ h _ _ => ⟨h, rfl, rfl⟩⟩
  have hframe : Frame i s s' := by
    subst hs'
    exact ⟨fun j hj => by simp only [State.to, Function.update_of_ne hj], fun _ _ => rfl, fun _ _ => rfl, fun _ _ _ _ => rfl,
      fun _ _ _ _ => rfl, fun _ _ _ _ => rfl, fun _ _ _ _ => rfl, fun _ _ _ _ => rfl, fun _ _ _ _ => rfl, fun _ _ _ _ h => h,
      fun _ _ _ _ _ _ h => h⟩
  have hhold : ∀ q, s'.holder q = if s.lock q = some i then .pub n else s.holder q := by
    subst hs'; exact holder_to rfl rfl
  have hpi : s'.pc i = .pub n := by subst hs'; simp [State.to]
  constructor
  case own =>
    intro j q hj
    have : s'.lock q = s.lock q := by subst hs'; rfl
    rw [this]
    by_cases hji : j = i
    · subst hji; rw [hpi] at hj; subst hj; exact hlk
    · rw [hframe.pc j hji] at hj; exact h.own j q hj
  case lck =>
    intro j q hj
    have : s'.lock q = s.lock q := by subst hs'; rfl
    rw [this] at hj
    by_cases hji : j = i
    · subst hji; rw [hpi]; exact hlck q hj
    · rw [hframe.pc j hji]; exact h.lck j q hj
  case phi =>
    intro q hq
    rw [hhold]
    have : s'.phi q = s.phi q ∧ s'.hi q = s.hi q ∧ s'.fresh = s.fresh := by subst hs'; exact ⟨rfl, rfl, rfl⟩
    rw [this.1, this.2.1]
    rw [this.2.2] at hq
    rcases h.phi q hq with h1 | h1
    · exact Or.inl h1
    · split
      · next hl => rw [holder_of hl, hp] at h1; exact h1.elim
      · exact Or.inr h1
  case att =>
    intro q hq hpar
    rw [hhold]
    have : s'.lo q = s.lo q ∧ s'.phi q = s.phi q ∧ s'.fresh = s.fresh ∧ s'.parent q = s.parent q := by
      subst hs'; exact ⟨rfl, rfl, rfl, rfl⟩
    rw [this.1, this.2.1]
    rw [this.2.2.1] at hq
    rw [this.2.2.2] at hpar
    rcases h.att q hq hpar with h1 | h1
    · exact Or.inl h1
    · split
      · next hl => rw [holder_of hl, hp] at h1; exact h1.elim
      · exact Or.inr h1
  case disj =>
    intro a b k
    rw [hhold]
    subst hs'
    intro h1 h2 h3 h4 h5 h6 h7 h8 h9
    have := h.disj a b k h1 h2 h3 h4 h5 h6 h7 h8 h9
    split
    · next hl => rw [holder_of hl, hp] at this; exact this.2.2.elim
    · exact this
  case loc =>
    intro j
    by_cases hji : j = i
    · subst hji; rw [hpi]; subst hs'; exact ⟨t1, t2, t3, t4⟩
    · exact Loc.other h hmono hframe hji
  case base =>
    intro j hj
    by_cases hji : j = i
    · subst hji; subst hs'; exact h.base j (by simp [hp])
    · rw [hframe.pc j hji] at hj; subst hs'; exact h.base j hj
  case key =>
    intro j hj
    by_cases hji : j = i
    · subst hji; subst hs'; exact h.key j (by simp [hp])
    · rw [hframe.pc j hji] at hj; subst hs'; exact h.key j hj
  case val =>
    subst hs'
    intro q k h1 h2 h3 h4
    show Function.update s.items n _ q k = Function.update s.m _ _ k
    have hv := h.val q k h1 h2 h3 h4
    by_cases hk : k = s.key i
    · subst hk
      obtain rfl := honly q h1 h2 h3 h4
      rw [Function.update_self, Function.update_self, Function.update_self, hv]
    · rw [Function.update_of_ne hk]
      by_cases hq : q = n
      · subst hq; rw [Function.update_self, Function.update_of_ne hk]; exact hv
      · rw [Function.update_of_ne hq]; exact hv
  case dom =>
    subst hs'
    intro q k h1 h2 h3
    change Function.update s.items n _ q k ≠ none at h3
    show s.lo q ≤ k ∧ k < s.hi q
    by_cases hq : q = n
    · subst hq
      by_cases hk : k = s.key i
      · subst hk; exact ⟨t3, t4⟩
      · rw [Function.update_self, Function.update_of_ne hk] at h3; exact h.dom q k h1 h2 h3
    · rw [Function.update_of_ne hq] at h3; exact h.dom q k h1 h2 h3
  all_goals subst hs'
  case dirty => exact h.dirty
  case alloc => exact h.alloc
  case rng => exact h.rng
  case leafChi => exact h.leafChi
  case chi => exact h.chi
  case parent => exact h.parent
  case slot => exact h.slot
  case good => exact h.good
  case kid => exact h.kid
  case kidRng => exact h.kidRng
  case rt => exact h.rt
  case root => exact h.root
  case last => exact h.last
  case next => exact h.next

end Verif.Blink
