import Verif.Blink.Frame

/-!
# The steps of readers keep the invariant
-/
namespace Verif.Blink

variable {G : Type}

theorem inv_reader {s : State G} (h : Inv s) {i : Nat} {x : PC G} (k b : Nat) (f : Option (Option G → Option G))
    (ho : ∀ q, ¬ (s.pc i).Owns q) (hx : ∀ q, ¬ x.Owns q) (hk : k < top) (hb : b < s.fresh ∧ s.lo b = 0) (hl : s.Loc k x) :
    Inv (State.to { s with key := Function.update s.key i k, base := Function.update s.base i b,
                           fn := Function.update s.fn i f } i x) := by
  have hno : ∀ n, s.lock n ≠ some i := fun n hn => ho n (h.lck i n hn)
  have hhold : ∀ n, State.holder (State.to { s with key := Function.update s.key i k, base := Function.update s.base i b,
                                                         fn := Function.update s.fn i f } i x) n = s.holder n := by
    intro n
    show (match s.lock n with | some j => Function.update s.pc i x j | none => .idle) = s.holder n
    unfold State.holder
    cases hn : s.lock n with
    | none => rfl
    | some j =>
      have : j ≠ i := by rintro rfl; exact hno n hn
      simp [Function.update_of_ne this]
  constructor
  case own =>
    intro j n hj
    by_cases hji : j = i
    · subst hji
      simp only [State.to, Function.update_self] at hj
      exact absurd hj (hx n)
    · simp only [State.to, Function.update_of_ne hji] at hj
      exact h.own j n hj
  case lck =>
    intro j n hj
    by_cases hji : j = i
    · subst hji; exact absurd hj (hno n)
    · simp only [State.to, Function.update_of_ne hji]
      exact h.lck j n hj
  case phi => intro n hn; rw [hhold]; exact h.phi n hn
  case att => intro n hn; rw [hhold]; exact h.att n hn
  case disj => intro a b k; rw [hhold]; exact h.disj a b k
  case base =>
    intro j
    by_cases hji : j = i
    · subst hji; intro _; simp only [State.to, Function.update_self]; exact hb
    · simp only [State.to, Function.update_of_ne hji]; exact h.base j
  case key =>
    intro j
    by_cases hji : j = i
    · subst hji; intro _; simp only [State.to, Function.update_self]; exact hk
    · simp only [State.to, Function.update_of_ne hji]; exact h.key j
  case loc =>
    intro j
    by_cases hji : j = i
    · subst hji; simp only [State.to, Function.update_self]; exact hl
    · simp only [State.to, Function.update_of_ne hji]; exact h.loc j
  case dirty => exact h.dirty
  case alloc => exact h.alloc
  case rng => exact h.rng
  case leafChi => exact h.leafChi
  case chi => exact h.chi
  case parent => exact h.parent
  case slot => exact h.slot
  case good => exact h.good
  case kid => exact h.kid
  case kidRng => exact h.kidRng
  case rt => exact h.rt
  case root => exact h.root
  case val => exact h.val
  case dom => exact h.dom
  case last => exact h.last
  case next => exact h.next

theorem inv_to {s : State G} (h : Inv s) {i : Nat} {x : PC G} (hp : s.pc i ≠ .idle) (ho : ∀ q, ¬ (s.pc i).Owns q)
    (hx : ∀ q, ¬ x.Owns q) (hl : s.Loc (s.key i) x) : Inv (s.to i x) := by
  have := inv_reader h (s.key i) (s.base i) (s.fn i) ho hx (h.key i hp) (h.base i hp) hl
  rwa [Function.update_eq_self, Function.update_eq_self, Function.update_eq_self] at this

/-- The parent of a leftmost node is one. -/
theorem Inv.parent_left {s : State G} (h : Inv s) {n p : Nat} (hn : n < s.fresh) (hl : s.lo n = 0) (hp : s.parent n = some p) :
    p < s.fresh ∧ s.lo p = 0 := by
  have h1 := h.slot n p hn hp (s.lo n) (Nat.le_refl _) (h.rng n hn).1
  exact ⟨(h.parent n p hn hp).1, by omega⟩

theorem inv_start {s : State G} (h : Inv s) (i k : Nat) (f : Option (Option G → Option G)) (hk : k < top) (hp : s.pc i = .idle) :
    Inv (State.to { s with key := Function.update s.key i k, base := Function.update s.base i s.root,
                           fn := Function.update s.fn i f } i (.up s.root)) :=
  inv_reader h k s.root f (by simp [hp, PC.Owns]) (by simp [PC.Owns]) hk h.root h.root

theorem inv_fixRoot {s : State G} (h : Inv s) (p : Nat) (hp : s.parent s.root = some p) : Inv { s with root := p } :=
  ⟨h.own, h.lck, h.dirty, h.alloc, h.rng, h.leafChi, h.chi, h.phi, h.att, h.parent, h.slot, h.good, h.kid, h.kidRng, h.rt,
    h.parent_left h.root.1 h.root.2 hp, h.base, h.key, h.val, h.dom, h.disj, h.last, h.next, h.loc⟩

theorem inv_rooted {s : State G} (h : Inv s) (i n : Nat) (hp : s.pc i = .up n) (hc : s.clean n) (hr : s.rt n = true) :
    Inv (s.to i (.at_ n (s.ins n) (s.spl n))) := by
  refine inv_to h (by simp [hp]) (by simp [hp, PC.Owns]) (by simp [PC.Owns]) ?_
  have hl := h.loc i
  have hk := h.key i (by simp [hp])
  rw [hp] at hl
  obtain ⟨h1, h2⟩ := hl
  have := h.rt n h1 hr h2 hc.2
  exact ⟨⟨h1, by omega, Nat.le_refl _, fun _ _ => by omega⟩, Nat.le_refl _⟩

theorem inv_climb {s : State G} (h : Inv s) (i n : Nat) (hp : s.pc i = .up n) : Inv (s.to i (.up ((s.parent n).getD n))) := by
  refine inv_to h (by simp [hp]) (by simp [hp, PC.Owns]) (by simp [PC.Owns]) ?_
  have hl := h.loc i
  rw [hp] at hl
  cases hq : s.parent n with
  | none => exact hl
  | some p => exact h.parent_left hl.1 hl.2 hq

theorem inv_pick {s : State G} (h : Inv s) (i n vi vs c : Nat) (hp : s.pc i = .at_ n vi vs) (hf : s.leaf n = false)
    (hc : Seen s n vi vs (c = s.route n (s.key i))) : Inv (s.to i (.pick n vi vs c)) := by
  refine inv_to h (by simp [hp]) (by simp [hp, PC.Owns]) (by simp [PC.Owns]) ?_
  have hl := h.loc i
  rw [hp] at hl
  exact ⟨hl.1, hl.2, hf, hc⟩

theorem inv_child {s : State G} (h : Inv s) (i n vi vs c : Nat) (hp : s.pc i = .pick n vi vs c) :
    Inv (s.to i (.picked n vi vs c (s.ins c) (s.spl c))) := by
  refine inv_to h (by simp [hp]) (by simp [hp, PC.Owns]) (by simp [PC.Owns]) ?_
  have hl := h.loc i
  rw [hp] at hl
  obtain ⟨h1, h2, h3, h4⟩ := hl
  refine ⟨h1, h2, h3, fun hs => ?_⟩
  have hc := h4 hs
  obtain ⟨a1, a2, a3, a4⟩ := h1
  obtain ⟨⟨s1, s2⟩, s3, s4⟩ := hs
  have hk := a4 s4 s2
  have hchi := h.chi n a1 s2
  have hr := h.kidRng n (s.key i) a1 h3 a2 (by omega)
  have hkid := (h.kid n _ a1 h3 ((h.good n a1 h3).route_mem (s.key i))).1
  rw [← hc] at hr hkid
  have := h.rng c hkid
  exact ⟨⟨hkid, hr.1, Nat.le_refl _, fun _ _ => by omega⟩, Nat.le_refl _⟩

theorem inv_descend {s : State G} (h : Inv s) (i n vi vs c ci cs : Nat) (hp : s.pc i = .picked n vi vs c ci cs)
    (hs : s.same n vi vs) : Inv (s.to i (.at_ c ci cs)) := by
  refine inv_to h (by simp [hp]) (by simp [hp, PC.Owns]) (by simp [PC.Owns]) ?_
  have hl := h.loc i
  rw [hp] at hl
  exact hl.2.2.2 hs

theorem inv_again {s : State G} (h : Inv s) (i n vi vs c ci cs : Nat) (hp : s.pc i = .picked n vi vs c ci cs)
    (hs : s.spl n = vs) : Inv (s.to i (.at_ n (s.ins n) (s.spl n))) := by
  refine inv_to h (by simp [hp]) (by simp [hp, PC.Owns]) (by simp [PC.Owns]) ?_
  have hl := h.loc i
  rw [hp] at hl
  subst hs
  exact ⟨hl.1, Nat.le_refl _⟩

theorem inv_compare {s : State G} (h : Inv s) (i n vi vs c ci cs : Nat) (hp : s.pc i = .picked n vi vs c ci cs) :
    Inv (s.to i (.cmp n (s.ins n) (s.spl n))) := by
  refine inv_to h (by simp [hp]) (by simp [hp, PC.Owns]) (by simp [PC.Owns]) ?_
  have hl := h.loc i
  rw [hp] at hl
  exact ⟨hl.1.1, hl.1.2.1, Nat.le_refl _, Nat.le_refl _⟩

theorem inv_inside {s : State G} (h : Inv s) (i n vi vs z : Nat) (hp : s.pc i = .cmp n vi vs) (hf : s.leaf n = false)
    (hc : s.clean n) (hz : z ∈ s.keys n) (hk : s.key i ≤ z) : Inv (s.to i (.at_ n vi vs)) := by
  refine inv_to h (by simp [hp]) (by simp [hp, PC.Owns]) (by simp [PC.Owns]) ?_
  have hl := h.loc i
  rw [hp] at hl
  obtain ⟨h1, h2, h3, h4⟩ := hl
  have := (h.good n h1 hf).inside z hz
  have := h.chi n h1 hc.2
  exact ⟨⟨h1, h2, h3, fun _ _ => by omega⟩, h4⟩

theorem inv_retry {s : State G} (h : Inv s) (i n vi vs c : Nat) (hp : s.pc i = .pick n vi vs c ∨ s.pc i = .cmp n vi vs) :
    Inv (s.to i (.up (s.base i))) := by
  have hne : s.pc i ≠ .idle := by rcases hp with hp | hp <;> simp [hp]
  exact inv_to h hne (by rcases hp with hp | hp <;> simp [hp, PC.Owns]) (by simp [PC.Owns]) (h.base i hne)

theorem inv_look {s : State G} (h : Inv s) (i n vi vs : Nat) (r : Option G) (hp : s.pc i = .at_ n vi vs)
    (hf : s.leaf n = true) : Inv (s.to i (.read n vi vs r)) := by
  refine inv_to h (by simp [hp]) (by simp [hp, PC.Owns]) (by simp [PC.Owns]) ?_
  have hl := h.loc i
  rw [hp] at hl
  exact ⟨hl.1, hl.2, hf⟩

theorem inv_found {s : State G} (h : Inv s) (i n vi vs : Nat) (r : Option G) (hp : s.pc i = .read n vi vs r) :
    Inv (s.to i (.done r)) :=
  inv_to h (by simp [hp]) (by simp [hp, PC.Owns]) (by simp [PC.Owns]) trivial

theorem inv_stay {s : State G} (h : Inv s) (i n vi vs : Nat) (r : Option G) (hp : s.pc i = .read n vi vs r)
    (hs : s.spl n = vs) : Inv (s.to i (.at_ n (s.ins n) (s.spl n))) := by
  refine inv_to h (by simp [hp]) (by simp [hp, PC.Owns]) (by simp [PC.Owns]) ?_
  have hl := h.loc i
  rw [hp] at hl
  subst hs
  exact ⟨hl.1, Nat.le_refl _⟩

theorem inv_compareLeaf {s : State G} (h : Inv s) (i n vi vs : Nat) (r : Option G) (hp : s.pc i = .read n vi vs r) :
    Inv (s.to i (.cmp n (s.ins n) (s.spl n))) := by
  refine inv_to h (by simp [hp]) (by simp [hp, PC.Owns]) (by simp [PC.Owns]) ?_
  have hl := h.loc i
  rw [hp] at hl
  exact ⟨hl.1.1, hl.1.2.1, Nat.le_refl _, Nat.le_refl _⟩

theorem inv_insideLeaf {s : State G} (h : Inv s) (i n vi vs z : Nat) (hp : s.pc i = .cmp n vi vs) (hf : s.leaf n = true)
    (hz : s.items n z ≠ none ∨ (∀ k, s.items n k = none) ∧ z < s.hi n) (hk : s.key i ≤ z) : Inv (s.to i (.at_ n vi vs)) := by
  refine inv_to h (by simp [hp]) (by simp [hp, PC.Owns]) (by simp [PC.Owns]) ?_
  have hl := h.loc i
  rw [hp] at hl
  obtain ⟨h1, h2, h3, h4⟩ := hl
  have : z < s.hi n := hz.elim (fun hz => (h.dom n z h1 hf hz).2) (·.2)
  exact ⟨⟨h1, h2, h3, fun _ _ => by omega⟩, h4⟩

theorem inv_walk {s : State G} (h : Inv s) (i n vi vs : Nat) (hp : s.pc i = .cmp n vi vs) (hf : s.leaf n = true) :
    Inv (s.to i (.adv n vi vs)) := by
  refine inv_to h (by simp [hp]) (by simp [hp, PC.Owns]) (by simp [PC.Owns]) ?_
  have hl := h.loc i
  rw [hp] at hl
  obtain ⟨h1, h2, h3, h4⟩ := hl
  exact ⟨h1, h2, h3, h4, hf⟩

theorem inv_forward {s : State G} (h : Inv s) (i n vi vs r : Nat) (hp : s.pc i = .adv n vi vs) (hn : s.next n = some r)
    (hb : s.lo r ≤ s.key i) : Inv (s.to i (.go r)) := by
  refine inv_to h (by simp [hp]) (by simp [hp, PC.Owns]) (by simp [PC.Owns]) ?_
  have hl := h.loc i
  rw [hp] at hl
  have := h.next n r hl.1 hl.2.2.2.2 hn
  exact ⟨this.1, hb, this.2.1⟩

theorem inv_arrive {s : State G} (h : Inv s) (i n : Nat) (hp : s.pc i = .go n) : Inv (s.to i (.adv n (s.ins n) (s.spl n))) := by
  refine inv_to h (by simp [hp]) (by simp [hp, PC.Owns]) (by simp [PC.Owns]) ?_
  have hl := h.loc i
  rw [hp] at hl
  exact ⟨hl.1, hl.2.1, Nat.le_refl _, Nat.le_refl _, hl.2.2⟩

theorem inv_arrived {s : State G} (h : Inv s) (i n vi vs : Nat) (hp : s.pc i = .adv n vi vs)
    (hn : ∀ r, s.next n = some r → s.key i < s.lo r) : Inv (s.to i (.at_ n vi vs)) := by
  refine inv_to h (by simp [hp]) (by simp [hp, PC.Owns]) (by simp [PC.Owns]) ?_
  have hk := h.key i (by simp [hp])
  have hl := h.loc i
  rw [hp] at hl
  obtain ⟨h1, h2, h3, h4, h5⟩ := hl
  refine ⟨⟨h1, h2, h3, fun _ _ => ?_⟩, h4⟩
  cases hq : s.next n with
  | none => rw [h.last n h1 h5 hq]; exact hk
  | some r =>
    have := hn r hq
    have := (h.next n r h1 h5 hq).2.2
    omega

theorem inv_return {s : State G} (h : Inv s) (i : Nat) (r : Option G) (hp : s.pc i = .done r) : Inv (s.to i .idle) :=
  inv_to h (by simp [hp]) (by simp [hp, PC.Owns]) (by simp [PC.Owns]) trivial

end Verif.Blink
