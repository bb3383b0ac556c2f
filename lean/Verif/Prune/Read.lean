import Verif.Prune.Frame

/-!
# The steps of readers keep the invariant
-/
namespace Verif.Prune

variable {G : Type}

theorem inv_reader {s : State G} (h : Inv s) {i : Nat} {x : PC G} (k b : Nat) (f : Option (Option G → Option G))
    (ho : ∀ q, ¬ (s.pc i).Owns q) (hx : ∀ q, ¬ x.Owns q) (hk : k < top) (hb : b < s.fresh ∧ s.lo b = 0) (hl : s.Loc k x) :
    Inv (State.to { s with key := Function.update s.key i k, base := Function.update s.base i b,
                           fn := Function.update s.fn i f } i x) := by
  have hno : ∀ n, s.lock n ≠ some i := fun n hn => ho n (h.lck i n hn)
  have hhold : ∀ n, State.holder (State.to { s with key := Function.update s.key i k, base := Function.update s.base i b,
                                                         fn := Function.update s.fn i f } i x) n = s.holder n := by
    intro n
    show (match s.lock n with | some j => Function.update s.pc i x j | none => .idle) = s.holder n
    unfold State.holder
    cases hn : s.lock n with
    | none => rfl
    | some j =>
      have : j ≠ i := by rintro rfl; exact hno n hn
      simp [Function.update_of_ne this]
  constructor
  case own =>
    intro j n hj
    by_cases hji : j = i
    · subst hji
      simp only [State.to, Function.update_self] at hj
      exact absurd hj (hx n)
    · simp only [State.to, Function.update_of_ne hji] at hj
      exact h.own j n hj
  case lck =>
    intro j n hj
    by_cases hji : j = i
    · subst hji; exact absurd hj (hno n)
    · simp only [State.to, Function.update_of_ne hji]
      exact h.lck j n hj
  case skew => intro n hn; rw [hhold]; exact h.skew n hn
  case att => intro n hn; rw [hhold]; exact h.att n hn
  case disj => intro a b k; rw [hhold]; exact h.disj a b k
  case base =>
    intro j
    by_cases hji : j = i
    · subst hji; intro _; simp only [State.to, Function.update_self]; exact hb
    · simp only [State.to, Function.update_of_ne hji]; exact h.base j
  case key =>
    intro j
    by_cases hji : j = i
    · subst hji; intro _; simp only [State.to, Function.update_self]; exact hk
    · simp only [State.to, Function.update_of_ne hji]; exact h.key j
  case loc =>
    intro j
    by_cases hji : j = i
    · subst hji; simp only [State.to, Function.update_self]; exact hl
    · simp only [State.to, Function.update_of_ne hji]; exact h.loc j
  case dirty => exact h.dirty
  case alloc => exact h.alloc
  case rng => exact h.rng
  case live => exact h.live
  case gone => exact h.gone
  case parent => exact h.parent
  case node => exact h.node
  case deadNode => exact h.deadNode
  case keys => exact h.keys
  case sorted => exact h.sorted
  case kid => exact h.kid
  case nodup => exact h.nodup
  case rt => exact h.rt
  case root => exact h.root
  case val => exact h.val
  case dom => exact h.dom
  case last => exact h.last
  case next => exact h.next

theorem inv_to {s : State G} (h : Inv s) {i : Nat} {x : PC G} (hp : s.pc i ≠ .idle) (ho : ∀ q, ¬ (s.pc i).Owns q)
    (hx : ∀ q, ¬ x.Owns q) (hl : s.Loc (s.key i) x) : Inv (s.to i x) := by
  have := inv_reader h (s.key i) (s.base i) (s.fn i) ho hx (h.key i hp) (h.base i hp) hl
  rwa [Function.update_eq_self, Function.update_eq_self, Function.update_eq_self] at this

/-- The parent of a leftmost node is one. -/
theorem Inv.parent_left {s : State G} (h : Inv s) {n p : Nat} (hn : n < s.fresh) (hl : s.lo n = 0) (hp : s.parent n = some p) :
    p < s.fresh ∧ s.lo p = 0 :=
  ⟨(h.parent n p hn hp).1, (h.parent n p hn hp).2.2 hl⟩

/-- What the parent knows is right unless the node is marked. -/
theorem Inv.le {s : State G} (h : Inv s) {n : Nat} (hn : n < s.fresh) (hd : s.dS n = false) : s.bd n ≤ s.hi n := by
  rcases h.skew n hn with h1 | h1
  · omega
  · unfold State.holder at h1
    cases hq : s.lock n with
    | none => rw [hq] at h1; exact h1.elim
    | some j =>
      rw [hq] at h1
      change (s.pc j).Skew n at h1
      have hl := h.loc j
      generalize s.pc j = x at h1 hl
      cases x with
      | par a c x t =>
        obtain ⟨rfl, ht⟩ := h1
        cases t with
        | none => exact absurd rfl ht
        | some t => have := hl.2.1.2.1; rw [hd] at this; cases this
      | got p a c x t =>
        obtain ⟨rfl, ht⟩ := h1
        cases t with
        | none => exact absurd rfl ht
        | some t => have := hl.2.1.2.1; rw [hd] at this; cases this
      | mod p a c x t =>
        obtain ⟨rfl, ht⟩ := h1
        cases t with
        | none => exact absurd rfl ht
        | some t => have := hl.2.1.2.1; rw [hd] at this; cases this
      | fin p nx a c x t =>
        obtain ⟨b1, b2, b3, b4, b5, b6, b7⟩ := hl
        rcases h1 with ⟨rfl, rfl⟩ | ⟨rfl, hx⟩
        · obtain ⟨c1, c2, c3, c4, c5, c6, c7, c8, c9, c10, c11⟩ := b3
          have := h.live c b1.2.1 (by rw [b1.2.2.2.2.2.2.2]; exact c1) c11
          have := b1.2.2.2.2.1
          omega
        · match nx with
          | none => exact absurd rfl hx
          | some (d, y) => have := b6.2.1; rw [hd] at this; cases this
      | cut p nx a c x =>
        obtain ⟨b1, b2, b3, b4, b5, b6⟩ := hl
        rcases h1 with rfl | ⟨rfl, hx⟩
        · rw [hd] at b4; cases b4
        · match nx with
          | none => exact absurd rfl hx
          | some (d, y) => have := b5.2.1; rw [hd] at this; cases this
      | rel p nx q t =>
        obtain ⟨b1, b2, b3, b5, b6⟩ := hl
        obtain ⟨rfl, hx⟩ := h1
        match nx with
        | none => exact absurd rfl hx
        | some (d, y) => have := b5.2.1; rw [hd] at this; cases this
      | _ => exact h1.elim

/-- A leaf that is not deleted is not unlinked. -/
theorem Inv.linked {s : State G} (h : Inv s) {n : Nat} (hn : n < s.fresh) (hd : s.dead n = false) : s.gone n = false := by
  cases hg : s.gone n with
  | false => rfl
  | true => rw [(h.gone n hn hg).2.1] at hd; cases hd

theorem inv_start {s : State G} (h : Inv s) (i k : Nat) (f : Option (Option G → Option G)) (hk : k < top) (hp : s.pc i = .idle) :
    Inv (State.to { s with key := Function.update s.key i k, base := Function.update s.base i s.root,
                           fn := Function.update s.fn i f } i (.up s.root)) :=
  inv_reader h k s.root f (by simp [hp, PC.Owns]) (by simp [PC.Owns]) hk h.root h.root

theorem inv_fixRoot {s : State G} (h : Inv s) (p : Nat) (hp : s.parent s.root = some p) : Inv { s with root := p } :=
  { own := h.own
    lck := h.lck
    dirty := h.dirty
    alloc := h.alloc
    rng := h.rng
    live := h.live
    gone := h.gone
    skew := h.skew
    att := h.att
    parent := h.parent
    node := h.node
    deadNode := h.deadNode
    keys := h.keys
    sorted := h.sorted
    kid := h.kid
    nodup := h.nodup
    rt := h.rt
    root := h.parent_left h.root.1 h.root.2 hp
    base := h.base
    key := h.key
    val := h.val
    dom := h.dom
    disj := h.disj
    last := h.last
    next := h.next
    loc := h.loc }

theorem inv_rooted {s : State G} (h : Inv s) (i n : Nat) (hp : s.pc i = .up n) (hc : s.clean n) (hr : s.rt n = true) :
    Inv (s.to i (.at_ n (s.ins n) (s.spl n))) := by
  refine inv_to h (by simp [hp]) (by simp [hp, PC.Owns]) (by simp [PC.Owns]) ?_
  have hl := h.loc i
  have hk := h.key i (by simp [hp])
  rw [hp] at hl
  obtain ⟨h1, h2⟩ := hl
  have := h.rt n h1 hr h2 hc.2
  exact ⟨⟨h1, by omega, Nat.le_refl _, fun _ _ _ => by omega⟩, Nat.le_refl _⟩

theorem inv_climb {s : State G} (h : Inv s) (i n : Nat) (hp : s.pc i = .up n) : Inv (s.to i (.up ((s.parent n).getD n))) := by
  refine inv_to h (by simp [hp]) (by simp [hp, PC.Owns]) (by simp [PC.Owns]) ?_
  have hl := h.loc i
  rw [hp] at hl
  cases hq : s.parent n with
  | none => exact hl
  | some p => exact h.parent_left hl.1 hl.2 hq

theorem inv_pick {up : List Nat → Nat → Nat} (hu : Counts up) {s : State G} (h : Inv s) (i n vi vs c : Nat)
    (hp : s.pc i = .at_ n vi vs) (hf : s.leaf n = false)
    (hc : Seen s n vi vs (s.route up n (s.key i) = some c)) : Inv (s.to i (.pick n vi vs c)) := by
  refine inv_to h (by simp [hp]) (by simp [hp, PC.Owns]) (by simp [PC.Owns]) ?_
  have hl := h.loc i
  rw [hp] at hl
  obtain ⟨⟨a1, a2, a3, a4⟩, a5⟩ := hl
  refine ⟨⟨a1, a2, a3, a4⟩, a5, hf, fun hs => ?_⟩
  have hr := hc hs
  unfold State.route at hr
  rw [hu _ _ (h.sorted n a1 hf)] at hr
  cases hd : s.dead n with
  | true =>
    obtain ⟨e1, e2⟩ := h.deadNode n a1 hf hd
    rw [e1, e2] at hr
    simp at hr
  | false =>
    obtain ⟨r1, r2, r3⟩ := (h.node n a1 hf hd).route (h.sorted n a1 hf) (a4 hs.2.2 hs.1.2 hd) a2 hr
    obtain ⟨k1, k2⟩ := h.kid n c a1 hf r1
    exact ⟨k1, k2, r2, r3⟩

theorem inv_child {s : State G} (h : Inv s) (i n vi vs c : Nat) (hp : s.pc i = .pick n vi vs c) :
    Inv (s.to i (.picked n vi vs c (s.ins c) (s.spl c))) := by
  refine inv_to h (by simp [hp]) (by simp [hp, PC.Owns]) (by simp [PC.Owns]) ?_
  have hl := h.loc i
  rw [hp] at hl
  obtain ⟨h1, h2, h3, h4⟩ := hl
  refine ⟨h1, h2, h3, fun hs => ?_⟩
  obtain ⟨c1, c2, c3, c4⟩ := h4 hs
  exact ⟨⟨c1, c3, Nat.le_refl _, fun _ hd _ => Nat.lt_of_lt_of_le c4 (h.le c1 hd)⟩, Nat.le_refl _⟩

theorem inv_descend {s : State G} (h : Inv s) (i n vi vs c ci cs : Nat) (hp : s.pc i = .picked n vi vs c ci cs)
    (hs : s.same n vi vs) : Inv (s.to i (.at_ c ci cs)) := by
  refine inv_to h (by simp [hp]) (by simp [hp, PC.Owns]) (by simp [PC.Owns]) ?_
  have hl := h.loc i
  rw [hp] at hl
  exact hl.2.2.2 hs

theorem inv_again {s : State G} (h : Inv s) (i n vi vs c ci cs : Nat) (hp : s.pc i = .picked n vi vs c ci cs)
    (hs : s.spl n = vs) : Inv (s.to i (.at_ n (s.ins n) (s.spl n))) := by
  refine inv_to h (by simp [hp]) (by simp [hp, PC.Owns]) (by simp [PC.Owns]) ?_
  have hl := h.loc i
  rw [hp] at hl
  subst hs
  exact ⟨hl.1, Nat.le_refl _⟩

theorem inv_compare {s : State G} (h : Inv s) (i n vi vs c ci cs : Nat) (hp : s.pc i = .picked n vi vs c ci cs) :
    Inv (s.to i (.cmp n (s.ins n) (s.spl n))) := by
  refine inv_to h (by simp [hp]) (by simp [hp, PC.Owns]) (by simp [PC.Owns]) ?_
  have hl := h.loc i
  rw [hp] at hl
  exact ⟨hl.1.1, hl.1.2.1, Nat.le_refl _, Nat.le_refl _⟩

theorem inv_inside {s : State G} (h : Inv s) (i n vi vs z : Nat) (hp : s.pc i = .cmp n vi vs) (hf : s.leaf n = false)
    (hz : z ∈ s.keys n) (hk : s.key i ≤ z) : Inv (s.to i (.at_ n vi vs)) := by
  refine inv_to h (by simp [hp]) (by simp [hp, PC.Owns]) (by simp [PC.Owns]) ?_
  have hl := h.loc i
  rw [hp] at hl
  obtain ⟨h1, h2, h3, h4⟩ := hl
  have := (h.keys n z h1 hf hz).2
  exact ⟨⟨h1, h2, h3, fun _ _ _ => by omega⟩, h4⟩

theorem inv_retry {s : State G} (h : Inv s) (i n vi vs c : Nat) (hp : s.pc i = .at_ n vi vs ∨ s.pc i = .pick n vi vs c ∨ s.pc i = .cmp n vi vs) :
    Inv (s.to i (.up (s.base i))) := by
  have hne : s.pc i ≠ .idle := by rcases hp with hp | hp | hp <;> simp [hp]
  exact inv_to h hne (by rcases hp with hp | hp | hp <;> simp [hp, PC.Owns]) (by simp [PC.Owns]) (h.base i hne)

theorem inv_look {s : State G} (h : Inv s) (i n vi vs : Nat) (r : Option G) (hp : s.pc i = .at_ n vi vs)
    (hf : s.leaf n = true) (hd : s.spl n = vs → s.dS n = false → s.dead n = false) : Inv (s.to i (.read n vi vs r)) := by
  refine inv_to h (by simp [hp]) (by simp [hp, PC.Owns]) (by simp [PC.Owns]) ?_
  have hl := h.loc i
  rw [hp] at hl
  exact ⟨hl.1, hl.2, hf, hd⟩

theorem inv_found {s : State G} (h : Inv s) (i n vi vs : Nat) (r : Option G) (hp : s.pc i = .read n vi vs r) :
    Inv (s.to i (.done r)) :=
  inv_to h (by simp [hp]) (by simp [hp, PC.Owns]) (by simp [PC.Owns]) trivial

theorem inv_stay {s : State G} (h : Inv s) (i n vi vs : Nat) (r : Option G) (hp : s.pc i = .read n vi vs r)
    (hs : s.spl n = vs) : Inv (s.to i (.at_ n (s.ins n) (s.spl n))) := by
  refine inv_to h (by simp [hp]) (by simp [hp, PC.Owns]) (by simp [PC.Owns]) ?_
  have hl := h.loc i
  rw [hp] at hl
  subst hs
  exact ⟨hl.1, Nat.le_refl _⟩

theorem inv_compareLeaf {s : State G} (h : Inv s) (i n vi vs : Nat) (r : Option G) (hp : s.pc i = .read n vi vs r) :
    Inv (s.to i (.cmp n (s.ins n) (s.spl n))) := by
  refine inv_to h (by simp [hp]) (by simp [hp, PC.Owns]) (by simp [PC.Owns]) ?_
  have hl := h.loc i
  rw [hp] at hl
  exact ⟨hl.1.1, hl.1.2.1, Nat.le_refl _, Nat.le_refl _⟩

theorem inv_insideLeaf {s : State G} (h : Inv s) (i n vi vs z : Nat) (hp : s.pc i = .cmp n vi vs) (hf : s.leaf n = true)
    (hz : s.items n z ≠ none ∨ s.lo n ≤ z ∧ z < s.hi n ∨ s.dead n = true) (hk : s.key i ≤ z) : Inv (s.to i (.at_ n vi vs)) := by
  refine inv_to h (by simp [hp]) (by simp [hp, PC.Owns]) (by simp [PC.Owns]) ?_
  have hl := h.loc i
  rw [hp] at hl
  obtain ⟨h1, h2, h3, h4⟩ := hl
  refine ⟨⟨h1, h2, h3, fun _ _ hd => ?_⟩, h4⟩
  rcases hz with hz | hz | hz
  · have := (h.dom n z h1 hf (h.linked h1 hd) hz).2
    omega
  · omega
  · rw [hd] at hz; cases hz

theorem inv_walk {s : State G} (h : Inv s) (i n vi vs : Nat) (hp : s.pc i = .cmp n vi vs) (hf : s.leaf n = true) :
    Inv (s.to i (.adv n vi vs)) := by
  refine inv_to h (by simp [hp]) (by simp [hp, PC.Owns]) (by simp [PC.Owns]) ?_
  have hl := h.loc i
  rw [hp] at hl
  obtain ⟨h1, h2, h3, h4⟩ := hl
  exact ⟨h1, h2, h3, h4, hf⟩

theorem inv_forward {s : State G} (h : Inv s) (i n vi vs r : Nat) (hp : s.pc i = .adv n vi vs) (hn : s.next n = some r)
    (hb : s.lo r ≤ s.key i) : Inv (s.to i (.go r)) := by
  refine inv_to h (by simp [hp]) (by simp [hp, PC.Owns]) (by simp [PC.Owns]) ?_
  have hl := h.loc i
  rw [hp] at hl
  have := h.next n r hl.1 hl.2.2.2.2 hn
  exact ⟨this.1, hb, this.2.1⟩

theorem inv_arrive {s : State G} (h : Inv s) (i n : Nat) (hp : s.pc i = .go n) : Inv (s.to i (.adv n (s.ins n) (s.spl n))) := by
  refine inv_to h (by simp [hp]) (by simp [hp, PC.Owns]) (by simp [PC.Owns]) ?_
  have hl := h.loc i
  rw [hp] at hl
  exact ⟨hl.1, hl.2.1, Nat.le_refl _, Nat.le_refl _, hl.2.2⟩

theorem inv_arrived {s : State G} (h : Inv s) (i n vi vs : Nat) (hp : s.pc i = .adv n vi vs)
    (hn : s.dead n = true ∨ ∀ r, s.next n = some r → s.key i < s.lo r) : Inv (s.to i (.at_ n vi vs)) := by
  refine inv_to h (by simp [hp]) (by simp [hp, PC.Owns]) (by simp [PC.Owns]) ?_
  have hk := h.key i (by simp [hp])
  have hl := h.loc i
  rw [hp] at hl
  obtain ⟨h1, h2, h3, h4, h5⟩ := hl
  refine ⟨⟨h1, h2, h3, fun _ _ hd => ?_⟩, h4⟩
  replace hn := hn.resolve_left (by simp [hd])
  cases hq : s.next n with
  | none => rw [h.last n h1 h5 (h.linked h1 hd) hq]; exact hk
  | some r =>
    have := hn r hq
    have := (h.next n r h1 h5 hq).2.2 (h.linked h1 hd)
    omega

theorem inv_return {s : State G} (h : Inv s) (i : Nat) (r : Option G) (hp : s.pc i = .done r) : Inv (s.to i .idle) :=
  inv_to h (by simp [hp]) (by simp [hp, PC.Owns]) (by simp [PC.Owns]) trivial

end Verif.Prune
