import Verif.Prune.Neat

/-!
# Such runs are tidy
-/
namespace Verif.Prune

variable {G : Type} {up : List Nat → Nat → Nat}

/-- A node with a child is not deleted. -/
theorem Inv.has {s : State G} (h : Inv s) {p q : Nat} (hp : p < s.fresh) (hl : s.leaf p = false) (hq : some q ∈ s.kids p) :
    s.dead p = false := by
  cases hd : s.dead p with
  | false => rfl
  | true => rw [(h.deadNode p hp hl hd).2] at hq; simp at hq

theorem Inv.has' {s : State G} (h : Inv s) {p q : Nat} (hp : p < s.fresh) (hl : s.leaf p = false) (hq : some q ∈ s.kids p) :
    Node s.lo s.elo s.bd (s.lo p) (s.elo p) (s.hi p) (s.keys p) (s.kids p) := h.node p hp hl (h.has hp hl hq)

theorem Inv.in {s : State G} (h : Inv s) {p q : Nat} (hp : p < s.fresh) (hl : s.leaf p = false) (hq : some q ∈ s.kids p) :
    s.elo p ≤ s.elo q ∧ s.bd q ≤ s.hi p :=
  ((h.has' hp hl hq).order fun c hc => (h.rng c (h.kid p c hp hl hc).1).1).2 q hq

theorem State.Good.mem {s : State G} {a k q : Nat} (hg : s.Good a k) (hq : s.parent a = some q) : some a ∈ s.kids q := by
  obtain ⟨j, h1, _⟩ := hg q hq
  exact mem_of_get h1

/-- The search finds the node. -/
theorem State.Good.found (hu : Counts up) {s : State G} (h : Inv s) {a k q : Nat} (ha : a < s.fresh) (hg : s.Good a k)
    (hk : k < s.bd a) (hq : s.parent a = some q) :
    (s.kids q)[up (s.keys q) k]? = some (some a) ∧
    (∀ j z, up (s.keys q) k = j + 1 → (s.keys q)[j]? = some z → z ≤ k) ∧
    ∀ z, (s.keys q)[up (s.keys q) k]? = some z → s.bd a ≤ z := by
  obtain ⟨q1, q2, _⟩ := h.parent a q ha hq
  have hn := h.has' q1 q2 (hg.mem hq)
  obtain ⟨j, h1, h2, h3⟩ := hg q hq
  have hj : j < (s.kids q).length := (List.getElem?_eq_some_iff.1 h1).1
  rw [hn.length] at hj
  have : up (s.keys q) k = j := by
    rw [hu _ _ (h.sorted q q1 q2)]
    exact count_at (h.sorted q q1 q2) (by omega) h2 fun z hz => by have := h3 z hz; omega
  rw [this]
  exact ⟨h1, h2, h3⟩

/-- Ranges above. -/
theorem Anc.range {s : State G} (h : Inv s) (hf : ∀ n, n < s.fresh → s.bd n = s.hi n) {m a : Nat} (hm : m < s.fresh)
    (hk : ∀ a q, Anc s.parent m a → s.parent a = some q → some a ∈ s.kids q) (ha : Anc s.parent m a) :
    s.elo a ≤ s.elo m ∧ s.bd m ≤ s.bd a := by
  induction ha with
  | refl => exact ⟨Nat.le_refl _, Nat.le_refl _⟩
  | up ha hq ih =>
    obtain ⟨q1, q2, _⟩ := h.parent _ _ (ha.lt h hm) hq
    have h1 := h.in q1 q2 (hk _ _ ha hq)
    rw [hf _ q1]
    omega

theorem State.Goods.range {s : State G} (h : Inv s) (hf : ∀ n, n < s.fresh → s.bd n = s.hi n) {m a k : Nat} (hm : m < s.fresh)
    (hg : s.Goods m k) (ha : Anc s.parent m a) : s.elo a ≤ s.elo m ∧ s.bd m ≤ s.bd a :=
  ha.range h hf hm fun a q h1 h2 => (hg.1 a h1).mem h2

theorem Neat.tidy (hu : Counts up) {s : State G} (h : Inv s) (hl : Lone s) (hn : Neat s) : Tidy up s := by
  constructor
  · intro i p n c x t hp
    have hloc := h.loc i
    rw [hp] at hloc
    obtain ⟨⟨⟨a1, a2, a3, a4, a5, a6, a7, a8⟩, b1, b2⟩, lv, h3, h4, _, _, _, _, h5, _⟩ := hloc
    have hnr : ∀ k, ¬ (s.pc k).Removing := by
      intro k hk
      have := hl.other h hk (j := i) (n := n) (by rw [hp]; exact Or.inr (Or.inl rfl))
      subst this
      rw [hp] at hk; exact hk
    have ht := hn.tree hnr
    obtain ⟨e1, e2, e3, e4, _⟩ := hn.new i n c x (by rw [hp]; exact ⟨rfl, rfl, rfl⟩)
    obtain ⟨q1, q2, _⟩ := h.parent n p a1 h5
    have hm := ht.sub n p a1 h5 (Or.inl e3) (by simp [PC.Repl])
    have hnode := h.has' q1 q2 hm
    obtain ⟨j, hj, e⟩ := List.mem_iff_getElem.1 hm
    have hjn : (s.kids p)[j]? = some (some n) := by rw [List.getElem?_eq_getElem hj, e]
    rw [hnode.length] at hj
    have hlt : ∀ j' z, j = j' + 1 → (s.keys p)[j']? = some z → z < x := by
      rintro j' z rfl hz
      rcases ht.exact p j' z n q1 q2 hz hjn with h6 | ⟨m, h6, _⟩
      · omega
      · cases h6
    have hgt : ∀ z, (s.keys p)[j]? = some z → x < z := by
      intro z hz
      obtain ⟨q, h6, h7⟩ := hnode.next hjn hz
      rcases ht.exact p j z q q1 q2 hz h6 with h8 | ⟨m, h8, _⟩
      · omega
      · cases h8
    have hs := h.sorted p q1 q2
    have hj' : up (s.keys p) x = j := by
      rw [hu _ _ hs]
      exact count_at hs (by omega) (fun j' z e hz => Nat.le_of_lt (hlt j' z e hz)) hgt
    rw [hj']
    exact ⟨hjn, not_mem_at hs (by omega) hlt hgt⟩
  · intro i p n r ik hp
    have hloc := h.loc i
    obtain ⟨_, ht⟩ := hn.task i (by rw [hp]; trivial)
    rw [hp] at ht hloc
    have hnf : n < s.fresh := by
      have := hloc.1
      cases r with
      | none => exact this.1
      | some c => exact this.1
    exact (State.Good.found hu h hnf (ht.1.1 n .refl) ht.1.2 hloc.2.2.2.1).1
  · intro i u q p n ik y hp
    have hloc := h.loc i
    obtain ⟨_, ht⟩ := hn.task i (by rw [hp]; trivial)
    rw [hp] at ht hloc
    obtain ⟨hin, hsh, hab, h3, h4, h5⟩ := hloc
    obtain ⟨t1, t2, t3, t4, t5⟩ := ht
    obtain ⟨g1, g2, g3⟩ := State.Good.found hu h hsh.1 (t1.1 q .refl) t1.2 h5
    have hgy := t2.1 q t3
    have hyb : y < s.bd q := hsh.2.2.2.2
    obtain ⟨f1, f2, f3⟩ := State.Good.found hu h hsh.1 hgy hyb h5
    -- both searches find the same place
    have hsame : up (s.keys u) y = up (s.keys u) ik := by
      obtain ⟨q1, q2, _⟩ := h.parent q u hsh.1 h5
      have hd := h.nodup u q1 q2
      obtain ⟨b1, e1⟩ := List.getElem?_eq_some_iff.1 f1
      obtain ⟨b2, e2⟩ := List.getElem?_eq_some_iff.1 g1
      exact (List.Nodup.getElem_inj_iff hd).1 (e1.trans e2.symm)
    refine ⟨g1, fun j hj => ⟨fun z hz => f2 j z (by rw [hsame]; exact hj) hz, fun z hz => ?_⟩⟩
    have := g3 z (by rw [hj]; exact hz)
    omega

end Verif.Prune
