import Verif.LockOrder.Steps

/-!
# What is in the tree and what has been given away

A second invariant: which nodes are the roots of their layers, where the layer pointers lead, and which nodes have been
given to `deallocate_rcu`.
-/
namespace Verif.LockOrder

open Function (update)

/-- The node a thread has made or cut off that has no parent but is not the root of its layer: the right half of a split
before it is put into the parent, and the old root in `gc_layer`. -/
def PC.loose : PC → Option Nat
  | .link _ c => some c
  | .par _ c _ _ => some c
  | .wait _ _ c _ _ => some c
  | .got _ _ c _ _ => some c
  | .mod _ _ c _ _ => some c
  | .fin _ x _ _ _ _ => x
  | .fin' _ x _ _ _ => x
  | .rel _ x _ _ => x
  | .gup _ r _ => some r
  | _ => none

/-- The node that is given to `deallocate_rcu` but not yet taken out of the tree. -/
def PC.going : PC → Option Nat
  | .unl n => some n
  | .rpar n _ => some n
  | .rwait _ n _ => some n
  | .rgot _ n _ => some n
  | .rmod _ n _ => some n
  | _ => none

/-- `a` is the first node in the tree on the way from `q` along the parent pointers. -/
inductive State.Leads (s : State) : Nat → Nat → Prop where
  | live {a : Nat} (h : s.Live a) : State.Leads s a a
  | dead {q p a : Nat} (h : s.dead q) (hp : s.parent q = some p) (h' : State.Leads s p a) : State.Leads s q a

/-- A node on its way out. -/
structure State.Out (s : State) (n : Nat) : Prop where
  bare : ∀ r, ¬ s.sub n r
  leaf : s.ht n = 0 → s.lay n ≠ n
  node : 0 < s.ht n → s.parent n ≠ none

/-- What a thread knows at each point, besides `Loc`. -/
def State.Own (s : State) : PC → Prop
  | .unl n => s.Out n
  | .rpar n _ => s.Out n
  | .rwait _ n _ => s.Out n
  | .rgot _ n _ => s.Out n
  | .rmod _ n _ => s.Out n
  | .rnext p => 0 < s.ht p
  | .gc n r => s.sub n r
  | .gwait n r => s.sub n r
  | .ggot n r => s.sub n r
  | .gch n r _ => s.sub n r
  | .gup n r c => s.sub n c ∧ s.Live r ∧ 0 < s.ht r ∧ ∃ a, s.Leads c a ∧ a ≠ r
  | _ => True

structure Tree (s : State) : Prop where
  zero : s.Live 0 ∧ s.lay 0 = 0 ∧ s.dep 0 = 0
  subLive : ∀ n r, s.sub n r → s.Live n ∧ s.ht n = 0
  subOne : ∀ n r n' r', s.sub n r → s.sub n' r' → s.lay r = s.lay r' → n = n' ∧ r = r'
  subAlive : ∀ n r, s.sub n r → s.Live (s.lay r)
  top : ∀ a b, s.Live a → s.Live b → s.parent a = none → s.parent b = none → s.lay a = s.lay b →
    (∀ i, (s.pc i).loose ≠ some a) → (∀ i, (s.pc i).loose ≠ some b) → a = b
  headLay : ∀ q, q < s.fresh → s.lay (s.lay q) = s.lay q ∧ s.ht (s.lay q) = 0
  head : ∀ q, s.Live q → s.Live (s.lay q)
  leads : ∀ q, q < s.fresh → s.Live (s.lay q) → ∃ a, s.Leads q a
  owned : ∀ l, s.Live l → s.lay l = l → l ≠ 0 → ∃ n r, s.sub n r ∧ s.lay r = l
  own : ∀ i, s.Own (s.pc i)
  nodup : s.limbo.Nodup
  gone : ∀ q, q ∈ s.limbo ↔ s.dead q ∨ ∃ i, (s.pc i).going = some q

theorem State.Leads.end {s : State} {q a : Nat} (h : s.Leads q a) : s.Live a := by
  induction h with
  | live h => exact h
  | dead _ _ _ ih => exact ih

theorem State.Leads.lay {key : Nat → Nat → Nat} {s : State} (hi : Inv key s) {q a : Nat} (h : s.Leads q a) : s.lay a = s.lay q := by
  induction h with
  | live h => rfl
  | dead _ hp _ ih => exact ih.trans (hi.parLt _ _ hp).2.2

/-- A dead node that leads anywhere has a parent pointer. -/
theorem State.Leads.hasParent {s : State} {q a : Nat} (h : s.Leads q a) (hd : s.dead q) : ∃ p, s.parent q = some p := by
  cases h with
  | live h => exact absurd hd h.2
  | dead _ hp _ => exact ⟨_, hp⟩

/-- Nothing dies and the dead do not change. -/
theorem State.Leads.keep {s s' : State} {q a : Nat} (h : s.Leads q a) (hf : s.fresh ≤ s'.fresh)
    (hd : ∀ x, x < s.fresh → (s'.dead x ↔ s.dead x)) (hlt : ∀ x, s.dead x → x < s.fresh)
    (hp : ∀ x, s.dead x → s'.parent x = s.parent x) : s'.Leads q a := by
  induction h with
  | live h => exact .live ⟨Nat.lt_of_lt_of_le h.1 hf, fun h' => h.2 ((hd _ h.1).mp h')⟩
  | dead h1 h2 _ ih => exact .dead ((hd _ (hlt _ h1)).mpr h1) ((hp _ h1).trans h2) ih

/-- A node dies that points to a node that leads to `b`. -/
theorem State.Leads.die {s s' : State} {n p b q a : Nat} (h : s.Leads q a)
    (hf : s'.fresh = s.fresh) (hd : ∀ x, s'.dead x ↔ s.dead x ∨ x = n) (hp : ∀ x, s.dead x → s'.parent x = s.parent x)
    (hn : s'.parent n = some p) (hb : s'.Leads p b) : s'.Leads q (if a = n then b else a) := by
  induction h with
  | @live a h =>
    split
    · rename_i e
      exact .dead ((hd a).mpr (.inr e)) (e ▸ hn) hb
    · rename_i e
      exact .live ⟨hf ▸ h.1, fun h' => by rcases (hd a).mp h' with h' | h'; exacts [h.2 h', e h']⟩
  | dead h1 h2 _ ih => exact .dead ((hd _).mpr (.inl h1)) ((hp _ h1).trans h2) ih

section
variable {key : Nat → Nat → Nat} {s : State} (hi : Inv key s) (ht : Tree s)
include hi ht

/-- A layer pointer to a node without a parent is a pointer to a node of the tree. -/
theorem Tree.subTop {n r : Nat} (h : s.sub n r) (hr : s.parent r = none) : s.Live r := by
  have hlt := (hi.subLt n r h).2.1
  refine ⟨hlt, fun hd => ?_⟩
  obtain ⟨a, ha⟩ := ht.leads r hlt (ht.subAlive n r h)
  obtain ⟨p, hp⟩ := ha.hasParent hd
  rw [hr] at hp
  cases hp

theorem Tree.loose {j a : Nat} (h : (s.pc j).loose = some a) : s.lock a = some j ∧ s.Live a ∧ s.parent a = none := by
  have hl := hi.loc j
  have ho := ht.own j
  have hh := hi.held a j
  rw [hh]
  clear hh
  revert h hl ho
  cases s.pc j <;> simp only [PC.loose, PC.held, reduceCtorEq, false_implies, Option.some.injEq] <;> intro h hl ho
  case link => subst h; exact ⟨by simp, hl.right, hl.loose⟩
  case par => subst h; exact ⟨by simp, hl.right, hl.loose⟩
  case wait => subst h; exact ⟨by simp, hl.1.right, hl.1.loose⟩
  case got => subst h; exact ⟨by simp, hl.1.right, hl.1.loose⟩
  case mod => subst h; exact ⟨by simp, hl.1.right, hl.1.loose⟩
  case fin =>
    subst h
    obtain ⟨q, _, _, h3, _, _, _, h7⟩ := hl.2.2.2.2.2.2.2.half a rfl
    exact ⟨by simp, h3, h7⟩
  case fin' =>
    subst h
    obtain ⟨q, _, _, h3, _, _, _, h7⟩ := hl.2.2.2.2.2.2.half a rfl
    exact ⟨by simp, h3, h7⟩
  case rel =>
    subst h
    obtain ⟨q, _, _, h3, _, _, _, h7⟩ := hl.2.2.half a rfl
    exact ⟨by simp, h3, h7⟩
  case gup => subst h; exact ⟨by simp, ho.2.1, hl.2.2.2.2.1⟩

theorem Tree.outgoing {j n : Nat} (h : (s.pc j).going = some n) : s.lock n = some j ∧ s.Live n ∧ s.Out n := by
  have hl := hi.loc j
  have ho := ht.own j
  have hh := hi.held n j
  rw [hh]
  clear hh
  revert h hl ho
  cases s.pc j <;> simp only [PC.going, PC.held, reduceCtorEq, false_implies, Option.some.injEq] <;> intro h hl ho <;> subst h
  case unl => exact ⟨by simp, hl.1, ho⟩
  case rpar => exact ⟨by simp, hl.live, ho⟩
  case rwait => exact ⟨by simp, hl.1.live, ho⟩
  case rgot => exact ⟨by simp, hl.1.live, ho⟩
  case rmod => exact ⟨by simp, hl.1.live, ho⟩

/-- The other half. -/
theorem Tree.partner {j a : Nat} (h : (s.pc j).loose = some a) :
    (∃ n c, s.pc j = .gup n a c) ∨
    ∃ m, s.lock m = some j ∧ s.Live m ∧ m ≠ a ∧ s.lay m = s.lay a ∧ s.ht m = s.ht a ∧ ∀ n r c, s.pc j ≠ .gup n r c := by
  have hl := hi.loc j
  have hh := fun q => hi.held q j
  simp only [hh]
  clear hh
  revert h hl
  cases s.pc j <;> simp only [PC.loose, PC.held, reduceCtorEq, false_implies, Option.some.injEq] <;> intro h hl
  case link n c => subst h; exact .inr ⟨n, by simp, hl.left, hl.ne, hl.lay.symm, hl.hn.trans hl.hc.symm, by simp⟩
  case par n c t h' => subst h; exact .inr ⟨n, by simp, hl.left, hl.ne, hl.lay.symm, hl.hn.trans hl.hc.symm, by simp⟩
  case wait p n c t h' => subst h; exact .inr ⟨n, by simp, hl.1.left, hl.1.ne, hl.1.lay.symm, hl.1.hn.trans hl.1.hc.symm, by simp⟩
  case got p n c t h' => subst h; exact .inr ⟨n, by simp, hl.1.left, hl.1.ne, hl.1.lay.symm, hl.1.hn.trans hl.1.hc.symm, by simp⟩
  case mod p n c t h' => subst h; exact .inr ⟨n, by simp, hl.1.left, hl.1.ne, hl.1.lay.symm, hl.1.hn.trans hl.1.hc.symm, by simp⟩
  case fin =>
    subst h
    have hA := hl.2.2.2.2.2.2.2
    obtain ⟨q, rfl, h2, h3, h4, h5, h6, h7⟩ := hA.half a rfl
    obtain ⟨k1, k2, k3⟩ := hA.live q rfl
    exact .inr ⟨q, by simp, k1, h2, k2.trans h4.symm, h5.trans h6.symm, by simp⟩
  case fin' =>
    subst h
    have hA := hl.2.2.2.2.2.2
    obtain ⟨q, rfl, h2, h3, h4, h5, h6, h7⟩ := hA.half a rfl
    obtain ⟨k1, k2, k3⟩ := hA.live q rfl
    exact .inr ⟨q, by simp, k1, h2, k2.trans h4.symm, h5.trans h6.symm, by simp⟩
  case rel =>
    subst h
    have hA := hl.2.2
    obtain ⟨q, rfl, h2, h3, h4, h5, h6, h7⟩ := hA.half a rfl
    obtain ⟨k1, k2, k3⟩ := hA.live q rfl
    exact .inr ⟨q, by simp, k1, h2, k2.trans h4.symm, h5.trans h6.symm, by simp⟩
  case gup n r c => subst h; exact .inl ⟨n, c, rfl⟩

omit hi ht in
/-- Heights are bounded. -/
theorem bound (f : Nat → Nat) (m : Nat) : ∃ H, ∀ x, x < m → f x ≤ H := by
  induction m with
  | zero => exact ⟨0, fun x hx => by omega⟩
  | succ m ih =>
    obtain ⟨H, h⟩ := ih
    refine ⟨max H (f m), fun x hx => ?_⟩
    rcases Nat.lt_succ_iff_lt_or_eq.mp hx with h' | rfl
    · exact Nat.le_trans (h x h') (Nat.le_max_left ..)
    · exact Nat.le_max_right ..

/-- A leaf that is the root of its layer is alone in it (but for an old root that `gc_layer` is about to give up). -/
theorem Tree.alone {i r : Nat} (hr : s.Live r) (hh : s.ht r = 0) (hp : s.parent r = none) (hl : s.lock r = some i)
    (hpc : (s.pc i).loose = none) (q : Nat) (hq : s.Live q) (hlay : s.lay q = s.lay r)
    (hg : ∀ j n c, s.pc j ≠ .gup n q c) : q = r := by
  have loose : ∀ {j a}, (s.pc j).loose = some a → s.lock a = some j ∧ s.Live a ∧ s.parent a = none := Tree.loose hi ht
  have hloose : ∀ j, (s.pc j).loose ≠ some r := by
    intro j hj
    have := (loose hj).1
    rw [hl] at this
    cases this
    rw [hpc] at hj
    cases hj
  obtain ⟨H, hH⟩ := bound s.ht s.fresh
  obtain ⟨d, hd⟩ : ∃ d, d = H - s.ht q := ⟨_, rfl⟩
  induction d using Nat.strongRecOn generalizing q with
  | _ d ih =>
    have up : ∀ m, s.Live m → s.ht m = s.ht q → s.lay m = s.lay r → s.parent m = none := by
      intro m h1 h2 h3
      cases h4 : s.parent m with
      | none => rfl
      | some p =>
        exfalso
        obtain ⟨k1, k2, k3, k4⟩ := hi.up h1 h4
        have := hH p k1.1
        have hpr := ih (H - s.ht p) (by omega) p k1 (k3.trans h3) (fun j n c e => by
          have := hi.loc j
          rw [e] at this
          exact this.2.2.2.2.2.1 m k2) rfl
        subst hpr
        omega
    have hq' := up q hq rfl hlay
    by_cases hlo : ∃ j, (s.pc j).loose = some q
    · obtain ⟨j, hj⟩ := hlo
      exfalso
      rcases Tree.partner hi ht hj with ⟨n, c, e⟩ | ⟨m, h1, h2, h3, h4, h5, h6⟩
      · exact hg j n c e
      · have hm := up m h2 h5 (h4.trans hlay)
        have hmr : m = r := by
          refine ht.top m r h2 hr hm hp (h4.trans hlay) (fun k hk => ?_) hloose
          have := (loose hk).1
          rw [h1] at this
          cases this
          rw [hj] at hk
          cases hk
          exact h3 rfl
        subst hmr
        rw [hl] at h1
        cases h1
        rw [hpc] at hj
        cases hj
    · exact ht.top q r hq hr hq' hp hlay (fun j hj => hlo ⟨j, hj⟩) hloose

/-- `remove_leaf` finds a parent. -/
theorem Tree.has_parent {i n : Nat} (h : (s.pc i).going = some n) : s.parent n ≠ none := by
  intro hp
  obtain ⟨h1, h2, h3⟩ := Tree.outgoing hi ht h
  by_cases hh : s.ht n = 0
  · have hlo : (s.pc i).loose = none := by
      revert h
      cases s.pc i <;> simp [PC.going, PC.loose]
    obtain ⟨k1, k2⟩ := ht.headLay n h2.1
    refine h3.leaf hh (Tree.alone hi ht h2 hh hp h1 hlo (s.lay n) (ht.head n h2) k1 fun j m c e => ?_)
    have := ht.own j
    rw [e] at this
    have := this.2.2.1
    omega
  · exact h3.node (by omega) hp

/-- Two threads are not in `gc_layer` for the same layer. -/
theorem Tree.one_gc {i j n r n' r' c' : Nat} (h : s.lock n = some i) (hs : s.sub n r) (h' : s.pc j = .gup n' r' c')
    (hlay : s.lay r' = s.lay r) : i = j := by
  have ho := ht.own j
  have hl := hi.loc j
  rw [h'] at ho hl
  obtain ⟨e, _⟩ := ht.subOne n r n' c' hs ho.1 (by rw [hl.2.2.2.2.2.2.2, hlay])
  subst e
  have := (hi.held n j).mpr (by rw [h']; simp [PC.held])
  rw [h] at this
  exact Option.some.inj this

end

end Verif.LockOrder
