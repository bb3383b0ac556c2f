import Verif.LockOrder.Own

/-!
# Every step keeps the second invariant
-/
namespace Verif.LockOrder

open Function (update)

/-- What other threads see of a step of a thread that holds the locks of the nodes in `H`. -/
structure Calm (H : Nat → Prop) (s s' : State) : Prop where
  fresh : s.fresh ≤ s'.fresh
  ht : ∀ x, x < s.fresh → s'.ht x = s.ht x
  lay : ∀ x, x < s.fresh → s'.lay x = s.lay x
  dead : ∀ x, x < s.fresh → ¬ H x → (s'.dead x ↔ s.dead x)
  sub : ∀ x r, x < s.fresh → ¬ H x → (s'.sub x r ↔ s.sub x r)
  par : ∀ x, x < s.fresh → ¬ H x → s.parent x ≠ none → s'.parent x ≠ none

theorem Calm.out {H : Nat → Prop} {s s' : State} (f : Calm H s s') {n : Nat} (hn : ¬ H n) (hlt : n < s.fresh)
    (ho : s.Out n) : s'.Out n :=
  ⟨fun r h => ho.bare r ((f.sub n r hlt hn).mp h), fun h => by rw [f.lay n hlt]; exact ho.leaf (f.ht n hlt ▸ h),
    fun h => f.par n hlt hn (ho.node (f.ht n hlt ▸ h))⟩

/-- What a thread knows is not changed by the others. -/
theorem Calm.own {H : Nat → Prop} {s s' : State} (f : Calm H s s') {pc : PC} (hl : s.Own pc) (hh : ∀ q ∈ pc.held, ¬ H q)
    (hlt : ∀ q ∈ pc.held, q < s.fresh)
    (hleads : ∀ n r c, pc = .gup n r c → (∃ a, s.Leads c a ∧ a ≠ r) → ∃ a, s'.Leads c a ∧ a ≠ r) : s'.Own pc := by
  cases pc <;> try trivial
  case gup n r c =>
    obtain ⟨h1, h2, h3, h4⟩ := hl
    have hr := hh r (by simp [PC.held])
    refine ⟨(f.sub n c (hlt n (by simp [PC.held])) (hh n (by simp [PC.held]))).mpr h1,
      ⟨Nat.lt_of_lt_of_le h2.1 f.fresh, fun h => h2.2 ((f.dead r h2.1 hr).mp h)⟩, by rw [f.ht r h2.1]; exact h3,
      hleads n r c rfl h4⟩
  case rnext p => simp only [State.Own]; rw [f.ht p (hlt p (by simp [PC.held]))]; exact hl
  case gc n r => exact (f.sub n r (hlt n (by simp [PC.held])) (hh n (by simp [PC.held]))).mpr hl
  case gwait n r => exact (f.sub n r (hlt n (by simp [PC.held])) (hh n (by simp [PC.held]))).mpr hl
  case ggot n r => exact (f.sub n r (hlt n (by simp [PC.held])) (hh n (by simp [PC.held]))).mpr hl
  case gch n r c => exact (f.sub n r (hlt n (by simp [PC.held])) (hh n (by simp [PC.held]))).mpr hl
  case unl n => exact f.out (hh n (by simp [PC.held])) (hlt n (by simp [PC.held])) hl
  case rpar n r => exact f.out (hh n (by simp [PC.held])) (hlt n (by simp [PC.held])) hl
  case rwait p n r => exact f.out (hh n (by simp [PC.held])) (hlt n (by simp [PC.held])) hl
  case rgot p n r => exact f.out (hh n (by simp [PC.held])) (hlt n (by simp [PC.held])) hl
  case rmod p n r => exact f.out (hh n (by simp [PC.held])) (hlt n (by simp [PC.held])) hl

theorem owns {key : Nat → Nat → Nat} {i : Nat} {s s' : State} (hi : Inv key s) (ht : Tree s)
    (f : Calm (fun q => s.lock q = some i) s s') (pc : PC) (hpc : s'.pc = update s.pc i pc)
    (hleads : ∀ j n r c, j ≠ i → s.pc j = .gup n r c → (∃ a, s.Leads c a ∧ a ≠ r) → ∃ a, s'.Leads c a ∧ a ≠ r)
    (mine : s'.Own pc) (j : Nat) : s'.Own (s'.pc j) := by
  by_cases h : j = i
  · subst h; rw [hpc, Function.update_self]; exact mine
  · rw [hpc, Function.update_of_ne h]
    refine f.own (ht.own j) (fun q hq h' => ?_) (fun q hq => hi.lockLt q j ((hi.held q j).mpr hq))
      (fun n r c e => hleads j n r c h e)
    rw [(hi.held q j).mpr hq] at h'
    exact h (Option.some.inj h')

theorem loose_update {pcs : Nat → PC} {i a : Nat} {p : PC} :
    (∀ j, (update pcs i p j).loose ≠ some a) ↔ p.loose ≠ some a ∧ ∀ j, j ≠ i → (pcs j).loose ≠ some a := by
  simp only [Function.update_apply]
  constructor
  · intro h
    refine ⟨by have := h i; simpa using this, fun j hj => by have := h j; simpa [hj] using this⟩
  · rintro ⟨h1, h2⟩ j
    split
    · exact h1
    · exact h2 j ‹_›

theorem going_update {pcs : Nat → PC} {i a : Nat} {p : PC} :
    (∃ j, (update pcs i p j).going = some a) ↔ p.going = some a ∨ ∃ j, j ≠ i ∧ (pcs j).going = some a := by
  simp only [Function.update_apply]
  constructor
  · rintro ⟨j, h⟩
    split at h
    · exact .inl h
    · exact .inr ⟨j, ‹_›, h⟩
  · rintro (h | ⟨j, hj, h⟩)
    · exact ⟨i, by simpa using h⟩
    · exact ⟨j, by simpa [hj] using h⟩

theorem loose_split {pcs : Nat → PC} {a : Nat} (i : Nat) :
    (∀ j, (pcs j).loose ≠ some a) ↔ (pcs i).loose ≠ some a ∧ ∀ j, j ≠ i → (pcs j).loose ≠ some a := by
  constructor
  · exact fun h => ⟨h i, fun j _ => h j⟩
  · rintro ⟨h1, h2⟩ j
    by_cases h : j = i
    · exact h ▸ h1
    · exact h2 j h

theorem going_split {pcs : Nat → PC} {a : Nat} (i : Nat) :
    (∃ j, (pcs j).going = some a) ↔ (pcs i).going = some a ∨ ∃ j, j ≠ i ∧ (pcs j).going = some a := by
  constructor
  · rintro ⟨j, h⟩
    by_cases hj : j = i
    · exact .inl (hj ▸ h)
    · exact .inr ⟨j, hj, h⟩
  · rintro (h | ⟨j, _, h⟩)
    · exact ⟨i, h⟩
    · exact ⟨j, h⟩

/-- Steps that do not change the tree. -/
theorem Tree.light {key : Nat → Nat → Nat} {i : Nat} {s s' : State} (hi : Inv key s) (ht : Tree s) (pc : PC)
    (hpc : s'.pc = update s.pc i pc) (h1 : s'.fresh = s.fresh) (h2 : s'.ht = s.ht) (h3 : s'.lay = s.lay) (h4 : s'.dep = s.dep)
    (h5 : s'.parent = s.parent) (h6 : s'.sub = s.sub) (h7 : s'.dead = s.dead) (h8 : s'.limbo = s.limbo)
    (hlo : pc.loose = (s.pc i).loose) (hgo : pc.going = (s.pc i).going) (own : s.Own pc) : Tree s' := by
  have hlive : ∀ x, s'.Live x ↔ s.Live x := fun x => by simp only [State.Live, h1, h7]
  have hleads : ∀ q a, s.Leads q a → s'.Leads q a := fun q a h =>
    h.keep (Nat.le_of_eq h1.symm) (fun x _ => by rw [h7]) hi.deadLt (fun x _ => by rw [h5])
  have f : Calm (fun q => s.lock q = some i) s s' := ⟨Nat.le_of_eq h1.symm, fun _ _ => by rw [h2], fun _ _ => by rw [h3],
    fun _ _ _ => by rw [h7], fun _ _ _ _ => by rw [h6], fun _ _ _ h => by rw [h5]; exact h⟩
  have f' : Calm (fun q => False) s s' := ⟨Nat.le_of_eq h1.symm, fun _ _ => by rw [h2], fun _ _ => by rw [h3],
    fun _ _ _ => by rw [h7], fun _ _ _ _ => by rw [h6], fun _ _ _ h => by rw [h5]; exact h⟩
  have hloose : ∀ a, (∀ j, (s'.pc j).loose ≠ some a) ↔ ∀ j, (s.pc j).loose ≠ some a := by
    intro a
    rw [hpc, loose_update, loose_split i, hlo]
  refine ⟨?_, ?_, ?_, ?_, ?_, ?_, ?_, ?_, ?_, ?_, ?_, ?_⟩
  · simp only [hlive, h3, h4]; exact ht.zero
  · simp only [hlive, h6, h2]; exact ht.subLive
  · simp only [h6, h3]; exact ht.subOne
  · simp only [hlive, h6, h3]; exact ht.subAlive
  · simp only [hlive, h3, h5, hloose]; exact ht.top
  · simp only [h1, h3, h2]; exact ht.headLay
  · simp only [hlive, h3]; exact ht.head
  · simp only [hlive, h1, h3]
    intro q hq hl
    obtain ⟨a, ha⟩ := ht.leads q hq hl
    exact ⟨a, hleads q a ha⟩
  · simp only [hlive, h6, h3]; exact ht.owned
  · refine owns hi ht f pc hpc (fun j n r c _ _ ⟨a, h, h'⟩ => ⟨a, hleads _ _ h, h'⟩) ?_
    cases pc <;> try trivial
    case gup n r c =>
      obtain ⟨k1, k2, k3, a, k4, k5⟩ := own
      exact ⟨h6 ▸ k1, (hlive r).mpr k2, h2 ▸ k3, a, hleads _ _ k4, k5⟩
    all_goals first
      | (simp only [State.Own, h2, h6]; exact own)
      | exact ⟨fun r => h6 ▸ own.bare r, fun h => h3 ▸ own.leaf (h2 ▸ h), fun h => h5 ▸ own.node (h2 ▸ h)⟩
  · rw [h8]; exact ht.nodup
  · intro q
    rw [h8, h7, hpc, going_update, hgo, ← going_split]
    exact ht.gone q

/-- Steps that kill nothing. -/
theorem Tree.grow {key : Nat → Nat → Nat} {i : Nat} {s s' : State} (hi : Inv key s) (ht : Tree s) (pc : PC)
    (hpc : s'.pc = update s.pc i pc) (f : Calm (fun q => s.lock q = some i) s s') (hdead : s'.dead = s.dead)
    (hlimbo : s'.limbo = s.limbo) (hdep : s'.dep 0 = s.dep 0) (hpar : ∀ x, s.dead x → s'.parent x = s.parent x)
    (hgo : pc.going = (s.pc i).going)
    (subLive : ∀ n r, s'.sub n r → s'.Live n ∧ s'.ht n = 0)
    (subOne : ∀ n r n' r', s'.sub n r → s'.sub n' r' → s'.lay r = s'.lay r' → n = n' ∧ r = r')
    (subAlive : ∀ n r, s'.sub n r → s'.Live (s'.lay r))
    (top : ∀ a b, s'.Live a → s'.Live b → s'.parent a = none → s'.parent b = none → s'.lay a = s'.lay b →
      pc.loose ≠ some a → pc.loose ≠ some b → (∀ j, j ≠ i → (s.pc j).loose ≠ some a) →
      (∀ j, j ≠ i → (s.pc j).loose ≠ some b) → a = b)
    (new : ∀ q, s.fresh ≤ q → q < s'.fresh → (s'.lay q = q ∧ s'.ht q = 0) ∨ ∃ n, s.Live n ∧ s'.lay q = s.lay n)
    (owned : ∀ l, s'.Live l → s'.lay l = l → l ≠ 0 → ∃ n r, s'.sub n r ∧ s'.lay r = l)
    (own : s'.Own pc) : Tree s' := by
  have h0 := ht.zero
  have hlive : ∀ x, s.Live x → s'.Live x := fun x h => ⟨Nat.lt_of_lt_of_le h.1 f.fresh, hdead ▸ h.2⟩
  have hleads : ∀ q a, s.Leads q a → s'.Leads q a := fun q a h =>
    h.keep f.fresh (fun x _ => by rw [hdead]) hi.deadLt hpar
  have hhead : ∀ q, q < s'.fresh → s'.lay (s'.lay q) = s'.lay q ∧ s'.ht (s'.lay q) = 0 ∧
      (s.fresh ≤ q → s'.Live (s'.lay q)) := by
    intro q hq
    by_cases hlt : q < s.fresh
    · have h1 := hi.layLt q hlt
      obtain ⟨h2, h3⟩ := ht.headLay q hlt
      rw [f.lay q hlt, f.lay _ h1, f.ht _ h1]
      exact ⟨h2, h3, fun h => absurd h (Nat.not_le.mpr hlt)⟩
    · rcases new q (Nat.not_lt.mp hlt) hq with ⟨h1, h2⟩ | ⟨n, h1, h2⟩
      · rw [h1, h1]
        exact ⟨rfl, h2, fun _ => ⟨hq, fun hd => hlt (hi.deadLt q (hdead ▸ hd))⟩⟩
      · have h3 := hi.layLt n h1.1
        obtain ⟨h4, h5⟩ := ht.headLay n h1.1
        rw [h2, f.lay _ h3, f.ht _ h3]
        exact ⟨h4, h5, fun _ => hlive _ (ht.head n h1)⟩
  refine ⟨?_, subLive, subOne, subAlive, ?_, ?_, ?_, ?_, owned, ?_, ?_, ?_⟩
  · exact ⟨hlive _ h0.1, by rw [f.lay 0 h0.1.1]; exact h0.2.1, hdep.trans h0.2.2⟩
  · intro a b h1 h2 h3 h4 h5 h6 h7
    rw [hpc, loose_update] at h6 h7
    exact top a b h1 h2 h3 h4 h5 h6.1 h7.1 h6.2 h7.2
  · exact fun q hq => ⟨(hhead q hq).1, (hhead q hq).2.1⟩
  · intro q hq
    by_cases hlt : q < s.fresh
    · rw [f.lay q hlt]
      exact hlive _ (ht.head q ⟨hlt, hdead ▸ hq.2⟩)
    · exact (hhead q hq.1).2.2 (Nat.not_lt.mp hlt)
  · intro q hq hl
    by_cases hlt : q < s.fresh
    · rw [f.lay q hlt] at hl
      obtain ⟨a, ha⟩ := ht.leads q hlt ⟨hi.layLt q hlt, hdead ▸ hl.2⟩
      exact ⟨a, hleads q a ha⟩
    · exact ⟨q, .live ⟨hq, fun hd => hlt (hi.deadLt q (hdead ▸ hd))⟩⟩
  · exact owns hi ht f pc hpc (fun j n r c _ _ ⟨a, h, h'⟩ => ⟨a, hleads _ _ h, h'⟩) own
  · rw [hlimbo]; exact ht.nodup
  · intro q
    rw [hlimbo, hdead, hpc, going_update, hgo, ← going_split]
    exact ht.gone q

/-- A layer pointer is replaced by the parent of the node it points to. -/
theorem Tree.repoint {key : Nat → Nat → Nat} {i : Nat} {s : State} (hi : Inv key s) (ht : Tree s) (n r r' : Nat)
    (hn : s.lock n = some i) (hr : s.sub n r) (hr' : s.parent r = some r') (hlo : (s.pc i).loose = none)
    (hgo : (s.pc i).going = none) :
    Tree { s with
      sub := update s.sub n (fun x => (s.sub n x ∧ x ≠ r) ∨ x = r')
      pc := update s.pc i (.gc n r') } := by
  obtain ⟨k1, k2, k3⟩ := hi.parLt r r' hr'
  have hlive := ht.subLive
  have hone := ht.subOne
  have halive := ht.subAlive
  have howned := ht.owned
  refine ht.grow hi (.gc n r') rfl ⟨Nat.le_refl _, fun _ _ => rfl, fun _ _ => rfl, fun _ _ _ => Iff.rfl, ?_, fun _ _ _ h => h⟩
    rfl rfl rfl (fun _ _ => rfl) (by rw [hgo]; rfl) ?_ ?_ ?_ ?_ (fun q h h' => absurd h (Nat.not_le.mpr h')) ?_ ?_
  · simp only [update2]; grind
  · simp only [update2, State.Live] at *; grind
  · simp only [update2] at *; grind
  · simp only [update2, State.Live] at *; grind
  · intro a b h1 h2 h3 h4 h5 _ _ h6 h7
    refine ht.top a b h1 h2 h3 h4 h5 ((loose_split i).mpr ⟨by rw [hlo]; simp, h6⟩)
      ((loose_split i).mpr ⟨by rw [hlo]; simp, h7⟩)
  · intro l h1 h2 h3
    obtain ⟨m, x, h4, h5⟩ := howned l h1 h2 h3
    simp only [update2]
    by_cases hm : m = n ∧ x = r
    · exact ⟨n, r', by simp, by rw [k3, ← hm.2]; exact h5⟩
    · refine ⟨m, x, ?_, h5⟩
      split
      · rename_i e
        exact .inl ⟨e ▸ h4, fun e' => hm ⟨e, e'⟩⟩
      · exact h4
  · simp [State.Own, update2]

end Verif.LockOrder
