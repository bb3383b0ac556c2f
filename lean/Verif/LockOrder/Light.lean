import Verif.LockOrder.Inv

/-!
# Steps that only take and give back locks
-/
namespace Verif.LockOrder

open Function (update)

theorem Inv.limbo {key : Nat → Nat → Nat} {s : State} (hi : Inv key s) (l : List Nat) : Inv key { s with limbo := l } := by
  refine ⟨hi.held, hi.lockLt, hi.parLt, hi.deadLt, hi.layLt, hi.subLt, hi.kid, hi.par, fun j => ?_, hi.busy, hi.lists⟩
  refine Frame.loc (s := s) (H := fun _ => False) ?_ (hi.loc j) (fun _ _ h => h) hi.layLt hi.parLt
  exact ⟨Nat.le_refl _, fun _ _ => rfl, fun _ _ => rfl, fun _ _ => rfl, fun _ _ _ => Iff.rfl, fun _ _ _ _ => Iff.rfl,
    fun _ _ _ h => h, fun _ _ _ _ h _ => h⟩

theorem Inv.light {key : Nat → Nat → Nat} {i : Nat} {s : State} (hi : Inv key s) (f : Nat → Option Nat) (pc : PC)
    (hl : (s.pc i).listing = none ∨ ∃ n, (s.pc i).listing = some n ∧ (s.list (s.lay n)).op (s.lid n) = .idle)
    (mine : ∀ q, f q = some i ↔ q ∈ pc.held)
    (others : ∀ q j, j ≠ i → (f q = some j ↔ s.lock q = some j))
    (new : ∀ q ∈ pc.held, q < s.fresh)
    (loc : s.Loc pc) : Inv key { s with lock := f, pc := update s.pc i pc } := by
  refine hi.next (i := i) ⟨Nat.le_refl _, fun _ _ => rfl, fun _ _ => rfl, fun _ _ => rfl, fun _ _ _ => Iff.rfl,
    fun _ _ _ _ => Iff.rfl, fun _ _ _ h => h, fun _ _ _ _ h _ => h⟩ (fun j hj => Function.update_of_ne hj ..) ?_ others ?_ hi.parLt
    hi.deadLt hi.layLt hi.subLt hi.kid hi.par ?_ ?_ hi.lists
  · intro q; simp only [Function.update_self]; exact mine q
  · intro q hq; exact new q ((mine q).mp hq)
  · simp only [Function.update_self]
    refine Frame.loc (s := s) (H := fun _ => False) ?_ loc (fun _ _ h => h) hi.layLt hi.parLt
    exact ⟨Nat.le_refl _, fun _ _ => rfl, fun _ _ => rfl, fun _ _ => rfl, fun _ _ _ => Iff.rfl, fun _ _ _ _ => Iff.rfl,
      fun _ _ _ h => h, fun _ _ _ _ h _ => h⟩
  · intro l m h
    obtain ⟨j, n, h1, h2, h3⟩ := hi.busy l m h
    refine ⟨j, n, ?_, h2, h3⟩
    have : j ≠ i := by
      rintro rfl
      rcases hl with hl | ⟨n', hl, ho⟩
      · rw [hl] at h1; cases h1
      · rw [hl] at h1; cases h1
        exact h (h2 ▸ h3 ▸ ho)
    simp only [Function.update_of_ne this]
    exact h1

/-- The locks held by a thread. -/
theorem Inv.mine {key : Nat → Nat → Nat} {i : Nat} {s : State} (hi : Inv key s) {pc : PC} (h : s.pc i = pc) (q : Nat) :
    s.lock q = some i ↔ q ∈ pc.held := h ▸ hi.held q i

/-- Only the program counter changes. -/
theorem Inv.goto {key : Nat → Nat → Nat} {i : Nat} {s : State} (hi : Inv key s) (pc : PC) (hl : (s.pc i).listing = none ∨
      ∃ n, (s.pc i).listing = some n ∧ (s.list (s.lay n)).op (s.lid n) = .idle)
    (hh : ∀ q, q ∈ (s.pc i).held ↔ q ∈ pc.held) (loc : s.Loc pc) : Inv key { s with pc := update s.pc i pc } :=
  hi.light s.lock pc hl (fun q => (hi.held q i).trans (hh q)) (fun _ _ _ => Iff.rfl)
    (fun q hq => hi.lockLt q i ((hi.held q i).mpr ((hh q).mpr hq))) loc

/-- A lock is taken. -/
theorem Inv.take {key : Nat → Nat → Nat} {i : Nat} {s : State} (hi : Inv key s) (p : Nat) (pc : PC)
    (hl : (s.pc i).listing = none) (hp : s.lock p = none) (hf : p < s.fresh)
    (hh : ∀ q, q ∈ pc.held ↔ q = p ∨ q ∈ (s.pc i).held) (loc : s.Loc pc) :
    Inv key { s with lock := update s.lock p (some i), pc := update s.pc i pc } := by
  refine hi.light _ pc (.inl hl) (fun q => ?_) (fun q j hj => ?_) (fun q hq => ?_) loc
  · rw [hh, Function.update_apply, ← hi.held q i]; grind
  · rw [Function.update_apply]; grind
  · rcases (hh q).mp hq with rfl | h
    · exact hf
    · exact hi.lockLt q i ((hi.held q i).mpr h)

/-- A lock is given back. -/
theorem Inv.give {key : Nat → Nat → Nat} {i : Nat} {s : State} (hi : Inv key s) (p : Nat) (pc : PC)
    (hl : (s.pc i).listing = none) (hp : p ∈ (s.pc i).held)
    (hh : ∀ q, q ∈ pc.held ↔ q ≠ p ∧ q ∈ (s.pc i).held) (loc : s.Loc pc) :
    Inv key { s with lock := update s.lock p none, pc := update s.pc i pc } := by
  have hp := (hi.held p i).mpr hp
  refine hi.light _ pc (.inl hl) (fun q => ?_) (fun q j hj => ?_) (fun q hq => ?_) loc
  · rw [hh, Function.update_apply, ← hi.held q i]; grind
  · rw [Function.update_apply]; grind
  · exact hi.lockLt q i ((hi.held q i).mpr ((hh q).mp hq).2)

end Verif.LockOrder
