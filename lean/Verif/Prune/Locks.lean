import Verif.Prune.Light

/-!
# Locking, marking and unlocking
-/
namespace Verif.Prune

variable {G : Type}

local macro "light" : tactic => `(tactic|
  ((try simp only [State.to, State.unlock, Function.update_apply, PC.Owns, PC.Skew, PC.Loose, PC.Pre, State.Loc, State.In,
      State.Target, State.Pair, State.Open, State.clean, State.Level, State.Above, State.Out, State.Inner, State.Shift] at *) <;>
    grind [State.Above, State.Level]))

set_option maxHeartbeats 1000000 in
theorem inv_acquire {s : State G} (h : Inv s) (i n vi vs : Nat) (r : Option G) (hp : s.pc i = .read n vi vs r)
    (hl : s.lock n = none) (hs : s.spl n = vs) :
    Inv (State.to { s with lock := Function.update s.lock n (some i) } i (.hold n)) := by
  have hloc := h.loc i
  have hlck := h.lck i
  have hown := h.own i
  have hdirty := h.dirty
  have hrt := h.rt
  have hpar := h.parent
  have halloc := h.alloc
  rw [hp] at hloc hlck hown
  have hlink : s.dead n = false → s.gone n = false := h.linked hloc.1.1
  refine inv_light h (i := i) (x := .hold n)
    ⟨rfl, rfl, rfl, rfl, rfl, rfl, rfl, rfl, rfl, rfl, rfl, rfl, rfl, rfl, rfl, rfl⟩ rfl
    ?_ ?_ ?_ ?_ ?_ ?_ ?_ ?_ ?_ ?_ ?_ ?_ ?_ ?_ ?_ ?_ <;> clear h <;> light

set_option maxHeartbeats 1000000 in
theorem inv_markLeaf {s : State G} (h : Inv s) (i n : Nat) (hp : s.pc i = .hold n) :
    Inv ({ s with dI := Function.update s.dI n true }) := by
  have hloc := h.loc i
  have hlck := h.lck i
  have hown := h.own i
  have hdirty := h.dirty
  have hrt := h.rt
  have hpar := h.parent
  have halloc := h.alloc
  rw [hp] at hloc hlck hown
  refine inv_light h (i := i) (x := .hold n)
    ⟨rfl, rfl, rfl, rfl, rfl, rfl, rfl, rfl, rfl, rfl, rfl, rfl, rfl, rfl, rfl, rfl⟩ (by rw [← hp, Function.update_eq_self])
    ?_ ?_ ?_ ?_ ?_ ?_ ?_ ?_ ?_ ?_ ?_ ?_ ?_ ?_ ?_ ?_ <;> clear h <;> light

set_option maxHeartbeats 1000000 in
theorem inv_release {s : State G} (h : Inv s) (i n : Nat) (hp : s.pc i = .pub n) :
    Inv ((s.unlock n).to i .idle) := by
  have hloc := h.loc i
  have hlck := h.lck i
  have hown := h.own i
  have hdirty := h.dirty
  have hrt := h.rt
  have hpar := h.parent
  have halloc := h.alloc
  rw [hp] at hloc hlck hown
  refine inv_light h (i := i) (x := .idle)
    ⟨rfl, rfl, rfl, rfl, rfl, rfl, rfl, rfl, rfl, rfl, rfl, rfl, rfl, rfl, rfl, rfl⟩ rfl
    ?_ ?_ ?_ ?_ ?_ ?_ ?_ ?_ ?_ ?_ ?_ ?_ ?_ ?_ ?_ ?_ <;> clear h <;> light

set_option maxHeartbeats 1000000 in
theorem inv_lockParent {s : State G} (h : Inv s) (i n c x p : Nat) (t : Option Nat) (hp : s.pc i = .par n c x t) (hq : s.parent n = some p)
    (hl : s.lock p = none) :
    Inv (State.to { s with lock := Function.update s.lock p (some i) } i (.got p n c x t)) := by
  have hloc := h.loc i
  have hlck := h.lck i
  have hown := h.own i
  have hdirty := h.dirty
  have hrt := h.rt
  have hpar := h.parent
  have halloc := h.alloc
  rw [hp] at hloc hlck hown
  refine inv_light h (i := i) (x := .got p n c x t)
    ⟨rfl, rfl, rfl, rfl, rfl, rfl, rfl, rfl, rfl, rfl, rfl, rfl, rfl, rfl, rfl, rfl⟩ rfl
    ?_ ?_ ?_ ?_ ?_ ?_ ?_ ?_ ?_ ?_ ?_ ?_ ?_ ?_ ?_ ?_ <;> clear h <;> cases t <;> light

set_option maxHeartbeats 1000000 in
theorem inv_isParent {s : State G} (h : Inv s) (i p n c x : Nat) (t : Option Nat) (hp : s.pc i = .got p n c x t) (hq : s.parent n = some p) :
    Inv (State.to { s with dI := Function.update s.dI p true } i (.mod p n c x t)) := by
  have hloc := h.loc i
  have hlck := h.lck i
  have hown := h.own i
  have hdirty := h.dirty
  have hrt := h.rt
  have hpar := h.parent
  have halloc := h.alloc
  rw [hp] at hloc hlck hown
  refine inv_light h (i := i) (x := .mod p n c x t)
    ⟨rfl, rfl, rfl, rfl, rfl, rfl, rfl, rfl, rfl, rfl, rfl, rfl, rfl, rfl, rfl, rfl⟩ rfl
    ?_ ?_ ?_ ?_ ?_ ?_ ?_ ?_ ?_ ?_ ?_ ?_ ?_ ?_ ?_ ?_ <;> clear h <;> cases t <;> light

set_option maxHeartbeats 1000000 in
theorem inv_notParent {s : State G} (h : Inv s) (i p n c x : Nat) (t : Option Nat) (hp : s.pc i = .got p n c x t) :
    Inv ((s.unlock p).to i (.par n c x t)) := by
  have hloc := h.loc i
  have hlck := h.lck i
  have hown := h.own i
  have hdirty := h.dirty
  have hrt := h.rt
  have hpar := h.parent
  have halloc := h.alloc
  rw [hp] at hloc hlck hown
  refine inv_light h (i := i) (x := .par n c x t)
    ⟨rfl, rfl, rfl, rfl, rfl, rfl, rfl, rfl, rfl, rfl, rfl, rfl, rfl, rfl, rfl, rfl⟩ rfl
    ?_ ?_ ?_ ?_ ?_ ?_ ?_ ?_ ?_ ?_ ?_ ?_ ?_ ?_ ?_ ?_ <;> clear h <;> cases t <;> light

set_option maxHeartbeats 1000000 in
theorem inv_markSplit {s : State G} (h : Inv s) (i n c x : Nat) (p : Option Nat) (nx : Option (Nat × Nat)) (hp : s.pc i = .fin p nx n c x none) :
    Inv (State.to { s with dS := Function.update s.dS n true } i (.cut p nx n c x)) := by
  have hloc := h.loc i
  have hlck := h.lck i
  have hown := h.own i
  have hdirty := h.dirty
  have hrt := h.rt
  have hpar := h.parent
  have halloc := h.alloc
  rw [hp] at hloc hlck hown
  refine inv_light h (i := i) (x := .cut p nx n c x)
    ⟨rfl, rfl, rfl, rfl, rfl, rfl, rfl, rfl, rfl, rfl, rfl, rfl, rfl, rfl, rfl, rfl⟩ rfl
    ?_ ?_ ?_ ?_ ?_ ?_ ?_ ?_ ?_ ?_ ?_ ?_ ?_ ?_ ?_ ?_ <;> clear h <;> light

set_option maxHeartbeats 1000000 in
theorem inv_unlockLeft {s : State G} (h : Inv s) (i n c x t : Nat) (p : Option Nat) (nx : Option (Nat × Nat)) (hp : s.pc i = .fin p nx n c x (some t)) :
    Inv ((s.unlock n).to i (.rel p nx c t)) := by
  have hloc := h.loc i
  have hlck := h.lck i
  have hown := h.own i
  have hdirty := h.dirty
  have hrt := h.rt
  have hpar := h.parent
  have halloc := h.alloc
  rw [hp] at hloc hlck hown
  refine inv_light h (i := i) (x := .rel p nx c t)
    ⟨rfl, rfl, rfl, rfl, rfl, rfl, rfl, rfl, rfl, rfl, rfl, rfl, rfl, rfl, rfl, rfl⟩ rfl
    ?_ ?_ ?_ ?_ ?_ ?_ ?_ ?_ ?_ ?_ ?_ ?_ ?_ ?_ ?_ ?_ <;> clear h <;> light

set_option maxHeartbeats 1000000 in
theorem inv_unlockParent {s : State G} (h : Inv s) (i p t : Nat) (hp : s.pc i = .unl p t) :
    Inv ((s.unlock p).to i (.hold t)) := by
  have hloc := h.loc i
  have hlck := h.lck i
  have hown := h.own i
  have hdirty := h.dirty
  have hrt := h.rt
  have hpar := h.parent
  have halloc := h.alloc
  rw [hp] at hloc hlck hown
  refine inv_light h (i := i) (x := .hold t)
    ⟨rfl, rfl, rfl, rfl, rfl, rfl, rfl, rfl, rfl, rfl, rfl, rfl, rfl, rfl, rfl, rfl⟩ rfl
    ?_ ?_ ?_ ?_ ?_ ?_ ?_ ?_ ?_ ?_ ?_ ?_ ?_ ?_ ?_ ?_ <;> clear h <;> light

set_option maxHeartbeats 1000000 in
theorem inv_kill {s : State G} (h : Inv s) (i n : Nat) (hp : s.pc i = .pub n) (he : ∀ k, s.items n k = none) (hl : s.lo n ≠ 0) :
    Inv (State.to { s with dead := Function.update s.dead n true, dS := Function.update s.dS n true } i (.ulk n)) := by
  have hloc := h.loc i
  have hlck := h.lck i
  have hown := h.own i
  have hdirty := h.dirty
  have hrt := h.rt
  have hpar := h.parent
  have halloc := h.alloc
  rw [hp] at hloc hlck hown
  refine inv_light h (i := i) (x := .ulk n)
    ⟨rfl, rfl, rfl, rfl, rfl, rfl, rfl, rfl, rfl, rfl, rfl, rfl, rfl, rfl, rfl, rfl⟩ rfl
    ?_ ?_ ?_ ?_ ?_ ?_ ?_ ?_ ?_ ?_ ?_ ?_ ?_ ?_ ?_ ?_ <;> clear h <;> light

set_option maxHeartbeats 1000000 in
theorem inv_lockParentR {s : State G} (h : Inv s) (i n p ik : Nat) (r : Option Nat) (hp : s.pc i = .rpar n r ik) (hq : s.parent n = some p)
    (hl : s.lock p = none) :
    Inv (State.to { s with lock := Function.update s.lock p (some i) } i (.rgot p n r ik)) := by
  have hloc := h.loc i
  have hlck := h.lck i
  have hown := h.own i
  have hdirty := h.dirty
  have hrt := h.rt
  have hpar := h.parent
  have halloc := h.alloc
  rw [hp] at hloc hlck hown
  refine inv_light h (i := i) (x := .rgot p n r ik)
    ⟨rfl, rfl, rfl, rfl, rfl, rfl, rfl, rfl, rfl, rfl, rfl, rfl, rfl, rfl, rfl, rfl⟩ rfl
    ?_ ?_ ?_ ?_ ?_ ?_ ?_ ?_ ?_ ?_ ?_ ?_ ?_ ?_ ?_ ?_ <;> clear h <;> cases r <;> light

set_option maxHeartbeats 1000000 in
theorem inv_isParentR {s : State G} (h : Inv s) (i p n ik : Nat) (r : Option Nat) (hp : s.pc i = .rgot p n r ik) (hq : s.parent n = some p) :
    Inv (State.to { s with dI := Function.update s.dI p true } i (.rmod p n r ik)) := by
  have hloc := h.loc i
  have hlck := h.lck i
  have hown := h.own i
  have hdirty := h.dirty
  have hrt := h.rt
  have hpar := h.parent
  have halloc := h.alloc
  rw [hp] at hloc hlck hown
  refine inv_light h (i := i) (x := .rmod p n r ik)
    ⟨rfl, rfl, rfl, rfl, rfl, rfl, rfl, rfl, rfl, rfl, rfl, rfl, rfl, rfl, rfl, rfl⟩ rfl
    ?_ ?_ ?_ ?_ ?_ ?_ ?_ ?_ ?_ ?_ ?_ ?_ ?_ ?_ ?_ ?_ <;> clear h <;> cases r <;> light

set_option maxHeartbeats 1000000 in
theorem inv_notParentR {s : State G} (h : Inv s) (i p n ik : Nat) (r : Option Nat) (hp : s.pc i = .rgot p n r ik) :
    Inv ((s.unlock p).to i (.rpar n r ik)) := by
  have hloc := h.loc i
  have hlck := h.lck i
  have hown := h.own i
  have hdirty := h.dirty
  have hrt := h.rt
  have hpar := h.parent
  have halloc := h.alloc
  rw [hp] at hloc hlck hown
  refine inv_light h (i := i) (x := .rpar n r ik)
    ⟨rfl, rfl, rfl, rfl, rfl, rfl, rfl, rfl, rfl, rfl, rfl, rfl, rfl, rfl, rfl, rfl⟩ rfl
    ?_ ?_ ?_ ?_ ?_ ?_ ?_ ?_ ?_ ?_ ?_ ?_ ?_ ?_ ?_ ?_ <;> clear h <;> cases r <;> light

set_option maxHeartbeats 1000000 in
theorem inv_lockParentD {s : State G} (h : Inv s) (i q p n ik y u : Nat) (hp : s.pc i = .dpar q p n ik y) (hq : s.parent q = some u)
    (hl : s.lock u = none) :
    Inv (State.to { s with lock := Function.update s.lock u (some i) } i (.dgot u q p n ik y)) := by
  have hloc := h.loc i
  have hlck := h.lck i
  have hown := h.own i
  have hdirty := h.dirty
  have hrt := h.rt
  have hpar := h.parent
  have halloc := h.alloc
  rw [hp] at hloc hlck hown
  refine inv_light h (i := i) (x := .dgot u q p n ik y)
    ⟨rfl, rfl, rfl, rfl, rfl, rfl, rfl, rfl, rfl, rfl, rfl, rfl, rfl, rfl, rfl, rfl⟩ rfl
    ?_ ?_ ?_ ?_ ?_ ?_ ?_ ?_ ?_ ?_ ?_ ?_ ?_ ?_ ?_ ?_ <;> clear h <;> light

set_option maxHeartbeats 1000000 in
theorem inv_isParentD1 {s : State G} (h : Inv s) (i p n ik y u : Nat) (hp : s.pc i = .dgot u p p n ik y) (hq : s.parent p = some u) :
    Inv (s.to i (.dset u p p n ik y)) := by
  have hloc := h.loc i
  have hlck := h.lck i
  have hown := h.own i
  have hdirty := h.dirty
  have hrt := h.rt
  have hpar := h.parent
  have halloc := h.alloc
  rw [hp] at hloc hlck hown
  refine inv_light h (i := i) (x := .dset u p p n ik y)
    ⟨rfl, rfl, rfl, rfl, rfl, rfl, rfl, rfl, rfl, rfl, rfl, rfl, rfl, rfl, rfl, rfl⟩ rfl
    ?_ ?_ ?_ ?_ ?_ ?_ ?_ ?_ ?_ ?_ ?_ ?_ ?_ ?_ ?_ ?_ <;> clear h <;> light

set_option maxHeartbeats 1000000 in
theorem inv_isParentD2 {s : State G} (h : Inv s) (i q p n ik y u : Nat) (hp : s.pc i = .dgot u q p n ik y) (hq : s.parent q = some u) (hne : q ≠ p) :
    Inv ((s.unlock q).to i (.dset u q p n ik y)) := by
  have hloc := h.loc i
  have hlck := h.lck i
  have hown := h.own i
  have hdirty := h.dirty
  have hrt := h.rt
  have hpar := h.parent
  have halloc := h.alloc
  rw [hp] at hloc hlck hown
  refine inv_light h (i := i) (x := .dset u q p n ik y)
    ⟨rfl, rfl, rfl, rfl, rfl, rfl, rfl, rfl, rfl, rfl, rfl, rfl, rfl, rfl, rfl, rfl⟩ rfl
    ?_ ?_ ?_ ?_ ?_ ?_ ?_ ?_ ?_ ?_ ?_ ?_ ?_ ?_ ?_ ?_ <;> clear h <;> light

set_option maxHeartbeats 1000000 in
theorem inv_notParentD {s : State G} (h : Inv s) (i q p n ik y u : Nat) (hp : s.pc i = .dgot u q p n ik y) :
    Inv ((s.unlock u).to i (.dpar q p n ik y)) := by
  have hloc := h.loc i
  have hlck := h.lck i
  have hown := h.own i
  have hdirty := h.dirty
  have hrt := h.rt
  have hpar := h.parent
  have halloc := h.alloc
  rw [hp] at hloc hlck hown
  refine inv_light h (i := i) (x := .dpar q p n ik y)
    ⟨rfl, rfl, rfl, rfl, rfl, rfl, rfl, rfl, rfl, rfl, rfl, rfl, rfl, rfl, rfl, rfl⟩ rfl
    ?_ ?_ ?_ ?_ ?_ ?_ ?_ ?_ ?_ ?_ ?_ ?_ ?_ ?_ ?_ ?_ <;> clear h <;> light

set_option maxHeartbeats 1000000 in
theorem inv_unlockTop {s : State G} (h : Inv s) (i u p n y : Nat) (hp : s.pc i = .dtop u p n y) :
    Inv ((s.unlock u).to i (.rend p n y)) := by
  have hloc := h.loc i
  have hlck := h.lck i
  have hown := h.own i
  have hdirty := h.dirty
  have hrt := h.rt
  have hpar := h.parent
  have halloc := h.alloc
  rw [hp] at hloc hlck hown
  refine inv_light h (i := i) (x := .rend p n y)
    ⟨rfl, rfl, rfl, rfl, rfl, rfl, rfl, rfl, rfl, rfl, rfl, rfl, rfl, rfl, rfl, rfl⟩ rfl
    ?_ ?_ ?_ ?_ ?_ ?_ ?_ ?_ ?_ ?_ ?_ ?_ ?_ ?_ ?_ ?_ <;> clear h <;> light

set_option maxHeartbeats 1000000 in
theorem inv_unlockDead {s : State G} (h : Inv s) (i p n ik : Nat) (hp : s.pc i = .rend p n ik) :
    Inv ((s.unlock n).to i (.rnext p ik)) := by
  have hloc := h.loc i
  have hlck := h.lck i
  have hown := h.own i
  have hdirty := h.dirty
  have hrt := h.rt
  have hpar := h.parent
  have halloc := h.alloc
  rw [hp] at hloc hlck hown
  refine inv_light h (i := i) (x := .rnext p ik)
    ⟨rfl, rfl, rfl, rfl, rfl, rfl, rfl, rfl, rfl, rfl, rfl, rfl, rfl, rfl, rfl, rfl⟩ rfl
    ?_ ?_ ?_ ?_ ?_ ?_ ?_ ?_ ?_ ?_ ?_ ?_ ?_ ?_ ?_ ?_ <;> clear h <;> light

set_option maxHeartbeats 1000000 in
theorem inv_finish {s : State G} (h : Inv s) (i p ik : Nat) (hp : s.pc i = .rnext p ik) :
    Inv ((s.unlock p).to i .idle) := by
  have hloc := h.loc i
  have hlck := h.lck i
  have hown := h.own i
  have hdirty := h.dirty
  have hrt := h.rt
  have hpar := h.parent
  have halloc := h.alloc
  rw [hp] at hloc hlck hown
  refine inv_light h (i := i) (x := .idle)
    ⟨rfl, rfl, rfl, rfl, rfl, rfl, rfl, rfl, rfl, rfl, rfl, rfl, rfl, rfl, rfl, rfl⟩ rfl
    ?_ ?_ ?_ ?_ ?_ ?_ ?_ ?_ ?_ ?_ ?_ ?_ ?_ ?_ ?_ ?_ <;> clear h <;> light

set_option maxHeartbeats 1000000 in
theorem inv_unlockRight {s : State G} (h : Inv s) (i q t : Nat) (p : Option Nat) (nx : Option (Nat × Nat))
    (hp : s.pc i = .rel p nx q t) : Inv ((s.unlock q).to i (.loop p nx t)) := by
  have hloc := h.loc i
  have hlck := h.lck i
  have hown := h.own i
  have hdirty := h.dirty
  have hrt := h.rt
  have hpar := h.parent
  have halloc := h.alloc
  rw [hp] at hloc hlck hown
  match p, nx with
  | none, some nx => exact absurd hloc.2.2.2.1 (by simp [State.Above])
  | none, none =>
    refine inv_light h (i := i) (x := .hold t)
      ⟨rfl, rfl, rfl, rfl, rfl, rfl, rfl, rfl, rfl, rfl, rfl, rfl, rfl, rfl, rfl, rfl⟩ rfl
      ?_ ?_ ?_ ?_ ?_ ?_ ?_ ?_ ?_ ?_ ?_ ?_ ?_ ?_ ?_ ?_ <;> clear h <;> light
  | some p, none =>
    refine inv_light h (i := i) (x := .unl p t)
      ⟨rfl, rfl, rfl, rfl, rfl, rfl, rfl, rfl, rfl, rfl, rfl, rfl, rfl, rfl, rfl, rfl⟩ rfl
      ?_ ?_ ?_ ?_ ?_ ?_ ?_ ?_ ?_ ?_ ?_ ?_ ?_ ?_ ?_ ?_ <;> clear h <;> light
  | some p, some (c, x) =>
    refine inv_light h (i := i) (x := .par p c x (some t))
      ⟨rfl, rfl, rfl, rfl, rfl, rfl, rfl, rfl, rfl, rfl, rfl, rfl, rfl, rfl, rfl, rfl⟩ rfl
      ?_ ?_ ?_ ?_ ?_ ?_ ?_ ?_ ?_ ?_ ?_ ?_ ?_ ?_ ?_ ?_ <;> clear h <;> light

end Verif.Prune
