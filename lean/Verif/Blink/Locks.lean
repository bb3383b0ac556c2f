import Verif.Blink.Light

/-!
# Locking, marking and unlocking
-/
namespace Verif.Blink

variable {G : Type}

local macro "light" : tactic => `(tactic|
  ((try simp only [State.to, State.unlock, Function.update_apply, PC.Owns, PC.Half, PC.Loose, PC.Pre, State.Loc, State.In,
      State.Target, State.Pair, State.Open, State.clean, State.Level, State.Above] at *) <;> grind [State.Above, State.Level]))

set_option maxHeartbeats 1000000 in
theorem inv_acquire {s : State G} (h : Inv s) (i n vi vs : Nat) (r : Option G) (hp : s.pc i = .read n vi vs r)
    (hl : s.lock n = none) (hs : s.spl n = vs) :
    Inv (State.to { s with lock := Function.update s.lock n (some i) } i (.hold n)) := by
  have hloc := h.loc i
  have hlck := h.lck i
  have hdirty := h.dirty
  have hchi := h.chi
  have hrt := h.rt
  rw [hp] at hloc hlck
  refine inv_light h (i := i) (x := .hold n) ⟨rfl, rfl, rfl, rfl, rfl, rfl, rfl, rfl, rfl, rfl, rfl, rfl, rfl, rfl, rfl⟩ rfl
    ?_ ?_ ?_ ?_ ?_ ?_ ?_ ?_ ?_ ?_ ?_ ?_ ?_ ?_ ?_ ?_ <;> clear h <;> light

set_option maxHeartbeats 1000000 in
theorem inv_markLeaf {s : State G} (h : Inv s) (i n : Nat) (hp : s.pc i = .hold n) :
    Inv ({ s with dI := Function.update s.dI n true }) := by
  have hloc := h.loc i
  have hlck := h.lck i
  have hown := h.own i
  have hdirty := h.dirty
  have hchi := h.chi
  have hrt := h.rt
  have hleaf := h.leafChi
  have hpar := h.parent
  have halloc := h.alloc
  rw [hp] at hloc hlck hown
  refine inv_light h (i := i) (x := .hold n)
    ⟨rfl, rfl, rfl, rfl, rfl, rfl, rfl, rfl, rfl, rfl, rfl, rfl, rfl, rfl, rfl⟩ (by rw [← hp, Function.update_eq_self])
    ?_ ?_ ?_ ?_ ?_ ?_ ?_ ?_ ?_ ?_ ?_ ?_ ?_ ?_ ?_ ?_ <;> clear h <;> light

set_option maxHeartbeats 1000000 in
theorem inv_release {s : State G} (h : Inv s) (i n : Nat) (hp : s.pc i = .pub n) :
    Inv ((s.unlock n).to i .idle) := by
  have hloc := h.loc i
  have hlck := h.lck i
  have hown := h.own i
  have hdirty := h.dirty
  have hchi := h.chi
  have hrt := h.rt
  have hleaf := h.leafChi
  have hpar := h.parent
  have halloc := h.alloc
  rw [hp] at hloc hlck hown
  refine inv_light h (i := i) (x := .idle)
    ⟨rfl, rfl, rfl, rfl, rfl, rfl, rfl, rfl, rfl, rfl, rfl, rfl, rfl, rfl, rfl⟩ rfl
    ?_ ?_ ?_ ?_ ?_ ?_ ?_ ?_ ?_ ?_ ?_ ?_ ?_ ?_ ?_ ?_ <;> clear h <;> light

set_option maxHeartbeats 1000000 in
theorem inv_lockParent {s : State G} (h : Inv s) (i n c x p : Nat) (t : Option Nat) (hp : s.pc i = .par n c x t) (hq : s.parent n = some p)
    (hl : s.lock p = none) :
    Inv (State.to { s with lock := Function.update s.lock p (some i) } i (.got p n c x t)) := by
  have hloc := h.loc i
  have hlck := h.lck i
  have hown := h.own i
  have hdirty := h.dirty
  have hchi := h.chi
  have hrt := h.rt
  have hleaf := h.leafChi
  have hpar := h.parent
  have halloc := h.alloc
  rw [hp] at hloc hlck hown
  refine inv_light h (i := i) (x := .got p n c x t)
    ⟨rfl, rfl, rfl, rfl, rfl, rfl, rfl, rfl, rfl, rfl, rfl, rfl, rfl, rfl, rfl⟩ rfl
    ?_ ?_ ?_ ?_ ?_ ?_ ?_ ?_ ?_ ?_ ?_ ?_ ?_ ?_ ?_ ?_ <;> clear h <;> cases t <;> light

set_option maxHeartbeats 1000000 in
theorem inv_isParent {s : State G} (h : Inv s) (i p n c x : Nat) (t : Option Nat) (hp : s.pc i = .got p n c x t) (hq : s.parent n = some p) :
    Inv (s.to i (.mrk p n c x t)) := by
  have hloc := h.loc i
  have hlck := h.lck i
  have hown := h.own i
  have hdirty := h.dirty
  have hchi := h.chi
  have hrt := h.rt
  have hleaf := h.leafChi
  have hpar := h.parent
  have halloc := h.alloc
  rw [hp] at hloc hlck hown
  refine inv_light h (i := i) (x := .mrk p n c x t)
    ⟨rfl, rfl, rfl, rfl, rfl, rfl, rfl, rfl, rfl, rfl, rfl, rfl, rfl, rfl, rfl⟩ rfl
    ?_ ?_ ?_ ?_ ?_ ?_ ?_ ?_ ?_ ?_ ?_ ?_ ?_ ?_ ?_ ?_ <;> clear h <;> light

set_option maxHeartbeats 1000000 in
theorem inv_notParent {s : State G} (h : Inv s) (i p n c x : Nat) (t : Option Nat) (hp : s.pc i = .got p n c x t) :
    Inv ((s.unlock p).to i (.par n c x t)) := by
  have hloc := h.loc i
  have hlck := h.lck i
  have hown := h.own i
  have hdirty := h.dirty
  have hchi := h.chi
  have hrt := h.rt
  have hleaf := h.leafChi
  have hpar := h.parent
  have halloc := h.alloc
  rw [hp] at hloc hlck hown
  refine inv_light h (i := i) (x := .par n c x t)
    ⟨rfl, rfl, rfl, rfl, rfl, rfl, rfl, rfl, rfl, rfl, rfl, rfl, rfl, rfl, rfl⟩ rfl
    ?_ ?_ ?_ ?_ ?_ ?_ ?_ ?_ ?_ ?_ ?_ ?_ ?_ ?_ ?_ ?_ <;> clear h <;> light

set_option maxHeartbeats 1000000 in
theorem inv_markParent {s : State G} (h : Inv s) (i p n c x : Nat) (t : Option Nat) (hp : s.pc i = .mrk p n c x t) :
    Inv (State.to { s with dI := Function.update s.dI p true } i (.mod p n c x t)) := by
  have hloc := h.loc i
  have hlck := h.lck i
  have hown := h.own i
  have hdirty := h.dirty
  have hchi := h.chi
  have hrt := h.rt
  have hleaf := h.leafChi
  have hpar := h.parent
  have halloc := h.alloc
  rw [hp] at hloc hlck hown
  refine inv_light h (i := i) (x := .mod p n c x t)
    ⟨rfl, rfl, rfl, rfl, rfl, rfl, rfl, rfl, rfl, rfl, rfl, rfl, rfl, rfl, rfl⟩ rfl
    ?_ ?_ ?_ ?_ ?_ ?_ ?_ ?_ ?_ ?_ ?_ ?_ ?_ ?_ ?_ ?_ <;> clear h <;> light

set_option maxHeartbeats 1000000 in
theorem inv_markSplit {s : State G} (h : Inv s) (i n c x : Nat) (p : Option Nat) (nx : Option (Nat × Nat)) (hp : s.pc i = .fin p nx n c x none) :
    Inv (State.to { s with dS := Function.update s.dS n true } i (.cut p nx n c x)) := by
  have hloc := h.loc i
  have hlck := h.lck i
  have hown := h.own i
  have hdirty := h.dirty
  have hchi := h.chi
  have hrt := h.rt
  have hleaf := h.leafChi
  have hpar := h.parent
  have halloc := h.alloc
  rw [hp] at hloc hlck hown
  refine inv_light h (i := i) (x := .cut p nx n c x)
    ⟨rfl, rfl, rfl, rfl, rfl, rfl, rfl, rfl, rfl, rfl, rfl, rfl, rfl, rfl, rfl⟩ rfl
    ?_ ?_ ?_ ?_ ?_ ?_ ?_ ?_ ?_ ?_ ?_ ?_ ?_ ?_ ?_ ?_ <;> clear h <;> light

set_option maxHeartbeats 1000000 in
theorem inv_unlockParent {s : State G} (h : Inv s) (i p t : Nat) (hp : s.pc i = .unl p t) :
    Inv ((s.unlock p).to i (.hold t)) := by
  have hloc := h.loc i
  have hlck := h.lck i
  have hown := h.own i
  have hdirty := h.dirty
  have hchi := h.chi
  have hrt := h.rt
  have hleaf := h.leafChi
  have hpar := h.parent
  have halloc := h.alloc
  rw [hp] at hloc hlck hown
  refine inv_light h (i := i) (x := .hold t)
    ⟨rfl, rfl, rfl, rfl, rfl, rfl, rfl, rfl, rfl, rfl, rfl, rfl, rfl, rfl, rfl⟩ rfl
    ?_ ?_ ?_ ?_ ?_ ?_ ?_ ?_ ?_ ?_ ?_ ?_ ?_ ?_ ?_ ?_ <;> clear h <;> light


set_option maxHeartbeats 1000000 in
theorem inv_unlockRight {s : State G} (h : Inv s) (i q t : Nat) (p : Option Nat) (nx : Option (Nat × Nat))
    (hp : s.pc i = .rel p nx q t) : Inv ((s.unlock q).to i (.loop p nx t)) := by
  have hloc := h.loc i
  have hlck := h.lck i
  have hown := h.own i
  have hdirty := h.dirty
  have hchi := h.chi
  have hrt := h.rt
  have hleaf := h.leafChi
  have hpar := h.parent
  have halloc := h.alloc
  rw [hp] at hloc hlck hown
  match p, nx with
  | none, some nx => exact absurd hloc.2.2.2.2.1 (by simp [State.Above])
  | none, none =>
    refine inv_light h (i := i) (x := .hold t)
      ⟨rfl, rfl, rfl, rfl, rfl, rfl, rfl, rfl, rfl, rfl, rfl, rfl, rfl, rfl, rfl⟩ rfl
      ?_ ?_ ?_ ?_ ?_ ?_ ?_ ?_ ?_ ?_ ?_ ?_ ?_ ?_ ?_ ?_ <;> clear h <;> light
  | some p, none =>
    refine inv_light h (i := i) (x := .unl p t)
      ⟨rfl, rfl, rfl, rfl, rfl, rfl, rfl, rfl, rfl, rfl, rfl, rfl, rfl, rfl, rfl⟩ rfl
      ?_ ?_ ?_ ?_ ?_ ?_ ?_ ?_ ?_ ?_ ?_ ?_ ?_ ?_ ?_ ?_ <;> clear h <;> light
  | some p, some (c, x) =>
    refine inv_light h (i := i) (x := .par p c x (some t))
      ⟨rfl, rfl, rfl, rfl, rfl, rfl, rfl, rfl, rfl, rfl, rfl, rfl, rfl, rfl, rfl⟩ rfl
      ?_ ?_ ?_ ?_ ?_ ?_ ?_ ?_ ?_ ?_ ?_ ?_ ?_ ?_ ?_ ?_ <;> clear h <;> light

end Verif.Blink
