import Verif.Tso.Seen
import Verif.LeafRead.Stable
import Verif.NodeVersion.Lemmas

/-!
# Leaves on a machine with store buffers

Each step of `LeafRead.Step` is one entry of the buffer, as it is one step there: the stores to a new suffix container, for instance,
are one entry together with the store of the pointer to it.  Pointers between nodes are not part of the objects.
-/
namespace Verif.Tso

open Verif.NodeVersion

variable {V : Type}

theorem locked_lockWord (v : Ver) : locked (lockWord v) = true := by
  rw [locked_eq, lockWord, bit_or]
  simp [show bit lockBit 0 = true by decide]

theorem locked_unlockWord (v : Ver) : locked (unlockWord v) = false := by
  rw [locked_eq, unlockWord]
  split
  · rw [bit_and, show bit splitUnlockMask 0 = false by decide, Bool.and_false]
  · rw [bit_and, show bit unlockMask 0 = false by decide, Bool.and_false]

theorem locked_mark (m : Mark) (v : Ver) : locked (m.apply v) = locked v := by
  rw [locked_eq, locked_eq]
  have i : bit insertingBit 0 = false := by decide
  have s : bit splittingBit 0 = false := by decide
  have d : bit deletedBit 0 = false := by decide
  have r : bit rootBit 0 = false := by decide
  have r' : bit (~~~rootBit) 0 = true := by decide
  cases m <;> simp only [Mark.apply, markInsert, markSplit, markDeleted, markDeletedTree, markRoot, markNonroot, bit_or,
    bit_and, i, s, d, r, r', Bool.or_false, Bool.and_true]

/-- Leaves as objects: the lock is taken as in `LeafRead.Step.lock`, and who has it may do what `LeafRead.Step` allows. -/
def leafKind (V : Type) : Kind (LeafRead.State V) where
  free s := locked s.v = false
  acq s s' := locked s.v = false ∧ s.work = .free ∧ s' = { s with v := lockWord s.v, work := .held }
  work s s' := locked s.v = true ∧ LeafRead.Step s s'
  acq_free := by
    rintro s s' ⟨h1, _, rfl⟩
    exact ⟨h1, by simp [locked_lockWord]⟩
  work_held := by
    rintro s s' ⟨h1, _⟩
    simp [h1]

/-- The lock bit says whether somebody is at work. -/
def Agree (s : LeafRead.State V) : Prop := locked s.v = false ↔ s.work = .free

theorem Agree.step {s s' : LeafRead.State V} (h : Agree s) (hs : LeafRead.Step s s') : Agree s' := by
  unfold Agree at h ⊢
  cases hs <;> simp_all [locked_lockWord, locked_unlockWord, locked_mark]

theorem leaf_step {s s' : LeafRead.State V} (h : s' = s ∨ (leafKind V).acq s s' ∨ (leafKind V).work s s') :
    s' = s ∨ LeafRead.Step s s' := by
  rcases h with h | ⟨h1, h2, rfl⟩ | h
  · exact .inl h
  · exact .inr (.lock h2 h1)
  · exact .inr h.2

/-- What a thread sees of a leaf, over time. -/
def Run.seen (r : Run (leafKind V)) (t o : Nat) (hi : LeafRead.Init ((r.at_ 0).mem o)) : LeafRead.Run V where
  at_ n := (r.at_ n).view t o
  init := by
    have : (r.at_ 0).view t o = (r.at_ 0).mem o := by simp [State.view, r.init.empty, proj, apply]
    rw [this]; exact hi
  step n := leaf_step ((r.effect n).view t o)

/-- The leaf in memory, over time. -/
def Run.memory (r : Run (leafKind V)) (o : Nat) (hi : LeafRead.Init ((r.at_ 0).mem o)) : LeafRead.Run V where
  at_ n := (r.at_ n).mem o
  init := hi
  step n := leaf_step ((r.effect n).mem o)

theorem Run.agree (r : Run (leafKind V)) {o : Nat} (h : Agree ((r.at_ 0).mem o)) (n : Nat) : Agree ((r.at_ n).mem o) := by
  induction n with
  | zero => exact h
  | succ n ih =>
    rcases leaf_step ((r.effect n).mem o) with e | hs
    · rw [e]; exact ih
    · exact ih.step hs

end Verif.Tso
