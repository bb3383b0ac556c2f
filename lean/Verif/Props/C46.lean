import Verif.Prune.Lost
import Verif.KSearch.Model
import Mathlib.Logic.Relation

/-!
# C46: removing a leaf while another thread splits its neighbour

The claim one would like is that lookups, inserts, splits and removals of leaves that race are linearizable.  It is false of
the code: after some runs of two threads, in which all operations have returned, a key that was inserted last cannot be found
any more, and no operation on it ever returns.
-/
namespace Verif.Props.C46

open Verif.Prune

/-- The binary search for a child, `bound_type::upper` (/repo/masstree_struct.hh:106, /repo/masstree.hh:34 and /repo/ksearch.hh:38-55). -/
def binary (K : List Nat) (k : Nat) : Nat := KSearch.upper id (fun p => (k : Int) - (K.getD p 0 : Nat)) K.length

/-- The linear one, /repo/ksearch.hh:89-103. -/
def linear (K : List Nat) (k : Nat) : Nat := KSearch.findUpper id (fun p => (k : Int) - (K.getD p 0 : Nat)) K.length

theorem binary_agrees : Lost.Agree binary := by
  constructor <;> simp [binary, KSearch.upper, KSearch.upperLoop]

theorem linear_agrees : Lost.Agree linear := by
  constructor <;> simp [linear, KSearch.findUpper, KSearch.findUpperLoop]

/-- From a full leaf with the keys 0 to 14 there is a run, with nodes of width 15, to a state where no operation goes on and
key 15 was inserted last, but the root leads from key 15 to a deleted leaf.  From there on, as long as no other key is
changed, no lookup of key 15 ever returns and no update of it ever gets a leaf to change. -/
theorem lost {up : List Nat → Nat → Nat} (hu : Lost.Agree up) :
    ∃ s0 s : State Nat, Init s0 ∧ Fits up 15 s0 s ∧ (∀ i, s.pc i = .idle) ∧ (∀ n, s.lock n = none) ∧ s.m 15 = some 7 ∧
      (∃ c, s.route up s.root 15 = some c ∧ s.dead c = true) ∧
      ∀ r : Nat → State Nat, r 0 = s → (∀ t, r (t + 1) = r t ∨ Step up (r t) (r (t + 1))) →
        (∀ t i, (r t).pc i = .idle ∨ (r t).fn i = none ∨ (r t).key i = 15) →
        ∀ t i, (r t).key i = 15 → (∀ v, (r t).pc i ≠ .done v) ∧ ∀ n, (r t).pc i ≠ .hold n := by
  refine ⟨Lost.init, Lost.t46, Lost.init_ok, Lost.run hu, Lost.quiet, ?_, rfl, ⟨1, ?_, rfl⟩, ?_⟩
  · exact Lost.free
  · unfold State.route
    show ([some 0, some 1] : List (Option Nat)).getD (up [15] 15) none = some 1
    rw [hu.1]; rfl
  · intro r h0 hs hw
    have hst : ∀ t, Lost.Stuck (r t) := by
      intro t
      induction t with
      | zero => rw [h0]; exact Lost.stuck_end
      | succ t ih =>
        rcases hs t with h | h
        · rw [h]; exact ih
        · exact Lost.stuck_step hu.1 ih h (hw (t + 1))
    intro t i hk
    have := (hst t).thr i
    constructor
    · intro v hv
      rw [hv] at this
      simp [Lost.Reading, Lost.Here, hk] at this
    · intro n hn
      rw [hn] at this
      simp [Lost.Reading] at this

/-- So it is with both searches. -/
example : Lost.Agree binary ∧ Lost.Agree linear := ⟨binary_agrees, linear_agrees⟩

/-- A run that goes on: a lookup of key 15 gets to the deleted leaf. -/
example : ∃ s : State Nat, Relation.ReflTransGen (Step binary) Lost.t46 s ∧ s.pc 0 = .at_ 1 0 1 ∧ s.key 0 = 15 ∧
    s.fn 0 = none ∧ s.dead 1 = true := by
  let a : State Nat := State.to { Lost.t46 with
    key := Function.update Lost.t46.key 0 15
    base := Function.update Lost.t46.base 0 2
    fn := Function.update Lost.t46.fn 0 none } 0 (.up 2)
  have h1 : Step binary Lost.t46 a := Step.start 0 15 none Lost.small rfl
  have h2 : Step binary a (a.to 0 (.at_ 2 2 0)) := Step.rooted 0 2 rfl ⟨rfl, rfl⟩ rfl
  have h3 : Step binary (a.to 0 (.at_ 2 2 0)) ((a.to 0 (.at_ 2 2 0)).to 0 (.pick 2 2 0 1)) :=
    Step.pick 0 2 2 0 1 rfl rfl (fun _ => by
      unfold State.route
      show ([some 0, some 1] : List (Option Nat)).getD (binary [15] 15) none = some 1
      rw [binary_agrees.1]; rfl)
  have h4 := Step.child (up := binary) (s := (a.to 0 (.at_ 2 2 0)).to 0 (.pick 2 2 0 1)) 0 2 2 0 1 rfl ⟨rfl, rfl⟩
  have h5 := Step.descend (up := binary) (s := ((a.to 0 (.at_ 2 2 0)).to 0 (.pick 2 2 0 1)).to 0 (.picked 2 2 0 1 0 1))
    0 2 2 0 1 0 1 rfl ⟨⟨rfl, rfl⟩, rfl, rfl⟩
  exact ⟨_, .tail (.tail (.tail (.tail (.tail .refl h1) h2) h3) h4) h5, rfl, rfl, rfl, rfl⟩

end Verif.Props.C46
