import Verif.Trie.Packed
import Verif.Trie.Contents

/-!
# C42: no empty leaf stays in the tree, except the leftmost of a layer
-/
namespace Verif.Props.C42
open Verif.Key (Bytes)
open Verif.Permuter (Word size)
open Verif.Tree (Node Slot entries leafEntries)
open Verif.Trie
variable {V : Type}

mutual
/-- The leaves of one layer from left to right, as lists of the slots in use. -/
def leaves {α : Type} : Node α → List (List (Slot α))
  | .null => []
  | .leaf perm slots => [leafEntries perm slots]
  | .inode _ _ kids => leavesL kids
def leavesL {α : Type} : List (Node α) → List (List (Slot α))
  | [] => []
  | c :: cs => leaves c ++ leavesL cs
end

/-- `n` is the table itself or one of the layers nested in it. -/
inductive LayerOf : T V → T V → Prop
  | self (t : T V) : LayerOf t t
  | sub (t : T V) (s : Slot (LV V)) (n m : T V) (hs : s ∈ entries t) (hl : s.lv = some (.layer n)) (h : LayerOf n m) : LayerOf t m

theorem leaves_full {α : Type} (n : Node α) : ∀ lm, Tree.Full lm n →
    (∀ l ∈ (leaves n).tail, l ≠ []) ∧ (lm = false → ∀ l ∈ leaves n, l ≠ []) := by
  induction n using Tree.Node.ind with
  | h0 => intro lm _; simp [leaves]
  | h1 perm slots =>
    intro lm h
    refine ⟨by simp [leaves], ?_⟩
    intro e l hl
    simp only [leaves, List.mem_singleton] at hl
    subst hl
    rcases h with h | h
    · rw [e] at h; cases h
    · intro h0
      apply h
      rw [← Tree.leafEntries_length perm slots, h0]
      rfl
  | h2 ht keys kids ih =>
    intro lm h
    simp only [Tree.Full] at h
    have all : ∀ (cs : List (Node α)), (∀ c ∈ cs, ∀ lm, Tree.Full lm c →
        (∀ l ∈ (leaves c).tail, l ≠ []) ∧ (lm = false → ∀ l ∈ leaves c, l ≠ [])) →
        Tree.FullL false cs → ∀ l ∈ leavesL cs, l ≠ [] := by
      intro cs
      induction cs with
      | nil => intro _ _ l hl; simp [leavesL] at hl
      | cons c cs ihc =>
        intro hi hf l hl
        simp only [leavesL, List.mem_append] at hl
        rcases hl with hl | hl
        · exact (hi c (by simp) false hf.1).2 rfl l hl
        · exact ihc (fun d hd => hi d (by simp [hd])) hf.2 l hl
    constructor
    · cases kids with
      | nil => simp [leaves, leavesL]
      | cons c cs =>
        intro l hl
        simp only [leaves, leavesL] at hl
        have hrest := all cs (fun d hd => ih d (by simp [hd])) h.2
        cases hc : leaves c with
        | nil => rw [hc, List.nil_append] at hl; exact hrest l (List.mem_of_mem_tail hl)
        | cons a as =>
          rw [hc, List.cons_append, List.tail_cons, List.mem_append] at hl
          rcases hl with hl | hl
          · exact (ih c (by simp) lm h.1).1 l (by rw [hc]; exact hl)
          · exact hrest l hl
    · intro e
      subst e
      exact all kids ih h

/-- After any history in which every insertion that was begun was also finished, every layer of the table has all its
leaves but the leftmost one nonempty. -/
theorem no_empty_leaf {ops : List (Op V)} (h : ∀ o ∈ ops, o.Valid ∧ o.Committed) {outs : List (Option Bool)} {t : T V}
    (hr : run ops empty = some (outs, t)) {n : T V} (hn : LayerOf t n) : ∀ l ∈ (leaves n).tail, l ≠ [] := by
  have hp := run_packed ops empty h ⟨_, empty_repr⟩ empty_packed outs t hr
  clear hr
  induction hn with
  | self t => exact (leaves_full t true hp.full).1
  | sub t s n m hs hl _ ih => exact ih (hp.sub s hs n hl)

/-! ### Concrete cases -/

def key (n : Nat) : Bytes := [UInt8.ofNat n]

/-- Twenty keys in two leaves; then the second leaf loses all its keys and disappears, and the first one stays though
it is empty. -/
def fill : List (Op Nat) := (List.range 20).map fun i => .put (key i) i
def emptyRight : List (Op Nat) := (List.range 5).map fun i => .remove (key (15 + i))
def emptyLeft : List (Op Nat) := (List.range 15).map fun i => .remove (key i)
def sizes (ops : List (Op Nat)) : Option (List Nat) := (run ops empty).map fun r => (leaves r.2).map List.length

example : sizes fill = some [15, 5] ∧ sizes (fill ++ emptyRight) = some [15] ∧ sizes (fill ++ emptyLeft) = some [0, 5] := by
  decide +kernel

theorem committed_ops : ∀ o ∈ fill ++ emptyLeft, Op.Valid o ∧ Op.Committed o := by
  intro o ho
  simp only [fill, emptyLeft, List.mem_append, List.mem_map] at ho
  rcases ho with ⟨i, _, rfl⟩ | ⟨i, _, rfl⟩ <;> exact ⟨trivial, trivial⟩

example : ∃ outs t, run (fill ++ emptyLeft) empty = some (outs, t) ∧ ∀ l ∈ (leaves t).tail, l ≠ [] := by
  cases h : run (fill ++ emptyLeft) empty with
  | none =>
    have : sizes (fill ++ emptyLeft) = some [0, 5] := by decide +kernel
    unfold sizes at this; rw [h] at this; cases this
  | some r => exact ⟨r.1, r.2, rfl, no_empty_leaf committed_ops h (.self _)⟩

/-- The condition is needed: a cursor that inserts and then finishes with 0 can leave an empty leaf on the right. -/
theorem uncommitted_leaves_empty : sizes ((List.range 15).map (fun i => Op.put (key i) i) ++ [.update false (fun _ => 0) (key 15)])
    = some [15, 0] := by decide +kernel

end Verif.Props.C42
