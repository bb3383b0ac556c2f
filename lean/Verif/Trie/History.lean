import Verif.Trie.Gc

/-!
Histories of operations on a table and the map they should implement.
-/
namespace Verif.Trie
open Verif.Key (Bytes)
open Verif.Tree (Slot Node)
variable {V : Type}

/-- One operation of the single-threaded interface. -/
inductive Op (V : Type) where
  /-- `find_insert`, assign to `value()`, `finish(1)` -/
  | put (k : Bytes) (v : V)
  /-- `find_insert`, compute the new value from the old one, `finish(1)` or `finish(0)` -/
  | update (commit : Bool) (f : Option V → V) (k : Bytes)
  /-- `find_locked`, then `finish(-1)` if the key was found -/
  | remove (k : Bytes)
  /-- run a `gc_layer` callback for the layer under prefix `k` -/
  | gc (k : Bytes)

/-- A `gc_layer` callback exists only for prefixes of whole slices, and not for the top layer
(/repo/masstree_remove.hh:151-158, 195-203). -/
def Op.Valid : Op V → Prop
  | .gc k => k.length % 8 = 0 ∧ k ≠ []
  | _ => True

/-- Run one operation; the first component is the reported outcome. -/
def step (o : Op V) (t : T V) : Option (Option Bool × T V) :=
  match o with
  | .put k v => (upsert true (fun _ => v) k t).map fun r => (some r.1, r.2)
  | .update c f k => (upsert c f k t).map fun r => (some r.1, r.2)
  | .remove k => (remove k t).map fun r => (some r.1, r.2.1)
  | .gc k => (gcLayer k t).map fun t' => (none, t')

/-- Run a history; the list of outcomes and the final table. -/
def run : List (Op V) → T V → Option (List (Option Bool) × T V)
  | [], t => some ([], t)
  | o :: os, t =>
    match step o t with
    | none => none
    | some (b, t') => (run os t').map fun r => (b :: r.1, r.2)

/-! ### The specification: a finite map -/

/-- What an operation does to a map. -/
def specStep (o : Op V) (m : Bytes → Option V) : Bytes → Option V :=
  match o with
  | .put k v => fun j => if j = k then some v else m j
  | .update true f k => fun j => if j = k then some (f (m k)) else m j
  | .update false _ _ => m
  | .remove k => fun j => if j = k then none else m j
  | .gc _ => m

/-- What an operation should report: was the key there? -/
def specOut (o : Op V) (m : Bytes → Option V) : Option Bool :=
  match o with
  | .put k _ => some (m k).isSome
  | .update _ _ k => some (m k).isSome
  | .remove k => some (m k).isSome
  | .gc _ => none

/-- The map and outcomes after a history. -/
def specRun : List (Op V) → (Bytes → Option V) → List (Option Bool) × (Bytes → Option V)
  | [], m => ([], m)
  | o :: os, m =>
    let r := specRun os (specStep o m)
    (specOut o m :: r.1, r.2)

/-- A table stands for a map. -/
def Repr (t : T V) (m : Bytes → Option V) : Prop := WF t ∧ ∀ k, get k t = some (m k)

theorem step_spec {t : T V} {m : Bytes → Option V} (h : Repr t m) (o : Op V) (ho : o.Valid) :
    ∃ t', step o t = some (specOut o m, t') ∧ Repr t' (specStep o m) := by
  obtain ⟨hw, hm⟩ := h
  have ups : ∀ c f k, ∃ t', (upsert c f k t).map (fun r => (some r.1, r.2)) = some (some (m k).isSome, t') ∧
      Repr t' (fun j => if j = k ∧ c = true then some (f (m k)) else m j) := by
    intro c f k
    obtain ⟨old, t', h1, h2, h3, h4⟩ := upsert_spec c f k t hw
    have e : m k = old := by rw [hm] at h1; simpa using h1
    subst e
    refine ⟨t', by rw [h2]; rfl, h3, ?_⟩
    intro j
    rw [h4, hm]
    dsimp only
    split <;> rfl
  cases o with
  | put k v =>
    obtain ⟨t', h1, h2⟩ := ups true (fun _ => v) k
    refine ⟨t', h1, ?_⟩
    simpa [specStep] using h2
  | update c f k =>
    obtain ⟨t', h1, h2⟩ := ups c f k
    refine ⟨t', h1, ?_⟩
    cases c <;> simpa [specStep] using h2
  | remove k =>
    obtain ⟨old, t', gc, h1, h2, h3, h4⟩ := remove_spec k t hw
    have e : m k = old := by rw [hm] at h1; simpa using h1
    subst e
    refine ⟨t', by simp [step, h2, specOut], h3, ?_⟩
    intro j
    rw [h4, hm]
    simp only [specStep]
    split <;> rfl
  | gc k =>
    obtain ⟨t', h1, h2, h3, _⟩ := gcLayer_spec k t hw ho.1 ho.2
    exact ⟨t', by simp [step, h1, specOut], h2, fun j => by rw [h3, hm]; rfl⟩

theorem run_spec {t : T V} {m : Bytes → Option V} (h : Repr t m) (ops : List (Op V))
    (ho : ∀ o ∈ ops, o.Valid) :
    ∃ t', run ops t = some ((specRun ops m).1, t') ∧ Repr t' (specRun ops m).2 := by
  induction ops generalizing t m with
  | nil => exact ⟨t, rfl, h⟩
  | cons o os ih =>
    obtain ⟨t1, h1, h2⟩ := step_spec h o (ho o (by simp))
    obtain ⟨t2, h3, h4⟩ := ih h2 (fun o' h' => ho o' (by simp [h']))
    exact ⟨t2, by simp [run, h1, h3, specRun], h4⟩

theorem empty_repr : Repr (empty : T V) (fun _ => none) := by
  refine ⟨empty_wf, ?_⟩
  intro k
  rw [get_eq empty_wf.inv]
  simp [empty, (Tree.emptyLayer_inv (hi := top)).2, Tree.matching, resolve]

/-- Tables that some history produces. -/
def Reachable (t : T V) : Prop :=
  ∃ ops : List (Op V), (∀ o ∈ ops, o.Valid) ∧ ∃ outs, run ops empty = some (outs, t)

theorem Reachable.repr {t : T V} (h : Reachable t) : ∃ m, Repr t m := by
  obtain ⟨ops, h1, outs, h2⟩ := h
  obtain ⟨t', h3, h4⟩ := run_spec empty_repr ops h1
  rw [h2] at h3
  simp only [Option.some.injEq, Prod.mk.injEq] at h3
  exact ⟨_, h3.2 ▸ h4⟩

theorem Reachable.wf {t : T V} (h : Reachable t) : WF t := (h.repr).choose_spec.1

end Verif.Trie
