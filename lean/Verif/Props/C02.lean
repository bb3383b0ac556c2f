import Verif.Props.C01
/-
C02: find-for-insert and remove report presence truthfully; abandoning changes nothing.
-/
namespace Verif.Props.C02
open Verif.Key (Bytes)
open Verif.Trie
variable {V : Type}

/-- On any reachable table, for any key, whether the cursor then commits or not, `find_insert`
returns true exactly if a lookup of the key finds a value. -/
theorem find_insert_reports {t : T V} (ht : Reachable t) (commit : Bool) (f : Option V → V) (k : Bytes) :
    ∃ found t', upsert commit f k t = some (found, t') ∧ (found = true ↔ ∃ v, get k t = some (some v)) := by
  obtain ⟨old, t', h1, h2, _, _⟩ := upsert_spec commit f k t ht.wf
  refine ⟨_, t', h2, ?_⟩
  rw [h1]
  cases old <;> simp

/-- A committed insertion stores the value computed from the old one. -/
theorem commit_stores {t : T V} (ht : Reachable t) (f : Option V → V) (k : Bytes) :
    ∃ found t' old, upsert true f k t = some (found, t') ∧ get k t = some old ∧
      get k t' = some (some (f old)) := by
  obtain ⟨old, t', h1, h2, _, h4⟩ := upsert_spec true f k t ht.wf
  exact ⟨_, t', old, h2, h1, by rw [h4]; simp⟩

/-- A cursor that finishes without committing leaves every lookup as it was, although it may
have split a leaf or created layers. -/
theorem abandon_keeps {t : T V} (ht : Reachable t) (f : Option V → V) (k : Bytes) :
    ∃ found t', upsert false f k t = some (found, t') ∧ Reachable t' ∧ ∀ j, get j t' = get j t := by
  obtain ⟨old, t', h1, h2, h3, h4⟩ := upsert_spec false f k t ht.wf
  refine ⟨_, t', h2, ?_, fun j => by rw [h4]; simp⟩
  obtain ⟨ops, ho, outs, hr⟩ := ht
  have ha : ∀ (a b : List (Op V)) (t0 t1 : T V) o1, run a t0 = some (o1, t1) →
      run (a ++ b) t0 = (run b t1).map fun r => (o1 ++ r.1, r.2) := by
    intro a
    induction a with
    | nil => intro b t0 t1 o1 h; simp only [run, Option.some.injEq, Prod.mk.injEq] at h; simp [h.1.symm, h.2]
    | cons o os ih =>
      intro b t0 t1 o1 h
      simp only [run, List.cons_append] at h ⊢
      match hs : step o t0 with
      | none => rw [hs] at h; simp at h
      | some (b0, t2) =>
        rw [hs] at h
        simp only at h ⊢
        match hr : run os t2 with
        | none => rw [hr] at h; simp at h
        | some (o2, t3) =>
          rw [hr] at h
          simp only [Option.map_some, Option.some.injEq, Prod.mk.injEq] at h
          obtain ⟨rfl, rfl⟩ := h
          rw [ih b t2 t3 o2 hr]
          cases run b t3 <;> simp
  refine ⟨ops ++ [.update false f k], ?_, outs ++ [some old.isSome], ?_⟩
  · intro o h
    rcases List.mem_append.mp h with h | h
    · exact ho o h
    · simp only [List.mem_singleton] at h; subst h; trivial
  · rw [ha _ _ _ _ _ hr]; simp [run, step, h2]

/-- A remove request succeeds exactly if the key was there, and afterwards it is not. -/
theorem remove_reports {t : T V} (ht : Reachable t) (k : Bytes) :
    ∃ removed t' gc, remove k t = some (removed, t', gc) ∧
      (removed = true ↔ ∃ v, get k t = some (some v)) ∧ get k t' = some none := by
  obtain ⟨old, t', gc, h1, h2, _, h4⟩ := remove_spec k t ht.wf
  refine ⟨_, t', gc, h2, ?_, by rw [h4]; simp⟩
  rw [h1]
  cases old <;> simp

/-- The outcomes reported over a whole history are those of the map. -/
theorem outcomes_truthful (ops : List (Op V)) (h : ∀ o ∈ ops, o.Valid) :
    ∃ t, run ops empty = some ((specRun ops (fun _ => none)).1, t) := by
  obtain ⟨t, h1, _⟩ := run_spec empty_repr ops h
  exact ⟨t, h1⟩

/-! ### Concrete cases -/

/-- All five outcomes over a history that stores, overwrites, abandons and removes. -/
example : ∃ t, run [Op.put [1] 1, .put [1] 2, .update false (fun _ => 0) [1, 0], .remove [1], .remove [1],
      .update true (fun o => o.getD 3) [1]] empty =
    some ([some false, some true, some false, some true, some false, some false], t) :=
  outcomes_truthful [Op.put [1] 1, .put [1] 2, .update false (fun _ => 0) [1, 0], .remove [1], .remove [1],
      .update true (fun o => o.getD 3) [1]] (by simp [Op.Valid])

/-- The empty table is reachable, so the hypotheses of the other theorems can be met; a
non-empty reachable table is the one `C01` ends with. -/
example : Reachable (empty : T Nat) := ⟨[], by simp, [], rfl⟩
example : ∃ t : T Nat, Reachable t ∧ get C01.demoD t = some (some 14) := by
  obtain ⟨outs, t, h1, h2⟩ := C01.history_is_map C01.demoOps (by simp [C01.demoOps, Op.Valid, C01.demoP])
  exact ⟨t, ⟨_, by simp [C01.demoOps, Op.Valid, C01.demoP], _, h1⟩, by rw [h2]; decide⟩

end Verif.Props.C02
