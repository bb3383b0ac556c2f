import Verif.Props.C02
/-
C36: collapsing layers, at whatever moments, hides no key.
-/
namespace Verif.Props.C36
open Verif.Key (Bytes)
open Verif.Trie
variable {V : Type}

/-- Not a layer collection. -/
def userOp : Op V → Bool
  | .gc _ => false
  | _ => true

theorem spec_gc_free (ops : List (Op V)) (m : Bytes → Option V) :
    (specRun ops m).2 = (specRun (ops.filter userOp) m).2 ∧
    (specRun ops m).1.filter Option.isSome = (specRun (ops.filter userOp) m).1 := by
  induction ops generalizing m with
  | nil => exact ⟨rfl, rfl⟩
  | cons o os ih =>
    obtain ⟨h1, h2⟩ := ih (specStep o m)
    have user : ∀ o : Op V, userOp o = true → specOut o m ≠ none →
        (specRun os (specStep o m)).2 = (specRun (os.filter userOp) (specStep o m)).2 ∧
        (specRun os (specStep o m)).1.filter Option.isSome = (specRun (os.filter userOp) (specStep o m)).1 →
        (specRun (o :: os) m).2 = (specRun ((o :: os).filter userOp) m).2 ∧
        (specRun (o :: os) m).1.filter Option.isSome = (specRun ((o :: os).filter userOp) m).1 := by
      intro o hu ho ⟨h1, h2⟩
      rw [List.filter_cons_of_pos hu]
      simp only [specRun]
      refine ⟨h1, ?_⟩
      rw [List.filter_cons_of_pos (by cases hh : specOut o m <;> simp_all), h2]
    cases o with
    | put k v => exact user _ rfl (by simp [specOut]) ⟨h1, h2⟩
    | update c f k => exact user _ rfl (by simp [specOut]) ⟨h1, h2⟩
    | remove k => exact user _ rfl (by simp [specOut]) ⟨h1, h2⟩
    | gc k =>
      rw [List.filter_cons_of_neg (by simp [userOp])]
      exact ⟨h1, h2⟩

/-- Take any history with layer collections anywhere in it, and the same history without them.
All user operations report the same outcomes and all lookups answer the same. -/
theorem gc_invisible (ops : List (Op V)) (h : ∀ o ∈ ops, o.Valid) :
    ∃ outs t outs' t', run ops empty = some (outs, t) ∧ run (ops.filter userOp) empty = some (outs', t') ∧
      outs.filter Option.isSome = outs' ∧ ∀ k, get k t = get k t' := by
  obtain ⟨t, h1, h2⟩ := run_spec empty_repr ops h
  obtain ⟨t', h3, h4⟩ := run_spec empty_repr (ops.filter userOp) (fun o ho => h o (List.mem_filter.mp ho).1)
  obtain ⟨e1, e2⟩ := spec_gc_free ops (fun _ => none)
  exact ⟨_, t, _, t', h1, h3, e2, fun k => by rw [h2.2, h4.2, e1]⟩

/-- In particular, right after removing a key and running the collection that the removal
registered, lookups of all other keys are as before the removal and inserting the key again
works. -/
theorem remove_gc_reinsert {t : T V} (ht : Reachable t) (k : Bytes) (v : V) :
    ∃ b t1 gc, remove k t = some (b, t1, gc) ∧ ∀ p, gc = some p → p ≠ [] →
      ∃ t2, gcLayer p t1 = some t2 ∧ (∀ j, j ≠ k → get j t2 = get j t) ∧ get k t2 = some none ∧
        ∃ t3, upsert true (fun _ => v) k t2 = some (false, t3) ∧ get k t3 = some (some v) ∧
          ∀ j, j ≠ k → get j t3 = get j t := by
  obtain ⟨old, t1, gc, _, h2, h3, h4⟩ := Trie.remove_spec k t ht.wf
  refine ⟨_, t1, gc, h2, ?_⟩
  rintro p rfl hp
  obtain ⟨hp8, _⟩ := remove_gc k t h2
  obtain ⟨t2, q1, q2, q3, _⟩ := gcLayer_spec p t1 h3 hp8 hp
  have hk : get k t2 = some none := by rw [q3, h4]; simp
  refine ⟨t2, q1, fun j hj => by rw [q3, h4, if_neg hj], hk, ?_⟩
  obtain ⟨old', t3, r1, r2, r3, r4⟩ := upsert_spec true (fun _ => v) k t2 q2
  have : old' = none := by rw [hk] at r1; simpa using r1.symm
  subst this
  refine ⟨t3, r2, by rw [r4]; simp, fun j hj => by rw [r4, if_neg (by simp [hj]), q3, h4, if_neg hj]⟩

/-! ### Concrete case: a nested layer is emptied, collected, and its keys stored again -/

example : ∃ outs t outs' t', run [Op.put C01.demoC 1, .put C01.demoD 2, .remove C01.demoC, .gc C01.demoP,
      .remove C01.demoD, .gc C01.demoP, .put C01.demoC 3] empty = some (outs, t) ∧
    run [Op.put C01.demoC 1, .put C01.demoD 2, .remove C01.demoC, .remove C01.demoD, .put C01.demoC 3] empty
      = some (outs', t') ∧ outs.filter Option.isSome = outs' ∧ ∀ k, get k t = get k t' :=
  gc_invisible [Op.put C01.demoC 1, .put C01.demoD 2, .remove C01.demoC, .gc C01.demoP,
      .remove C01.demoD, .gc C01.demoP, .put C01.demoC 3] (by simp [Op.Valid, C01.demoP])

end Verif.Props.C36
