import Mathlib.Data.List.Nodup

/-!
# Lists without duplicates
-/
namespace Verif.Prune

theorem mem_set_of {α : Type} {D : List α} {j : Nat} {a b x : α} (hd : D.Nodup) (hj : D[j]? = some b)
    (h : x ∈ D.set j a) : x = a ∨ x ∈ D ∧ x ≠ b := by
  induction D generalizing j with
  | nil => simp at hj
  | cons d D ih =>
    have hp := List.nodup_cons.mp hd
    match j with
    | 0 =>
      simp at hj
      subst hj
      rw [List.set_cons_zero, List.mem_cons] at h
      rcases h with rfl | h
      · exact Or.inl rfl
      · exact Or.inr ⟨List.mem_cons_of_mem _ h, by rintro rfl; exact hp.1 h⟩
    | j + 1 =>
      rw [List.getElem?_cons_succ] at hj
      rw [List.set_cons_succ, List.mem_cons] at h
      rcases h with rfl | h
      · exact Or.inr ⟨List.mem_cons_self, by rintro rfl; exact hp.1 (List.mem_of_getElem? hj)⟩
      · rcases ih hp.2 hj h with h | h
        · exact Or.inl h
        · exact Or.inr ⟨List.mem_cons_of_mem _ h.1, h.2⟩

theorem mem_erase_of {α : Type} {D : List α} {j : Nat} {b x : α} (hd : D.Nodup) (hj : D[j]? = some b)
    (h : x ∈ D.eraseIdx j) : x ∈ D ∧ x ≠ b := by
  induction D generalizing j with
  | nil => simp at hj
  | cons d D ih =>
    have hp := List.nodup_cons.mp hd
    match j with
    | 0 =>
      simp at hj
      subst hj
      rw [List.eraseIdx_cons_zero] at h
      exact ⟨List.mem_cons_of_mem _ h, by rintro rfl; exact hp.1 h⟩
    | j + 1 =>
      rw [List.getElem?_cons_succ] at hj
      rw [List.eraseIdx_cons_succ, List.mem_cons] at h
      rcases h with rfl | h
      · exact ⟨List.mem_cons_self, by rintro rfl; exact hp.1 (List.mem_of_getElem? hj)⟩
      · have := ih hp.2 hj h
        exact ⟨List.mem_cons_of_mem _ this.1, this.2⟩

theorem nodup_insert {α : Type} {D : List α} {j : Nat} {a : α} (hd : D.Nodup) (hj : j ≤ D.length) (ha : a ∉ D) :
    (D.insertIdx j a).Nodup :=
  (List.perm_insertIdx a D hj).nodup_iff.mpr (List.nodup_cons.mpr ⟨ha, hd⟩)

end Verif.Prune
