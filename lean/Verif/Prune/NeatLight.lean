import Verif.Prune.NeatQuiet

/-!
# Quiet steps of threads that remove nothing
-/
namespace Verif.Prune

variable {G : Type} {up : List Nat → Nat → Nat}

theorem neat_to {s s' : State G} {i : Nat} {x : PC G} (hn : Neat s) (he : Still s s') (hrt : s.Root → s'.Root)
    (hr : ∀ c, s.rt c = false → s'.rt c = false) (hpc : s'.pc = Function.update s.pc i x)
    (h1 : ¬ (s.pc i).Removing) (h2 : ¬ x.Removing) (h3 : ∀ n c y, x.Pending n c y → (s.pc i).Pending n c y)
    (hd : ∀ k, (s.pc k).Removing → s'.dS = s.dS) : Neat s' :=
  neat_quiet (j := i) hn he hrt hr (fun k hk => by rw [hpc, Function.update_of_ne hk]) h1
    (by rw [hpc, Function.update_self]; exact h2) (fun n c y => by rw [hpc, Function.update_self]; exact h3 n c y) hd

theorem neat_read {s s' : State G} {i : Nat} {x : PC G} (hn : Neat s) (he : Still s s') (hrt : s'.rt = s.rt)
    (hds : s'.dS = s.dS) (hpc : s'.pc = Function.update s.pc i x) (h1 : ¬ (s.pc i).Removing) (h2 : ¬ x.Removing)
    (h3 : ∀ n c y, x.Pending n c y → (s.pc i).Pending n c y) : Neat s' :=
  neat_to hn he (root_id he hrt fun n hn => by rw [hds]; exact hn) (fun c hc => by rw [hrt]; exact hc) hpc h1 h2 h3 fun _ _ => hds

/-- While somebody else has a node locked, nobody removes a leaf. -/
theorem Lone.nobody {s : State G} (h : Inv s) (hl : Lone s) {j n : Nat} (ho : (s.pc j).Owns n) (hj : ¬ (s.pc j).Removing) :
    ∀ k, ¬ (s.pc k).Removing := by
  intro k hk
  have := hl.other h hk ho
  subst this
  exact hj hk

theorem neat_unlock {s : State G} {i q n : Nat} {x : PC G} (h : Inv s) (hl : Lone s) (hn : Neat s) (ho : (s.pc i).Owns n)
    (h1 : ¬ (s.pc i).Removing) (h2 : ¬ x.Removing) (h3 : ∀ n c y, x.Pending n c y → (s.pc i).Pending n c y) :
    Neat ((s.unlock q).to i x) :=
  neat_to hn ⟨rfl, rfl, rfl, rfl, rfl, rfl, rfl, rfl⟩ (root_unlock q) (rt_unlock q) rfl h1 h2 h3
    fun k hk => absurd hk (hl.nobody h ho h1 k)

theorem neat_markSplit {s : State G} {i n : Nat} {x : PC G} (h : Inv s) (hl : Lone s) (hn : Neat s) (ho : (s.pc i).Owns n)
    (h1 : ¬ (s.pc i).Removing) (h2 : ¬ x.Removing) (h3 : ∀ n c y, x.Pending n c y → (s.pc i).Pending n c y) :
    Neat (State.to { s with dS := Function.update s.dS n true } i x) := by
  refine neat_to hn ⟨rfl, rfl, rfl, rfl, rfl, rfl, rfl, rfl⟩ (root_id ⟨rfl, rfl, rfl, rfl, rfl, rfl, rfl, rfl⟩ rfl fun m hm => ?_)
    (fun _ hc => hc) rfl h1 h2 h3 fun k hk => absurd hk (hl.nobody h ho h1 k)
  by_cases e : m = n
  · subst e; simp [State.to]
  · simpa [State.to, Function.update_of_ne e] using hm

end Verif.Prune
