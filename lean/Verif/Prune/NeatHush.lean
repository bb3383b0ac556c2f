import Verif.Prune.NeatLight

/-!
# Quiet steps of a removal
-/
namespace Verif.Prune

variable {G : Type} {up : List Nat → Nat → Nat}

theorem neat_hush {s s' : State G} {i : Nat} {x x' : PC G} (h : Inv s) (hl : Lone s) (hn : Neat s) (hp : s.pc i = x)
    (hx : x.Removing) (he : Still s s') (hrt : s.Root → s'.Root) (hpc : s'.pc = Function.update s.pc i x') (hx' : x'.Removing)
    (hc : ∀ m, s.Cur x = some m → s'.Cur x' = some m) (hm : x'.Mid = x.Mid) (hr : x'.Repl = x.Repl)
    (ht : s.Task x → s'.Task x') : Neat s' := by
  have h1 : (s.pc i).Removing := by rw [hp]; exact hx
  obtain ⟨h2, h3⟩ := hn.task i h1
  rw [hp] at h2 h3
  have e : s'.pc i = x' := by rw [hpc, Function.update_self]
  refine neat_task h hl hn he.fresh ?_ (hrt hn.root) (fun k hk => by rw [hpc, Function.update_of_ne hk]) h1
    (Or.inl (by rw [e]; exact hx')) ?_
  · obtain ⟨rk, hk⟩ := hn.rank
    exact ⟨rk, by rw [he.fresh, he.parent]; exact hk.1⟩
  · rw [e]; exact ⟨h2.same he hc hm hr, ht h3⟩

theorem neat_lockParentR {s : State G} (h : Inv s) (hl : Lone s) (hn : Neat s) (i n p ik : Nat) (r : Option Nat)
    (hp : s.pc i = .rpar n r ik) (hf : s.lock p = none) :
    Neat (State.to { s with lock := Function.update s.lock p (some i) } i (.rgot p n r ik)) := by
  have he : Still s (State.to { s with lock := Function.update s.lock p (some i) } i (.rgot p n r ik)) :=
    ⟨rfl, rfl, rfl, rfl, rfl, rfl, rfl, rfl⟩
  refine neat_hush h hl hn hp trivial he (root_id he rfl fun _ h => h) rfl trivial (fun m hm => ?_) rfl rfl fun ht =>
    ⟨ht.1.same he, ht.2, (h.dirty p hf).2⟩
  cases r <;> exact hm

theorem neat_isParentR {s : State G} (h : Inv s) (hl : Lone s) (hn : Neat s) (i p n ik : Nat) (r : Option Nat)
    (hp : s.pc i = .rgot p n r ik) :
    Neat (State.to { s with dI := Function.update s.dI p true } i (.rmod p n r ik)) := by
  have he : Still s (State.to { s with dI := Function.update s.dI p true } i (.rmod p n r ik)) :=
    ⟨rfl, rfl, rfl, rfl, rfl, rfl, rfl, rfl⟩
  refine neat_hush h hl hn hp trivial he (root_id he rfl fun _ h => h) rfl trivial (fun m hm => ?_) rfl rfl fun ht =>
    ⟨ht.1.same he, ht.2⟩
  cases r <;> exact hm

theorem neat_notParentR {s : State G} (h : Inv s) (hl : Lone s) (hn : Neat s) (i p n ik : Nat) (r : Option Nat)
    (hp : s.pc i = .rgot p n r ik) : Neat ((s.unlock p).to i (.rpar n r ik)) := by
  have he : Still s ((s.unlock p).to i (.rpar n r ik)) := ⟨rfl, rfl, rfl, rfl, rfl, rfl, rfl, rfl⟩
  refine neat_hush h hl hn hp trivial he (root_unlock p) rfl trivial (fun m hm => ?_) rfl rfl fun ht =>
    ⟨ht.1.same he, ht.2.1⟩
  cases r <;> exact hm

theorem neat_lockParentD {s : State G} (h : Inv s) (hl : Lone s) (hn : Neat s) (i q p n ik y u : Nat)
    (hp : s.pc i = .dpar q p n ik y) :
    Neat (State.to { s with lock := Function.update s.lock u (some i) } i (.dgot u q p n ik y)) := by
  have he : Still s (State.to { s with lock := Function.update s.lock u (some i) } i (.dgot u q p n ik y)) :=
    ⟨rfl, rfl, rfl, rfl, rfl, rfl, rfl, rfl⟩
  exact neat_hush h hl hn hp trivial he (root_id he rfl fun _ h => h) rfl trivial (fun m hm => hm) rfl rfl fun ht =>
    ⟨ht.1.same he, ht.2.1.same he, ht.2.2⟩

theorem dS_unlock {s : State G} (n : Nat) {p : Nat} (h : s.dS p = false) : (s.unlock n).dS p = false := by
  by_cases e : p = n
  · subst e; simp [State.unlock]
  · simpa [State.unlock, Function.update_of_ne e] using h

theorem neat_isParentD {s : State G} (h : Inv s) (hl : Lone s) (hn : Neat s) (i q p n ik y u : Nat)
    (hp : s.pc i = .dgot u q p n ik y) : Neat ((if q = p then s else s.unlock q).to i (.dset u q p n ik y)) := by
  split
  · have he : Still s (s.to i (.dset u q p n ik y)) := ⟨rfl, rfl, rfl, rfl, rfl, rfl, rfl, rfl⟩
    exact neat_hush h hl hn hp trivial he (root_id he rfl fun _ h => h) rfl trivial (fun m hm => hm) rfl rfl fun ht =>
      ⟨ht.1.same he, ht.2.1.same he, ht.2.2⟩
  · have he : Still s ((s.unlock q).to i (.dset u q p n ik y)) := ⟨rfl, rfl, rfl, rfl, rfl, rfl, rfl, rfl⟩
    exact neat_hush h hl hn hp trivial he (root_unlock q) rfl trivial (fun m hm => hm) rfl rfl fun ht =>
      ⟨ht.1.same he, ht.2.1.same he, ht.2.2.1, ht.2.2.2.1, dS_unlock q ht.2.2.2.2⟩

theorem neat_notParentD {s : State G} (h : Inv s) (hl : Lone s) (hn : Neat s) (i q p n ik y u : Nat)
    (hp : s.pc i = .dgot u q p n ik y) : Neat ((s.unlock u).to i (.dpar q p n ik y)) := by
  have he : Still s ((s.unlock u).to i (.dpar q p n ik y)) := ⟨rfl, rfl, rfl, rfl, rfl, rfl, rfl, rfl⟩
  exact neat_hush h hl hn hp trivial he (root_unlock u) rfl trivial (fun m hm => hm) rfl rfl fun ht =>
    ⟨ht.1.same he, ht.2.1.same he, ht.2.2.1, ht.2.2.2.1, dS_unlock u ht.2.2.2.2⟩

theorem neat_unlockTop {s : State G} (h : Inv s) (hl : Lone s) (hn : Neat s) (i u p n y : Nat)
    (hp : s.pc i = .dtop u p n y) : Neat ((s.unlock u).to i (.rend p n y)) := by
  have he : Still s ((s.unlock u).to i (.rend p n y)) := ⟨rfl, rfl, rfl, rfl, rfl, rfl, rfl, rfl⟩
  exact neat_hush h hl hn hp trivial he (root_unlock u) rfl trivial (fun m hm => by cases hm) rfl rfl fun ht =>
    ⟨ht.1.same he, dS_unlock u ht.2⟩

theorem neat_unlockDead {s : State G} (h : Inv s) (hl : Lone s) (hn : Neat s) (i p n ik : Nat)
    (hp : s.pc i = .rend p n ik) : Neat ((s.unlock n).to i (.rnext p ik)) := by
  have he : Still s ((s.unlock n).to i (.rnext p ik)) := ⟨rfl, rfl, rfl, rfl, rfl, rfl, rfl, rfl⟩
  exact neat_hush h hl hn hp trivial he (root_unlock n) rfl trivial (fun m hm => hm) rfl rfl fun ht =>
    ⟨ht.1.same he, dS_unlock n ht.2⟩

/-- The way up ends at once. -/
theorem State.Tree.settle {s : State G} {x x' : PC G} (h : Inv s) (ht : s.Tree x) (hm : x'.Mid = x.Mid) (hr : x'.Repl = x.Repl)
    (hc : ∀ m a q, s.Cur x = some m → Anc s.parent m a → s.parent a = some q → False) : s.Tree x' := by
  refine ⟨by rw [hm, hr]; exact ht.sub, by rw [hm]; exact ht.alive, fun n p h1 h2 h3 => ?_, fun p j z q h1 h2 h3 h4 => ?_⟩
  · rcases ht.gap n p h1 h2 h3 with h4 | ⟨m, h4, h5, _⟩
    · exact Or.inl h4
    · exact (hc m n p h4 h5 h2).elim
  · rcases ht.exact p j z q h1 h2 h3 h4 with h5 | ⟨m, h5, h6, _⟩
    · exact Or.inl h5
    · exact (hc m q p h5 h6 (h.kid p q h1 h2 (mem_of_get h4)).2).elim

theorem neat_finish {s : State G} (h : Inv s) (hl : Lone s) (hn : Neat s) (i p ik : Nat) (hp : s.pc i = .rnext p ik)
    (hk : s.keys p ≠ [] ∨ s.rt p = true) : Neat ((s.unlock p).to i .idle) := by
  have he : Still s ((s.unlock p).to i .idle) := ⟨rfl, rfl, rfl, rfl, rfl, rfl, rfl, rfl⟩
  have h1 : (s.pc i).Removing := by rw [hp]; trivial
  obtain ⟨h2, h3⟩ := hn.task i h1
  have hloc := h.loc i
  rw [hp] at h2 h3 hloc
  obtain ⟨l1, l2, l3⟩ := hloc
  have e : ((s.unlock p).to i PC.idle).pc i = .idle := by simp [State.to]
  refine neat_task (i := i) h hl hn he.fresh ?_ (root_unlock p hn.root) (fun k hk => by simp [State.to, State.unlock, hk]) h1
    (Or.inr e) ?_
  · obtain ⟨rk, hk⟩ := hn.rank
    exact ⟨rk, hk.1⟩
  · rw [e]
    have : s.Tree .idle := by
      refine h2.settle h rfl rfl fun m a q hm ha hq => ?_
      simp only [State.Cur] at hm
      split at hm
      case isFalse => cases hm
      case isTrue hk' =>
      cases hm
      rcases hk with hk | hk
      · have := (h.node p l1 l2 l3).length
        rw [hk'] at this
        simp at this
        exact hk this
      · rcases hn.root p l1 l2 hk with h4 | h4
        · rcases ha.head with rfl | ⟨b, h5, _⟩
          · rw [h4] at hq; cases hq
          · rw [h4] at h5; cases h5
        · rw [h3.2] at h4; cases h4
    exact ⟨this.same he (fun m hm => by cases hm) rfl rfl, trivial⟩

theorem neat_kill {s : State G} (h : Inv s) (hn : Neat s) (i n : Nat) (hp : s.pc i = .pub n)
    (hl' : Lone (State.to { s with dead := Function.update s.dead n true, dS := Function.update s.dS n true } i (.ulk n))) :
    Neat (State.to { s with dead := Function.update s.dead n true, dS := Function.update s.dS n true } i (.ulk n)) := by
  have hother : ∀ k m, k ≠ i → ¬ (s.pc k).Owns m := by
    intro k m hk ho
    exact hk (hl' i k m (by simp [State.to, PC.Removing]) (h.own k m ho))
  have hloc := h.loc i
  rw [hp] at hloc
  obtain ⟨t1, t2, t3, t4, t5, t6⟩ := hloc
  have hno : ∀ k, ¬ (s.pc k).Removing := by
    intro k hk
    by_cases e : k = i
    · subst e; rw [hp] at hk; exact hk
    · obtain ⟨m, hm⟩ := Removing.owns hk
      exact hother k m e hm
  have ht := hn.tree hno
  have e : ∀ k, k ≠ i → (Function.update s.pc i (PC.ulk n)) k = s.pc k := fun k hk => Function.update_of_ne hk _ _
  have hpend : ∀ k a c x, ¬ ((Function.update s.pc i (PC.ulk n)) k).Pending a c x := by
    intro k a c x hx
    by_cases hk : k = i
    · subst hk; rw [Function.update_self] at hx; exact hx
    · rw [e k hk] at hx; exact hother k _ hk (Pending.owns hx)
  have hdead : ∀ a, Function.update s.dead n true a = false → s.dead a = false := by
    intro a ha
    by_cases hk : a = n
    · subst hk; exact t5
    · rwa [Function.update_of_ne hk] at ha
  refine ⟨?_, fun k a c x hx => absurd hx (hpend k a c x), ?_, fun hx => ?_, fun k hk => ?_⟩
  · obtain ⟨rk, hk⟩ := hn.rank
    exact ⟨rk, hk.1, fun k a c x hx => absurd hx (hpend k a c x)⟩
  · intro p h1 h2 h3
    refine (hn.root p h1 h2 h3).imp id fun h4 => ?_
    change Function.update s.dS n true p = true
    by_cases hk : p = n
    · subst hk; simp
    · rwa [Function.update_of_ne hk]
  · exact absurd (by simp [State.to, PC.Removing]) (hx i)
  · have hki : k = i := by
      by_contra hki
      simp only [State.to] at hk
      rw [e k hki] at hk
      exact hno k hk
    subst hki
    simp only [State.to, Function.update_self]
    refine ⟨⟨fun a p h1 h2 h3 _ => ?_, fun p q h1 h2 h3 => ?_, fun a p h1 h2 h3 => ?_, fun p j z q h1 h2 h3 h4 => ?_⟩, trivial⟩
    · refine ht.sub a p h1 h2 (Or.inl ?_) (by simp [PC.Repl])
      rcases h3 with h3 | h3
      · exact hdead a h3
      · cases h3; exact t5
    · by_cases hq : q = n
      · subst hq; exact Or.inr rfl
      · rcases ht.alive p q h1 h2 h3 with h4 | h4
        · left; change Function.update s.dead n true q = false
          rw [Function.update_of_ne hq]; exact h4
        · cases h4
    · exact Or.inl ((ht.gap a p h1 h2 (hdead a h3)).resolve_right (by rintro ⟨m, hm, _⟩; cases hm))
    · exact Or.inl ((ht.exact p j z q h1 h2 h3 h4).resolve_right (by rintro ⟨m, hm, _⟩; cases hm))

end Verif.Prune
