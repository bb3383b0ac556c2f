import Verif.Prune.NeatSwap
import Verif.Prune.NeatInsert
import Verif.Prune.Trace

/-!
# Runs in which leaves are removed by one thread alone are tidy
-/
namespace Verif.Prune

variable {G : Type} {up : List Nat → Nat → Nat}

theorem neat_step (hu : Counts up) {s s' : State G} (h : Inv s) (hl : Lone s) (hl' : Lone s') (hn : Neat s) (hs : Step up s s') :
    Neat s' := by
  have htd := hn.tidy hu h hl
  have h' := (step_inv hu h htd hs).1
  cases hs with
  | start i k f hk hp =>
    exact neat_read (i := i) hn ⟨rfl, rfl, rfl, rfl, rfl, rfl, rfl, rfl⟩ rfl rfl rfl (by rw [hp]; exact id) id (fun _ _ _ => False.elim)
  | fixRoot p hp hr =>
    have he : Still s { s with root := p } := ⟨rfl, rfl, rfl, rfl, rfl, rfl, rfl, rfl⟩
    exact ⟨hn.rank, hn.new, hn.root, fun hx => (hn.tree hx).same he (fun _ h => by cases h) rfl rfl,
      fun i hi => ⟨(hn.task i hi).1.same he (fun m hm => by rw [State.Cur.same he]; exact hm) rfl rfl,
        (hn.task i hi).2.same he rfl⟩⟩
  | rooted i n hp hc hr =>
    exact neat_read (i := i) hn ⟨rfl, rfl, rfl, rfl, rfl, rfl, rfl, rfl⟩ rfl rfl rfl (by rw [hp]; exact id) id (fun _ _ _ => False.elim)
  | climb i n hp =>
    exact neat_read (i := i) hn ⟨rfl, rfl, rfl, rfl, rfl, rfl, rfl, rfl⟩ rfl rfl rfl (by rw [hp]; exact id) id (fun _ _ _ => False.elim)
  | pick i n vi vs c hp hl hc =>
    exact neat_read (i := i) hn ⟨rfl, rfl, rfl, rfl, rfl, rfl, rfl, rfl⟩ rfl rfl rfl (by rw [hp]; exact id) id (fun _ _ _ => False.elim)
  | child i n vi vs c hp hc =>
    exact neat_read (i := i) hn ⟨rfl, rfl, rfl, rfl, rfl, rfl, rfl, rfl⟩ rfl rfl rfl (by rw [hp]; exact id) id (fun _ _ _ => False.elim)
  | descend i n vi vs c ci cs hp hs =>
    exact neat_read (i := i) hn ⟨rfl, rfl, rfl, rfl, rfl, rfl, rfl, rfl⟩ rfl rfl rfl (by rw [hp]; exact id) id (fun _ _ _ => False.elim)
  | again i n vi vs c ci cs hp hc hs =>
    exact neat_read (i := i) hn ⟨rfl, rfl, rfl, rfl, rfl, rfl, rfl, rfl⟩ rfl rfl rfl (by rw [hp]; exact id) id (fun _ _ _ => False.elim)
  | compare i n vi vs c ci cs hp hc =>
    exact neat_read (i := i) hn ⟨rfl, rfl, rfl, rfl, rfl, rfl, rfl, rfl⟩ rfl rfl rfl (by rw [hp]; exact id) id (fun _ _ _ => False.elim)
  | inside i n vi vs z hp hl hc hz hk =>
    exact neat_read (i := i) hn ⟨rfl, rfl, rfl, rfl, rfl, rfl, rfl, rfl⟩ rfl rfl rfl (by rw [hp]; exact id) id (fun _ _ _ => False.elim)
  | retry i n vi vs c hp =>
    refine neat_read (i := i) hn ⟨rfl, rfl, rfl, rfl, rfl, rfl, rfl, rfl⟩ rfl rfl rfl ?_ id (fun _ _ _ => False.elim)
    rcases hp with hp | hp | hp <;> (rw [hp]; exact id)
  | look i n vi vs r hp hl hd hr =>
    exact neat_read (i := i) hn ⟨rfl, rfl, rfl, rfl, rfl, rfl, rfl, rfl⟩ rfl rfl rfl (by rw [hp]; exact id) id (fun _ _ _ => False.elim)
  | found i n vi vs r hp hf hs =>
    exact neat_read (i := i) hn ⟨rfl, rfl, rfl, rfl, rfl, rfl, rfl, rfl⟩ rfl rfl rfl (by rw [hp]; exact id) id (fun _ _ _ => False.elim)
  | stay i n vi vs r hp hc hs =>
    exact neat_read (i := i) hn ⟨rfl, rfl, rfl, rfl, rfl, rfl, rfl, rfl⟩ rfl rfl rfl (by rw [hp]; exact id) id (fun _ _ _ => False.elim)
  | compareLeaf i n vi vs r hp hc =>
    exact neat_read (i := i) hn ⟨rfl, rfl, rfl, rfl, rfl, rfl, rfl, rfl⟩ rfl rfl rfl (by rw [hp]; exact id) id (fun _ _ _ => False.elim)
  | insideLeaf i n vi vs z hp hl hc hz hk =>
    exact neat_read (i := i) hn ⟨rfl, rfl, rfl, rfl, rfl, rfl, rfl, rfl⟩ rfl rfl rfl (by rw [hp]; exact id) id (fun _ _ _ => False.elim)
  | walk i n vi vs hp hl =>
    exact neat_read (i := i) hn ⟨rfl, rfl, rfl, rfl, rfl, rfl, rfl, rfl⟩ rfl rfl rfl (by rw [hp]; exact id) id (fun _ _ _ => False.elim)
  | forward i n vi vs r hp hn' hb =>
    exact neat_read (i := i) hn ⟨rfl, rfl, rfl, rfl, rfl, rfl, rfl, rfl⟩ rfl rfl rfl (by rw [hp]; exact id) id (fun _ _ _ => False.elim)
  | arrive i n hp hc =>
    exact neat_read (i := i) hn ⟨rfl, rfl, rfl, rfl, rfl, rfl, rfl, rfl⟩ rfl rfl rfl (by rw [hp]; exact id) id (fun _ _ _ => False.elim)
  | arrived i n vi vs hp hn' =>
    exact neat_read (i := i) hn ⟨rfl, rfl, rfl, rfl, rfl, rfl, rfl, rfl⟩ rfl rfl rfl (by rw [hp]; exact id) id (fun _ _ _ => False.elim)
  | «return» i r hp =>
    exact neat_read (i := i) hn ⟨rfl, rfl, rfl, rfl, rfl, rfl, rfl, rfl⟩ rfl rfl rfl (by rw [hp]; exact id) id (fun _ _ _ => False.elim)
  | acquire i n vi vs r hp hf hlk hi hs =>
    exact neat_read (i := i) hn ⟨rfl, rfl, rfl, rfl, rfl, rfl, rfl, rfl⟩ rfl rfl rfl (by rw [hp]; exact id) id (fun _ _ _ => False.elim)
  | markLeaf i n hp =>
    exact neat_quiet (j := i) hn ⟨rfl, rfl, rfl, rfl, rfl, rfl, rfl, rfl⟩ (fun h => h) (fun _ h => h) (fun _ _ => rfl)
      (by rw [hp]; exact id) (by show ¬ (s.pc i).Removing; rw [hp]; exact id) (fun _ _ _ h => h) (fun _ _ => rfl)
  | publish i n f hp hf =>
    exact neat_read (i := i) hn ⟨rfl, rfl, rfl, rfl, rfl, rfl, rfl, rfl⟩ rfl rfl rfl (by rw [hp]; exact id) id (fun _ _ _ => False.elim)
  | release i n hp =>
    exact neat_unlock h hl hn (n := n) (by rw [hp]; rfl) (by rw [hp]; exact id) id (fun _ _ _ => False.elim)
  | split i n x hp hx hy => exact neat_split h hl hn i n x hp hx
  | newRoot i n c x t hp hpp => exact neat_newRoot h hl hn i n c x t hp hpp
  | lockParent i n c x p t hp hpp hlk =>
    exact neat_read (i := i) hn ⟨rfl, rfl, rfl, rfl, rfl, rfl, rfl, rfl⟩ rfl rfl rfl (by rw [hp]; exact id) id
      (fun _ _ _ h => by rw [hp]; exact h)
  | isParent i p n c x t hp hpp =>
    exact neat_read (i := i) hn ⟨rfl, rfl, rfl, rfl, rfl, rfl, rfl, rfl⟩ rfl rfl rfl (by rw [hp]; exact id) id
      (fun _ _ _ h => by rw [hp]; exact h)
  | notParent i p n c x t hp hpp =>
    exact neat_unlock h hl hn (n := n) (by rw [hp]; exact Or.inr (Or.inl rfl)) (by rw [hp]; exact id) id
      (fun _ _ _ h => by rw [hp]; exact h)
  | wedge i p n c x t hp => exact neat_wedge h hl hn htd i p n c x t hp
  | insertKid i p n c x t hp => exact neat_insertKid hu h hl hn htd i p n c x t hp
  | splitKid i p n c x mid y d t hp hm hy hd => exact neat_splitKid hu h hl hn htd i p n c x mid y d t hp hm hy hd
  | markSplit i n c x p nx hp =>
    exact neat_markSplit h hl hn (by rw [hp]; exact Or.inr (Or.inr (Or.inl rfl))) (by rw [hp]; exact id) id
      (fun _ _ _ h => by rw [hp]; exact h)
  | strip i n c x p nx hp =>
    refine neat_read (i := i) hn ⟨rfl, rfl, rfl, rfl, rfl, rfl, rfl, rfl⟩ rfl rfl rfl (by rw [hp]; exact id) ?_ ?_
    · split <;> exact id
    · intro a b y hx
      rw [hp]
      split at hx <;> exact hx
  | unlockLeft i n c x t p nx hp =>
    exact neat_unlock h hl hn (n := n) (by rw [hp]; exact Or.inr (Or.inr (Or.inl rfl))) (by rw [hp]; exact id) id
      (fun _ _ _ h => by rw [hp]; exact h)
  | unlockRight i q t p nx hp =>
    refine neat_unlock h hl hn (n := q) (by rw [hp]; exact Or.inr (Or.inr (Or.inl rfl))) (by rw [hp]; exact id) ?_ ?_
    · unfold PC.loop; split <;> exact id
    · intro a b y hx
      rw [hp]
      unfold PC.loop at hx
      split at hx
      · obtain ⟨rfl, rfl, rfl⟩ := hx; exact ⟨rfl, rfl⟩
      · exact hx.elim
      · exact hx.elim
  | unlockParent i p t hp =>
    exact neat_unlock h hl hn (n := p) (by rw [hp]; exact Or.inl rfl) (by rw [hp]; exact id) id (fun _ _ _ => False.elim)
  | kill i n hp he hlo => exact neat_kill h hn i n hp hl'
  | unlink i n q hp hq hlf hg hnx => exact neat_unlink h hl hn i n q hp
  | lockParentR i n p ik r hp hpp hlk => exact neat_lockParentR h hl hn i n p ik r hp hlk
  | isParentR i p n ik r hp hpp => exact neat_isParentR h hl hn i p n ik r hp
  | notParentR i p n ik r hp hpp => exact neat_notParentR h hl hn i p n ik r hp
  | removeKid i p n ik r hp =>
    cases r with
    | none => exact neat_removeNone hu h hl hn i p n ik hp h'
    | some c => exact neat_removeSome hu h hl hn i p n ik c hp
  | lockParentD i q p n ik y u hp hpp hlk => exact neat_lockParentD h hl hn i q p n ik y u hp
  | isParentD i q p n ik y u hp hpp => exact neat_isParentD h hl hn i q p n ik y u hp
  | notParentD i q p n ik y u hp hpp => exact neat_notParentD h hl hn i q p n ik y u hp
  | rewrite i q p n ik y u hp => exact neat_rewrite hu h hl hn i q p n ik y u hp
  | unlockTop i u p n y hp => exact neat_unlockTop h hl hn i u p n y hp
  | unlockDead i p n ik hp => exact neat_unlockDead h hl hn i p n ik hp
  | finish i p ik hp hk => exact neat_finish h hl hn i p ik hp hk
  | killNode i p ik hp hk hr => exact neat_killNode h hl hn i p ik hp hk

/-- Runs in which leaves are removed by one thread alone are tidy. -/
theorem Run.alone (hu : Counts up) {r : Nat → State G} (h : Run up r) (hl : ∀ t, Lone (r t)) : TidyRun up r := by
  have key : ∀ t, Inv (r t) ∧ Neat (r t) := by
    intro t
    induction t with
    | zero => exact ⟨init_inv h.init, init_neat h.init⟩
    | succ t ih =>
      rcases h.step t with h1 | h1
      · rw [h1]; exact ih
      · exact ⟨(step_inv hu ih.1 (ih.2.tidy hu ih.1 (hl t)) h1).1, neat_step hu ih.1 (hl t) (hl (t + 1)) ih.2 h1⟩
  exact { h with counts := hu, tidy := fun t => (key t).2.tidy hu (key t).1 (hl t) }

/-! ### One writer -/

/-- The thread is past the search. -/
def PC.Locks : PC G → Prop
  | .idle => False
  | .up _ => False
  | .at_ _ _ _ => False
  | .pick _ _ _ _ => False
  | .picked _ _ _ _ _ _ => False
  | .cmp _ _ _ => False
  | .adv _ _ _ => False
  | .go _ => False
  | .read _ _ _ _ => False
  | .done _ => False
  | _ => True

theorem Owns.locks {x : PC G} {n : Nat} (h : x.Owns n) : x.Locks := by
  cases x <;> first | exact trivial | exact False.elim h

theorem step_locks {s s' : State G} (hs : Step up s s') {i : Nat} (hi : (s'.pc i).Locks) : (s.pc i).Locks ∨ s.pc i ≠ .idle ∧ s.fn i ≠ none := by
  have hpc : ∀ (s : State G) (j : Nat) (x : PC G), (s.to j x).pc = Function.update s.pc j x := fun _ _ _ => rfl
  have key : ∀ (s'' : State G) (j : Nat) (x : PC G), s''.pc = s.pc → s' = s''.to j x → (x.Locks → (s.pc j).Locks ∨ s.pc j ≠ .idle ∧ s.fn j ≠ none) →
      (s.pc i).Locks ∨ s.pc i ≠ .idle ∧ s.fn i ≠ none := by
    intro s'' j x h1 h2 h3
    rw [h2, hpc, h1] at hi
    by_cases hij : i = j
    · subst hij; rw [Function.update_self] at hi; exact h3 hi
    · rw [Function.update_of_ne hij] at hi; exact Or.inl hi
  cases hs with
  | fixRoot p hp hr => exact Or.inl hi
  | markLeaf j n hp => exact Or.inl hi
  | acquire j n vi vs r hp hf hl hv hs => exact key _ j _ (by rfl) rfl fun _ => Or.inr ⟨by rw [hp]; simp, hf⟩
  | removeKid j p n ik r hp =>
    exact key _ j _ (removeKid_same (up := up) s p ik r).1 rfl fun _ => Or.inl (by rw [hp]; trivial)
  | start j k f hk hp => exact key _ j _ (by rfl) rfl False.elim
  | retry j n vi vs c hp => exact key _ j _ (by rfl) rfl False.elim
  | isParentD j q p n ik y u hp hq =>
    exact key _ j _ (by split <;> rfl) rfl fun _ => Or.inl (by rw [hp]; trivial)
  | rooted j _ hp => exact key _ j _ (by rfl) rfl False.elim
  | climb j _ hp => exact key _ j _ (by rfl) rfl False.elim
  | pick j _ _ _ _ hp => exact key _ j _ (by rfl) rfl False.elim
  | child j _ _ _ _ hp => exact key _ j _ (by rfl) rfl False.elim
  | descend j _ _ _ _ _ _ hp => exact key _ j _ (by rfl) rfl False.elim
  | again j _ _ _ _ _ _ hp => exact key _ j _ (by rfl) rfl False.elim
  | compare j _ _ _ _ _ _ hp => exact key _ j _ (by rfl) rfl False.elim
  | inside j _ _ _ _ hp => exact key _ j _ (by rfl) rfl False.elim
  | look j _ _ _ _ hp => exact key _ j _ (by rfl) rfl False.elim
  | found j _ _ _ _ hp => exact key _ j _ (by rfl) rfl False.elim
  | stay j _ _ _ _ hp => exact key _ j _ (by rfl) rfl False.elim
  | compareLeaf j _ _ _ _ hp => exact key _ j _ (by rfl) rfl False.elim
  | insideLeaf j _ _ _ _ hp => exact key _ j _ (by rfl) rfl False.elim
  | walk j _ _ _ hp => exact key _ j _ (by rfl) rfl False.elim
  | forward j _ _ _ _ hp => exact key _ j _ (by rfl) rfl False.elim
  | arrive j _ hp => exact key _ j _ (by rfl) rfl False.elim
  | arrived j _ _ _ hp => exact key _ j _ (by rfl) rfl False.elim
  | «return» j _ hp => exact key _ j _ (by rfl) rfl False.elim
  | publish j _ _ hp => exact key _ j _ (by rfl) rfl fun _ => Or.inl (by rw [hp]; trivial)
  | release j _ hp => exact key _ j _ (by rfl) rfl fun _ => Or.inl (by rw [hp]; trivial)
  | split j _ _ hp => exact key _ j _ (by rfl) rfl fun _ => Or.inl (by rw [hp]; trivial)
  | newRoot j _ _ _ _ hp => exact key _ j _ (by rfl) rfl fun _ => Or.inl (by rw [hp]; trivial)
  | lockParent j _ _ _ _ _ hp => exact key _ j _ (by rfl) rfl fun _ => Or.inl (by rw [hp]; trivial)
  | isParent j _ _ _ _ _ hp => exact key _ j _ (by rfl) rfl fun _ => Or.inl (by rw [hp]; trivial)
  | notParent j _ _ _ _ _ hp => exact key _ j _ (by rfl) rfl fun _ => Or.inl (by rw [hp]; trivial)
  | wedge j _ _ _ _ _ hp => exact key _ j _ (by rfl) rfl fun _ => Or.inl (by rw [hp]; trivial)
  | insertKid j _ _ _ _ _ hp => exact key _ j _ (by rfl) rfl fun _ => Or.inl (by rw [hp]; trivial)
  | splitKid j _ _ _ _ _ _ _ _ hp => exact key _ j _ (by rfl) rfl fun _ => Or.inl (by rw [hp]; trivial)
  | markSplit j _ _ _ _ _ hp => exact key _ j _ (by rfl) rfl fun _ => Or.inl (by rw [hp]; trivial)
  | strip j _ _ _ _ _ hp => exact key _ j _ (by rfl) rfl fun _ => Or.inl (by rw [hp]; trivial)
  | unlockLeft j _ _ _ _ _ _ hp => exact key _ j _ (by rfl) rfl fun _ => Or.inl (by rw [hp]; trivial)
  | unlockRight j _ _ _ _ hp => exact key _ j _ (by rfl) rfl fun _ => Or.inl (by rw [hp]; trivial)
  | unlockParent j _ _ hp => exact key _ j _ (by rfl) rfl fun _ => Or.inl (by rw [hp]; trivial)
  | kill j _ hp => exact key _ j _ (by rfl) rfl fun _ => Or.inl (by rw [hp]; trivial)
  | unlink j _ _ hp => exact key _ j _ (by rfl) rfl fun _ => Or.inl (by rw [hp]; trivial)
  | lockParentR j _ _ _ _ hp => exact key _ j _ (by rfl) rfl fun _ => Or.inl (by rw [hp]; trivial)
  | isParentR j _ _ _ _ hp => exact key _ j _ (by rfl) rfl fun _ => Or.inl (by rw [hp]; trivial)
  | notParentR j _ _ _ _ hp => exact key _ j _ (by rfl) rfl fun _ => Or.inl (by rw [hp]; trivial)
  | lockParentD j _ _ _ _ _ _ hp => exact key _ j _ (by rfl) rfl fun _ => Or.inl (by rw [hp]; trivial)
  | notParentD j _ _ _ _ _ _ hp => exact key _ j _ (by rfl) rfl fun _ => Or.inl (by rw [hp]; trivial)
  | rewrite j _ _ _ _ _ _ hp => exact key _ j _ (by rfl) rfl fun _ => Or.inl (by rw [hp]; trivial)
  | unlockTop j _ _ _ _ hp => exact key _ j _ (by rfl) rfl fun _ => Or.inl (by rw [hp]; trivial)
  | unlockDead j _ _ _ hp => exact key _ j _ (by rfl) rfl fun _ => Or.inl (by rw [hp]; trivial)
  | finish j _ _ hp => exact key _ j _ (by rfl) rfl fun _ => Or.inl (by rw [hp]; trivial)
  | killNode j _ _ hp => exact key _ j _ (by rfl) rfl fun _ => Or.inl (by rw [hp]; trivial)

/-- Only updates get past the search. -/
theorem Run.locks {r : Nat → State G} (h : Run up r) (t i : Nat) (hi : ((r t).pc i).Locks) : (r t).fn i ≠ none := by
  induction t with
  | zero => rw [h.init.pc] at hi; exact hi.elim
  | succ t ih =>
    rcases h.step t with h1 | h1
    · rw [h1] at hi ⊢; exact ih hi
    · rcases step_locks h1 hi with h2 | ⟨h2, h3⟩
      · rw [(step_op h1 (by intro hx; rw [hx] at h2; exact h2)).2]; exact ih h2
      · rw [(step_op h1 h2).2]; exact h3

/-- At most one thread is updating at a time. -/
def OneWriter (r : Nat → State G) : Prop :=
  ∀ t i j, (r t).pc i ≠ .idle → (r t).fn i ≠ none → (r t).pc j ≠ .idle → (r t).fn j ≠ none → i = j

/-- Runs with one writer at a time are tidy. -/
theorem Run.oneWriter (hu : Counts up) {r : Nat → State G} (h : Run up r) (hw : OneWriter r) : TidyRun up r := by
  have hlone : ∀ t, Inv (r t) → Lone (r t) := by
    intro t ht i j n hi hj
    have h1 := Owns.locks (ht.lck j n hj)
    obtain ⟨m, hm⟩ := Removing.owns hi
    have h2 := Owns.locks hm
    exact hw t j i (by intro hx; rw [hx] at h1; exact h1) (h.locks t j h1) (by intro hx; rw [hx] at h2; exact h2) (h.locks t i h2)
  have key : ∀ t, Inv (r t) ∧ Neat (r t) := by
    intro t
    induction t with
    | zero => exact ⟨init_inv h.init, init_neat h.init⟩
    | succ t ih =>
      rcases h.step t with h1 | h1
      · rw [h1]; exact ih
      · have hi := (step_inv hu ih.1 (ih.2.tidy hu ih.1 (hlone t ih.1)) h1).1
        exact ⟨hi, neat_step hu ih.1 (hlone t ih.1) (hlone (t + 1) hi) ih.2 h1⟩
  exact h.alone hu fun t => hlone t (key t).1

end Verif.Prune
