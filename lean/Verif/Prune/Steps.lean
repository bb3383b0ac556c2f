import Verif.Prune.Remove

/-!
# Every step from a tidy state keeps the invariant
-/
namespace Verif.Prune

variable {G : Type}

local macro "mono" : tactic => `(tactic|
  (refine ⟨?_, ?_, ?_, ?_, ?_, ?_, ?_, ?_⟩ <;>
    ((try simp only [State.to, State.unlock, Function.update_apply, State.Loc, State.In, State.Target, State.Pair, State.Open,
      State.clean, State.Level, State.Above] at *) <;> grind)))

/-- A step that unlocks a node and moves on. -/
theorem mono_unlock {s : State G} (n i : Nat) (x : PC G) : Mono s ((s.unlock n).to i x) := by mono

set_option maxHeartbeats 1000000 in
theorem step_inv {up : List Nat → Nat → Nat} (hu : Counts up) {s s' : State G} (h : Inv s) (ht : Tidy up s) (hs : Step up s s') :
    Inv s' ∧ Mono s s' := by
  have hrefl : ∀ (r : Nat) (pc : Nat → PC G) (key base : Nat → Nat) (fn : Nat → Option (Option G → Option G)),
      Mono s { s with root := r, pc := pc, key := key, base := base, fn := fn } := fun _ _ _ _ _ =>
    ⟨Nat.le_refl _, fun _ _ => rfl, fun _ _ => rfl, fun _ _ => Nat.le_refl _, fun _ _ => Nat.le_refl _,
      fun _ _ _ h => ⟨h, rfl, Nat.le_refl _⟩, fun _ _ h _ _ => h, fun _ _ _ _ _ _ _ h => ⟨h, Nat.le_refl _⟩⟩
  have hlock : ∀ n i x, Mono s (State.to { s with lock := Function.update s.lock n (some i) } i x) := fun _ _ _ =>
    ⟨Nat.le_refl _, fun _ _ => rfl, fun _ _ => rfl, fun _ _ => Nat.le_refl _, fun _ _ => Nat.le_refl _,
      fun _ _ _ h => ⟨h, rfl, Nat.le_refl _⟩, fun _ _ h _ _ => h, fun _ _ _ _ _ _ _ h => ⟨h, Nat.le_refl _⟩⟩
  have hmark : ∀ n pc, Mono s { s with dI := Function.update s.dI n true, pc := pc } := by
    intro n pc
    clear hrefl hlock h ht hs hu
    mono
  cases hs with
  | start i k f hk hp => exact ⟨inv_start h i k f hk hp, hrefl _ _ _ _ _⟩
  | fixRoot p hp hr => exact ⟨inv_fixRoot h p hp, hrefl _ _ _ _ _⟩
  | rooted i n hp hc hr => exact ⟨inv_rooted h i n hp hc hr, hrefl _ _ _ _ _⟩
  | climb i n hp => exact ⟨inv_climb h i n hp, hrefl _ _ _ _ _⟩
  | pick i n vi vs c hp hl hc => exact ⟨inv_pick hu h i n vi vs c hp hl hc, hrefl _ _ _ _ _⟩
  | child i n vi vs c hp hc => exact ⟨inv_child h i n vi vs c hp, hrefl _ _ _ _ _⟩
  | descend i n vi vs c ci cs hp hs => exact ⟨inv_descend h i n vi vs c ci cs hp hs, hrefl _ _ _ _ _⟩
  | again i n vi vs c ci cs hp hc hs => exact ⟨inv_again h i n vi vs c ci cs hp hs, hrefl _ _ _ _ _⟩
  | compare i n vi vs c ci cs hp hc => exact ⟨inv_compare h i n vi vs c ci cs hp, hrefl _ _ _ _ _⟩
  | inside i n vi vs z hp hl hc hz hk => exact ⟨inv_inside h i n vi vs z hp hl hz hk, hrefl _ _ _ _ _⟩
  | retry i n vi vs c hp => exact ⟨inv_retry h i n vi vs c hp, hrefl _ _ _ _ _⟩
  | look i n vi vs r hp hl hd hr => exact ⟨inv_look h i n vi vs r hp hl hd, hrefl _ _ _ _ _⟩
  | found i n vi vs r hp hf hs => exact ⟨inv_found h i n vi vs r hp, hrefl _ _ _ _ _⟩
  | stay i n vi vs r hp hc hs => exact ⟨inv_stay h i n vi vs r hp hs, hrefl _ _ _ _ _⟩
  | compareLeaf i n vi vs r hp hc => exact ⟨inv_compareLeaf h i n vi vs r hp, hrefl _ _ _ _ _⟩
  | insideLeaf i n vi vs z hp hl hc hz hk => exact ⟨inv_insideLeaf h i n vi vs z hp hl hz hk, hrefl _ _ _ _ _⟩
  | walk i n vi vs hp hl => exact ⟨inv_walk h i n vi vs hp hl, hrefl _ _ _ _ _⟩
  | forward i n vi vs r hp hn hb => exact ⟨inv_forward h i n vi vs r hp hn hb, hrefl _ _ _ _ _⟩
  | arrive i n hp hc => exact ⟨inv_arrive h i n hp, hrefl _ _ _ _ _⟩
  | arrived i n vi vs hp hn => exact ⟨inv_arrived h i n vi vs hp hn, hrefl _ _ _ _ _⟩
  | «return» i r hp => exact ⟨inv_return h i r hp, hrefl _ _ _ _ _⟩
  | acquire i n vi vs r hp hf hl hi hs => exact ⟨inv_acquire h i n vi vs r hp hl hs, hlock _ _ _⟩
  | markLeaf i n hp => exact ⟨inv_markLeaf h i n hp, hmark _ _⟩
  | publish i n f hp hf =>
    refine ⟨inv_publish h i n f hp, ?_⟩
    exact ⟨Nat.le_refl _, fun _ _ => rfl, fun _ _ => rfl, fun _ _ => Nat.le_refl _, fun _ _ => Nat.le_refl _,
      fun _ _ _ h => ⟨h, rfl, Nat.le_refl _⟩, fun _ _ h _ _ => h, fun _ _ _ _ _ _ _ h => ⟨h, Nat.le_refl _⟩⟩
  | release i n hp => exact ⟨inv_release h i n hp, mono_unlock _ _ _⟩
  | split i n x hp hx hy => exact inv_split h i n x hp hx hy
  | newRoot i n c x t hp hq => exact inv_newRoot h i n c x t hp hq
  | lockParent i n c x p t hp hq hl => exact ⟨inv_lockParent h i n c x p t hp hq hl, hlock _ _ _⟩
  | isParent i p n c x t hp hq => exact ⟨inv_isParent h i p n c x t hp hq, hmark _ _⟩
  | notParent i p n c x t hp hq => exact ⟨inv_notParent h i p n c x t hp, mono_unlock _ _ _⟩
  | wedge i p n c x t hp => exact inv_wedge h ht i p n c x t hp
  | insertKid i p n c x t hp => exact inv_insertKid hu h ht i p n c x t hp
  | splitKid i p n c x mid y d t hp hm hy hd => exact inv_splitKid hu h ht i p n c x mid y d t hp hy hd
  | markSplit i n c x p nx hp =>
    refine ⟨inv_markSplit h i n c x p nx hp, ?_⟩
    clear hrefl hlock h ht hu hmark
    mono
  | strip i n c x p nx hp => exact inv_strip h i n c x p nx hp
  | unlockLeft i n c x t p nx hp => exact ⟨inv_unlockLeft h i n c x t p nx hp, mono_unlock _ _ _⟩
  | unlockRight i q t p nx hp => exact ⟨inv_unlockRight h i q t p nx hp, mono_unlock _ _ _⟩
  | unlockParent i p t hp => exact ⟨inv_unlockParent h i p t hp, mono_unlock _ _ _⟩
  | kill i n hp he hl =>
    refine ⟨inv_kill h i n hp he hl, ?_⟩
    clear hrefl hlock h ht hu hmark
    mono
  | unlink i n q hp hq hl hg hn => exact inv_unlink h i n q hp hq hl hg hn
  | lockParentR i n p ik r hp hq hl => exact ⟨inv_lockParentR h i n p ik r hp hq hl, hlock _ _ _⟩
  | isParentR i p n ik r hp hq => exact ⟨inv_isParentR h i p n ik r hp hq, hmark _ _⟩
  | notParentR i p n ik r hp hq => exact ⟨inv_notParentR h i p n ik r hp, mono_unlock _ _ _⟩
  | removeKid i p n ik r hp => exact inv_removeKid h ht i p n ik r hp
  | lockParentD i q p n ik y u hp hq hl => exact ⟨inv_lockParentD h i q p n ik y u hp hq hl, hlock _ _ _⟩
  | isParentD i q p n ik y u hp hq =>
    by_cases hqp : q = p
    · subst hqp
      rw [if_pos rfl]
      exact ⟨inv_isParentD1 h i q n ik y u hp hq, hrefl _ _ _ _ _⟩
    · rw [if_neg hqp]
      exact ⟨inv_isParentD2 h i q p n ik y u hp hq hqp, mono_unlock _ _ _⟩
  | notParentD i q p n ik y u hp hq => exact ⟨inv_notParentD h i q p n ik y u hp, mono_unlock _ _ _⟩
  | rewrite i q p n ik y u hp => exact inv_rewrite h ht i q p n ik y u hp
  | unlockTop i u p n y hp => exact ⟨inv_unlockTop h i u p n y hp, mono_unlock _ _ _⟩
  | unlockDead i p n ik hp => exact ⟨inv_unlockDead h i p n ik hp, mono_unlock _ _ _⟩
  | finish i p ik hp hk => exact ⟨inv_finish h i p ik hp, mono_unlock _ _ _⟩
  | killNode i p ik hp hk hr => exact inv_killNode h i p ik hp hk

end Verif.Prune
