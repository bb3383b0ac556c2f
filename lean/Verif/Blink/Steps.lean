import Verif.Blink.SplitKid

/-!
# Every step keeps the invariant
-/
namespace Verif.Blink

variable {G : Type}

theorem step_inv {s s' : State G} (h : Inv s) (hs : Step s s') : Inv s' := by
  cases hs with
  | start i k f hk hp => exact inv_start h i k f hk hp
  | fixRoot p hp hr => exact inv_fixRoot h p hp
  | rooted i n hp hc hr => exact inv_rooted h i n hp hc hr
  | climb i n hp => exact inv_climb h i n hp
  | pick i n vi vs c hp hl hc => exact inv_pick h i n vi vs c hp hl hc
  | child i n vi vs c hp hc => exact inv_child h i n vi vs c hp
  | descend i n vi vs c ci cs hp hs => exact inv_descend h i n vi vs c ci cs hp hs
  | again i n vi vs c ci cs hp hc hs => exact inv_again h i n vi vs c ci cs hp hs
  | compare i n vi vs c ci cs hp hc => exact inv_compare h i n vi vs c ci cs hp
  | inside i n vi vs z hp hl hc hz hk => exact inv_inside h i n vi vs z hp hl hc hz hk
  | retry i n vi vs c hp => exact inv_retry h i n vi vs c hp
  | look i n vi vs r hp hl hr => exact inv_look h i n vi vs r hp hl
  | found i n vi vs r hp hf hs => exact inv_found h i n vi vs r hp
  | stay i n vi vs r hp hc hs => exact inv_stay h i n vi vs r hp hs
  | compareLeaf i n vi vs r hp hc => exact inv_compareLeaf h i n vi vs r hp
  | insideLeaf i n vi vs z hp hl hc hz hk => exact inv_insideLeaf h i n vi vs z hp hl hz hk
  | walk i n vi vs hp hl => exact inv_walk h i n vi vs hp hl
  | forward i n vi vs r hp hn hb => exact inv_forward h i n vi vs r hp hn hb
  | arrive i n hp hc => exact inv_arrive h i n hp
  | arrived i n vi vs hp hn => exact inv_arrived h i n vi vs hp hn
  | «return» i r hp => exact inv_return h i r hp
  | acquire i n vi vs r hp hf hl hi hs => exact inv_acquire h i n vi vs r hp hl hs
  | markLeaf i n hp => exact inv_markLeaf h i n hp
  | publish i n f hp hf => exact inv_publish h i n f hp
  | release i n hp => exact inv_release h i n hp
  | split i n x hp hx hy => exact inv_split h i n x hp hx hy
  | newRoot i n c x t hp hq => exact inv_newRoot h i n c x t hp hq
  | lockParent i n c x p t hp hq hl => exact inv_lockParent h i n c x p t hp hq hl
  | isParent i p n c x t hp hq => exact inv_isParent h i p n c x t hp hq
  | notParent i p n c x t hp hq => exact inv_notParent h i p n c x t hp
  | markParent i p n c x t hp => exact inv_markParent h i p n c x t hp
  | insertKid i p n c x t hp => exact inv_insertKid h i p n c x t hp
  | splitKid i p n c x mid y t hp hy => exact inv_splitKid h i p n c x mid y t hp hy
  | markSplit i n c x p nx hp => exact inv_markSplit h i n c x p nx hp
  | strip i n c x p nx hp => exact inv_strip h i n c x p nx hp
  | unlockLeft i n c x t p nx hp => exact inv_unlockLeft h i n c x t p nx hp
  | unlockRight i q t p nx hp => exact inv_unlockRight h i q t p nx hp
  | unlockParent i p t hp => exact inv_unlockParent h i p t hp

theorem reachable_inv {s : State G} (h : Reachable s) : Inv s := by
  induction h with
  | init h => exact init_inv h
  | step _ hs ih => exact step_inv ih hs

local macro "mono" : tactic => `(tactic|
  (refine ⟨?_, ?_, ?_, ?_, ?_, ?_, ?_⟩ <;>
    ((try simp only [State.to, State.unlock, State.splitLeaf, State.newRoot, State.insertKid, State.splitKid,
      Function.update_apply, State.Loc, State.In, State.Target, State.Pair, State.Open, State.clean, State.Level,
      State.Above] at *) <;> grind)))

set_option maxHeartbeats 2000000 in
theorem step_mono {s s' : State G} (h : Inv s) (hs : Step s s') : Mono s s' := by
  have hrefl : ∀ (r : Nat) (pc : Nat → PC G) (key base : Nat → Nat) (fn : Nat → Option (Option G → Option G)),
      Mono s { s with root := r, pc := pc, key := key, base := base, fn := fn } := fun _ _ _ _ _ =>
    ⟨Nat.le_refl _, fun _ _ => rfl, fun _ _ => rfl, fun _ _ => Nat.le_refl _, fun _ _ => Nat.le_refl _,
      fun _ _ _ h => ⟨h, rfl⟩, fun _ _ h _ _ => ⟨h, rfl, rfl⟩⟩
  have hloc := h.loc
  cases hs with
  | acquire i n vi vs r hp hf hl hi hs => clear hrefl h hloc; mono
  | markLeaf i n hp => clear hrefl h hloc; mono
  | publish i n f hp hf => clear hrefl h hloc; mono
  | release i n hp => clear hrefl h hloc; mono
  | split i n x hp hx hy => clear hrefl h hloc; mono
  | newRoot i n c x t hp hq => clear hrefl h hloc; mono
  | lockParent i n c x p t hp hq hl => clear hrefl h hloc; mono
  | notParent i p n c x t hp hq => clear hrefl h hloc; mono
  | markParent i p n c x t hp => clear hrefl h hloc; mono
  | insertKid i p n c x t hp =>
    have := hloc i
    rw [hp] at this
    clear hrefl h hloc; mono
  | splitKid i p n c x mid y t hp hy =>
    have := hloc i
    rw [hp] at this
    clear hrefl h hloc; mono
  | markSplit i n c x p nx hp => clear hrefl h hloc; mono
  | strip i n c x p nx hp =>
    have := hloc i
    rw [hp] at this
    clear hrefl h hloc; mono
  | unlockLeft i n c x t p nx hp =>
    have := hloc i
    rw [hp] at this
    clear hrefl h hloc; mono
  | unlockRight i q t p nx hp => clear hrefl h hloc; mono
  | unlockParent i p t hp => clear hrefl h hloc; mono
  | _ => exact hrefl _ _ _ _ _

end Verif.Blink
