import Verif.LockOrder.OwnDie

/-!
# The second invariant in every reachable state
-/
namespace Verif.LockOrder

open Function (update)

variable {key : Nat → Nat → Nat} {i : Nat} {s s' : State}

/-- A leaf that `remove_leaf` takes out is not the first one of its layer. -/
theorem Starts.notFirst {k : Nat → Nat} {m : Nat} {L L' : Leaflink.State} (h : Starts k m .u1 L L')
    (hL : Leaflink.Reachable k L) : m ≠ 0 :=
  (Leaflink.reachable_inv (.step hL h.step)).notFirst m (by rw [h.op]; rfl)

theorem step_tree (hi : Inv key s) (ht : Tree s) (st : Step key i s s') : Tree s' := by
  have hloc := hi.loc i
  have hown := ht.own i
  cases st with
  | find n hp hn =>
    rcases hp with hp | ⟨m, hp⟩ <;>
    exact ht.light hi (.want n) rfl rfl rfl rfl rfl rfl rfl rfl rfl (by rw [hp]; rfl) (by rw [hp]; rfl) trivial
  | repair n r r' hp hr hr' =>
    exact ht.repoint hi n r r' ((hi.mine hp n).mpr (by simp [PC.held])) hr hr' (by rw [hp]; rfl) (by rw [hp]; rfl)
  | twig n k hp => exact tree_twig hi ht n k hp
  | split n f L hp hL => exact tree_split hi ht n f L hp
  | move n L hp hL =>
    refine ht.light hi (s.pc i) (by simp) rfl rfl rfl rfl rfl rfl rfl rfl rfl rfl hown
  | newRoot n c t h hp hn => exact tree_newRoot hi ht n c t h hp hn
  | between p n c t h hp hh => exact tree_between hi ht p n c t h hp
  | insert p n c t h hp hh => exact tree_insert hi ht p n c t h hp
  | divide p n c t h D hp hh hD => exact tree_divide hi ht p n c t h D hp hD
  | remove n L hp hs hL =>
    rw [hp] at hloc
    refine ht.remove hi n (.unl n) _ hloc.1 ((hi.mine hp n).mpr (by simp [PC.held])) (by rw [hp]; rfl) (by rw [hp]; rfl) rfl rfl
      ⟨hs, fun _ e => hL.notFirst (hi.lists _) (by simp [State.lid, e]), fun h => by have := hloc.2; omega⟩ (fun _ h => h)
  | rnull n r hp hn => exact absurd hn (ht.has_parent hi (by rw [hp]; rfl))
  | takeOut p n r b hp => exact tree_takeOut hi ht p n r b hp
  | rmore p r hp hq hr =>
    rw [hp] at hloc hown
    refine ht.remove hi p (.rpar p r) s.list hloc ((hi.mine hp p).mpr (by simp [PC.held])) (by rw [hp]; rfl) (by rw [hp]; rfl) rfl rfl
      ⟨fun r h => ?_, fun h => ?_, fun _ => hq⟩ (fun _ h => h)
    · have := (ht.subLive p r h).2
      simp only [State.Own] at hown
      omega
    · simp only [State.Own] at hown
      omega
  | gparent n r r' hp hr =>
    rw [hp] at hown
    exact ht.repoint hi n r r' ((hi.mine hp n).mpr (by simp [PC.held])) hown hr (by rw [hp]; rfl) (by rw [hp]; rfl)
  | gc n r hp hr => exact ht.light hi (.gc n r) rfl rfl rfl rfl rfl rfl rfl rfl rfl (by rw [hp]; rfl) (by rw [hp]; rfl) hr
  | gchild n r c hp => exact tree_gchild hi ht n r c hp
  | gup n r c hp => exact tree_gup hi ht n r c hp
  | gkill n r hp hh hr hs => exact tree_gkill hi ht n r hp hh hr hs
  | rend p n hp =>
    rw [hp] at hloc
    have : 0 < s.ht p := Nat.lt_of_le_of_lt (Nat.zero_le _) hloc.2.2.1
    exact ht.light hi (.rnext p) rfl rfl rfl rfl rfl rfl rfl rfl rfl (by rw [hp]; rfl) (by rw [hp]; rfl) this
  | stop n hp => exact ht.light hi _ rfl rfl rfl rfl rfl rfl rfl rfl rfl (by rw [hp]; rfl) (by rw [hp]; rfl) trivial
  | lock n hp hl hh => exact ht.light hi _ rfl rfl rfl rfl rfl rfl rfl rfl rfl (by rw [hp]; rfl) (by rw [hp]; rfl) trivial
  | look n hp hd => exact ht.light hi _ rfl rfl rfl rfl rfl rfl rfl rfl rfl (by rw [hp]; rfl) (by rw [hp]; rfl) trivial
  | retry n m hp hm => exact ht.light hi _ rfl rfl rfl rfl rfl rfl rfl rfl rfl (by rw [hp]; rfl) (by rw [hp]; rfl) trivial
  | unlock n hp => exact ht.light hi _ rfl rfl rfl rfl rfl rfl rfl rfl rfl (by rw [hp]; rfl) (by rw [hp]; rfl) trivial
  | twigged n c hp => exact ht.light hi _ rfl rfl rfl rfl rfl rfl rfl rfl rfl (by rw [hp]; rfl) (by rw [hp]; rfl) trivial
  | linked n c hp ho => exact ht.light hi _ rfl rfl rfl rfl rfl rfl rfl rfl rfl (by rw [hp]; rfl) (by rw [hp]; rfl) trivial
  | par p n c t h hp hn => exact ht.light hi _ rfl rfl rfl rfl rfl rfl rfl rfl rfl (by rw [hp]; rfl) (by rw [hp]; rfl) trivial
  | wait p n c t h hp hl => exact ht.light hi _ rfl rfl rfl rfl rfl rfl rfl rfl rfl (by rw [hp]; rfl) (by rw [hp]; rfl) trivial
  | got p n c t h hp hn => exact ht.light hi _ rfl rfl rfl rfl rfl rfl rfl rfl rfl (by rw [hp]; rfl) (by rw [hp]; rfl) trivial
  | miss p n c t h hp hn => exact ht.light hi _ rfl rfl rfl rfl rfl rfl rfl rfl rfl (by rw [hp]; rfl) (by rw [hp]; rfl) trivial
  | keepLeft p x n c h hp => exact ht.light hi _ rfl rfl rfl rfl rfl rfl rfl rfl rfl (by rw [hp]; rfl) (by rw [hp]; rfl) trivial
  | keepRight p x n c h hp => exact ht.light hi _ rfl rfl rfl rfl rfl rfl rfl rfl rfl (by rw [hp]; rfl) (by rw [hp]; rfl) trivial
  | fin p x n c t h hp => exact ht.light hi _ rfl rfl rfl rfl rfl rfl rfl rfl rfl (by rw [hp]; rfl) (by rw [hp]; rfl) trivial
  | fin' p x c t h hp => exact ht.light hi _ rfl rfl rfl rfl rfl rfl rfl rfl rfl (by rw [hp]; rfl) (by rw [hp]; rfl) trivial
  | climb p x t h hp => exact ht.light hi _ rfl rfl rfl rfl rfl rfl rfl rfl rfl (by rw [hp]; rfl) (by rw [hp]; rfl) trivial
  | done p t h hp => exact ht.light hi _ rfl rfl rfl rfl rfl rfl rfl rfl rfl (by rw [hp]; rfl) (by rw [hp]; rfl) trivial
  | rstop p hp => exact ht.light hi _ rfl rfl rfl rfl rfl rfl rfl rfl rfl (by rw [hp]; rfl) (by rw [hp]; rfl) trivial
  | dpar u q p n hp hn => exact ht.light hi _ rfl rfl rfl rfl rfl rfl rfl rfl rfl (by rw [hp]; rfl) (by rw [hp]; rfl) trivial
  | dnull q p n hp hn => exact ht.light hi _ rfl rfl rfl rfl rfl rfl rfl rfl rfl (by rw [hp]; rfl) (by rw [hp]; rfl) trivial
  | dwait u q p n hp hl => exact ht.light hi _ rfl rfl rfl rfl rfl rfl rfl rfl rfl (by rw [hp]; rfl) (by rw [hp]; rfl) trivial
  | dgot u q p n hp hn => exact ht.light hi _ rfl rfl rfl rfl rfl rfl rfl rfl rfl (by rw [hp]; rfl) (by rw [hp]; rfl) trivial
  | dmiss u q p n hp hn => exact ht.light hi _ rfl rfl rfl rfl rfl rfl rfl rfl rfl (by rw [hp]; rfl) (by rw [hp]; rfl) trivial
  | dmod u q p n hp => exact ht.light hi _ rfl rfl rfl rfl rfl rfl rfl rfl rfl (by rw [hp]; rfl) (by rw [hp]; rfl) trivial
  | dmore u p n hp => exact ht.light hi _ rfl rfl rfl rfl rfl rfl rfl rfl rfl (by rw [hp]; rfl) (by rw [hp]; rfl) trivial
  | ddone u p n hp => exact ht.light hi _ rfl rfl rfl rfl rfl rfl rfl rfl rfl (by rw [hp]; rfl) (by rw [hp]; rfl) trivial
  | gleave n r hp => exact ht.light hi _ rfl rfl rfl rfl rfl rfl rfl rfl rfl (by rw [hp]; rfl) (by rw [hp]; rfl) trivial
  | gback n r hp => exact ht.light hi _ rfl rfl rfl rfl rfl rfl rfl rfl rfl (by rw [hp]; rfl) (by rw [hp]; rfl) trivial
  | unlinked n hp ho =>
    rw [hp] at hown
    exact ht.light hi _ rfl rfl rfl rfl rfl rfl rfl rfl rfl (by rw [hp]; rfl) (by rw [hp]; rfl) hown
  | rpar p n r hp hn =>
    rw [hp] at hown
    exact ht.light hi _ rfl rfl rfl rfl rfl rfl rfl rfl rfl (by rw [hp]; rfl) (by rw [hp]; rfl) hown
  | rwait p n r hp hl =>
    rw [hp] at hown
    exact ht.light hi _ rfl rfl rfl rfl rfl rfl rfl rfl rfl (by rw [hp]; rfl) (by rw [hp]; rfl) hown
  | rgot p n r hp hn =>
    rw [hp] at hown
    exact ht.light hi _ rfl rfl rfl rfl rfl rfl rfl rfl rfl (by rw [hp]; rfl) (by rw [hp]; rfl) hown
  | rmiss p n r hp hn =>
    rw [hp] at hown
    exact ht.light hi _ rfl rfl rfl rfl rfl rfl rfl rfl rfl (by rw [hp]; rfl) (by rw [hp]; rfl) hown
  | gask n r hp =>
    rw [hp] at hown
    exact ht.light hi _ rfl rfl rfl rfl rfl rfl rfl rfl rfl (by rw [hp]; rfl) (by rw [hp]; rfl) hown
  | gwait n r hp hl =>
    rw [hp] at hown
    exact ht.light hi _ rfl rfl rfl rfl rfl rfl rfl rfl rfl (by rw [hp]; rfl) (by rw [hp]; rfl) hown
  | gbusy n r c hp hc hl =>
    rw [hp] at hown
    exact ht.light hi _ rfl rfl rfl rfl rfl rfl rfl rfl rfl (by rw [hp]; rfl) (by rw [hp]; rfl) hown
  | gtry n r c hp hr hc hl =>
    rw [hp] at hown
    exact ht.light hi _ rfl rfl rfl rfl rfl rfl rfl rfl rfl (by rw [hp]; rfl) (by rw [hp]; rfl) hown

theorem init_tree : Tree State.init := by
  refine ⟨⟨⟨by simp [State.init], fun h => h⟩, rfl, rfl⟩, fun _ _ h => h.elim, fun _ _ _ _ h => h.elim, fun _ _ h => h.elim, ?_,
    fun _ _ => ⟨rfl, rfl⟩, fun _ _ => ⟨by simp [State.init], fun h => h⟩, fun q hq _ => ⟨q, .live ⟨hq, fun h => h⟩⟩, ?_,
    fun _ => trivial, List.nodup_nil, ?_⟩
  · intro a b h1 h2 _ _ _ _ _
    have h1 : a < 1 := h1.1
    have h2 : b < 1 := h2.1
    omega
  · intro l h1 _ h3
    have h1 : l < 1 := h1.1
    omega
  · intro q
    refine ⟨fun h => by simp [State.init] at h, ?_⟩
    rintro (h | ⟨i, h⟩)
    · exact h.elim
    · cases h

theorem reachable_tree {s : State} (h : Reachable key s) : Tree s := by
  induction h with
  | init => exact init_tree
  | step h st ih => exact step_tree (reachable_inv h) ih st

end Verif.LockOrder
