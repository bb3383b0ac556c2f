import Verif.LockOrder.ListSteps

/-!
# Every step keeps the invariant
-/
namespace Verif.LockOrder

open Function (update)

/-- Nodes above height `h` are not the ones at height `h` or below. -/
theorem Above.ne {s : State} {p x : Option Nat} {l h c : Nat} (ha : s.Above p x l h) (hc : s.ht c ≤ h) :
    (∀ q ∈ p, q ≠ c) ∧ ∀ q ∈ x, q ≠ c := by
  refine ⟨fun q hq => ?_, fun q hq => ?_⟩
  · rintro rfl
    have := (ha.live q hq).2.2
    omega
  · rintro rfl
    obtain ⟨_, _, _, _, _, _, h6, _⟩ := ha.half q hq
    omega

theorem step_inv {key : Nat → Nat → Nat} {i : Nat} {s s' : State} (hi : Inv key s) (st : Step key i s s') : Inv key s' := by
  have hloc := hi.loc i
  cases st with
  | find n hp hn =>
    rcases hp with hp | ⟨m, hp⟩ <;>
    exact hi.goto _ (.inl (by rw [hp]; rfl)) (by simp [hp, PC.held]) hn
  | stop n hp => exact hi.goto _ (.inl (by rw [hp]; rfl)) (by simp [hp, PC.held]) trivial
  | lock n hp hl hh =>
    rw [hp] at hloc
    exact hi.take n _ (by rw [hp]; rfl) hl hloc (by simp [hp, PC.held]) ⟨hloc, hh⟩
  | look n hp hd =>
    rw [hp] at hloc
    exact hi.goto _ (.inl (by rw [hp]; rfl)) (by simp [hp, PC.held]) ⟨⟨hloc.1, hd⟩, hloc.2⟩
  | retry n m hp hm => exact hi.give n _ (by rw [hp]; rfl) (by simp [hp, PC.held]) (by simp [hp, PC.held]) hm
  | repair n r r' hp hr hr' => exact inv_repair hi n r r' hp hr hr'
  | unlock n hp => exact hi.give n _ (by rw [hp]; rfl) (by simp [hp, PC.held]) (by simp [hp, PC.held]) trivial
  | twig n k hp => exact inv_twig hi n k hp
  | twigged n c hp =>
    rw [hp] at hloc
    obtain ⟨h1, h2, h3, h4, h5⟩ := hloc
    exact hi.give n _ (by rw [hp]; rfl) (by simp [hp, PC.held]) (by simp only [hp, PC.held]; grind) ⟨h3, h4⟩
  | split n f L hp hL => exact inv_split hi n f L hp hL
  | move n L hp hL => exact inv_move hi n L hp hL
  | linked n c hp ho =>
    rw [hp] at hloc
    exact hi.goto _ (.inr ⟨n, by rw [hp]; rfl, ho⟩) (by simp [hp, PC.held]) hloc
  | par p n c t h hp hn =>
    rw [hp] at hloc
    obtain ⟨h1, h2, h3, h4⟩ := hi.up hloc.left hn
    exact hi.goto _ (.inl (by rw [hp]; rfl)) (by simp [hp, PC.held]) ⟨hloc, h1.1, h3, hloc.hn ▸ h4⟩
  | wait p n c t h hp hl =>
    rw [hp] at hloc
    exact hi.take p _ (by rw [hp]; rfl) hl hloc.2.1 (by simp [hp, PC.held]) hloc
  | got p n c t h hp hn =>
    rw [hp] at hloc
    exact hi.goto _ (.inl (by rw [hp]; rfl)) (by simp [hp, PC.held]) ⟨hloc.1, hn, (hi.up hloc.1.left hn).2.1⟩
  | miss p n c t h hp hn =>
    rw [hp] at hloc
    obtain ⟨h1, h2, h3, h4⟩ := hloc
    have := h1.hn
    have := h1.hc
    have : ∀ x ∈ t, s.ht x = 0 := by
      cases t with
      | none => simp
      | some t => simpa using h1.kept.2.2.1
    refine hi.give p _ (by rw [hp]; rfl) (by simp [hp, PC.held]) (fun q => ?_) h1
    simp only [hp, PC.held, List.mem_cons, Option.mem_toList]
    grind
  | newRoot n c t h hp hn => exact inv_newRoot hi n c t h hp hn
  | between p n c t h hp hh => exact inv_between hi p n c t h hp hh
  | insert p n c t h hp hh => exact inv_insert hi p n c t h hp hh
  | divide p n c t h D hp hh hD => exact inv_divide hi p n c t h D hp hh hD
  | keepLeft p x n c h hp =>
    rw [hp] at hloc
    obtain ⟨h1, h2, h3, h4, h5, h6, h7, h8⟩ := hloc
    obtain ⟨k1, k2⟩ := Above.ne (c := c) h8 (by omega)
    refine hi.give c _ (by rw [hp]; rfl) (by simp [hp, PC.held]) (fun q => ?_) ⟨h1, h4.trans h7, h8⟩
    simp only [hp, PC.held, List.mem_cons, List.mem_append, Option.mem_toList, Option.mem_def] at *
    grind
  | keepRight p x n c h hp =>
    rw [hp] at hloc
    obtain ⟨h1, h2, h3, h4, h5, h6, h7, h8⟩ := hloc
    obtain ⟨k1, k2⟩ := Above.ne (c := n) h8 (by omega)
    refine hi.give n _ (by rw [hp]; rfl) (by simp [hp, PC.held]) (fun q => ?_) ⟨h2, h5.trans h7, h6 ▸ h8⟩
    simp only [hp, PC.held, List.mem_cons, List.mem_append, Option.mem_toList, Option.mem_def] at *
    grind
  | fin p x n c t h hp =>
    rw [hp] at hloc
    obtain ⟨h1, h2, h3, h4, h5, h6, ⟨k3, k4, k5, k6⟩, h8⟩ := hloc
    obtain ⟨k1, k2⟩ := Above.ne (c := n) h8 (by omega)
    have : t ≠ n := by rintro rfl; omega
    refine hi.give n _ (by rw [hp]; rfl) (by simp [hp, PC.held]) (fun q => ?_) ⟨h2, k4, k3, h5, k5, by rw [h6, k6], h6 ▸ h8⟩
    simp only [hp, PC.held, List.mem_cons, List.mem_append, Option.mem_toList, Option.mem_def] at *
    grind
  | fin' p x c t h hp =>
    rw [hp] at hloc
    obtain ⟨h1, h2, h3, h4, h5, h6, h7⟩ := hloc
    obtain ⟨k1, k2⟩ := Above.ne (c := c) h7 (by omega)
    have : t ≠ c := by rintro rfl; omega
    refine hi.give c _ (by rw [hp]; rfl) (by simp [hp, PC.held]) (fun q => ?_) ⟨h2, h5, h6 ▸ h7⟩
    simp only [hp, PC.held, List.mem_cons, List.mem_append, Option.mem_toList, Option.mem_def] at *
    grind
  | climb p x t h hp =>
    rw [hp] at hloc
    obtain ⟨h1, h2, h3⟩ := hloc
    obtain ⟨q, h4, h5, h6, h7, h8, h9, h10⟩ := h3.half x rfl
    cases h4
    obtain ⟨k1, k2, k3⟩ := h3.live p rfl
    refine hi.goto _ (.inl (by rw [hp]; rfl)) (fun q => ?_) ⟨k1, h6, h5, h8, h9, by rw [h7, k2], h10, by omega, h1, h2, k2.symm⟩
    simp [hp, PC.held]
    grind
  | done p t h hp =>
    rw [hp] at hloc
    obtain ⟨h1, h2, h3⟩ := hloc
    obtain ⟨k1, k2⟩ := Above.ne (c := t) h3 (by omega)
    cases p with
    | none => exact hi.goto _ (.inl (by rw [hp]; rfl)) (by simp [hp, PC.held]) ⟨h1, h2⟩
    | some p =>
      refine hi.give p _ (by rw [hp]; rfl) (by simp [hp, PC.held]) (fun q => ?_) ⟨h1, h2⟩
      simp only [hp, PC.held, List.mem_cons, List.mem_append, Option.mem_toList, Option.mem_def] at *
      grind
  | remove n L hp hs hL => exact inv_remove hi n L hp hL
  | unlinked n hp ho =>
    rw [hp] at hloc
    refine hi.goto _ (.inr ⟨n, by rw [hp]; rfl, ho⟩) (by simp [hp, PC.held]) ⟨hloc.1, fun m => ⟨fun h => ?_, fun h => nomatch h⟩⟩
    have := (hi.kid n m h).2.2.2
    have := hloc.2
    omega
  | rpar p n r hp hn =>
    rw [hp] at hloc
    obtain ⟨h1, h2, h3, h4⟩ := hi.up hloc.live hn
    exact hi.goto _ (.inl (by rw [hp]; rfl)) (by simp [hp, PC.held]) ⟨hloc, h1.1, h3, h4⟩
  | rnull n r hp hn => exact hi.give n _ (by rw [hp]; rfl) (by simp [hp, PC.held]) (by simp [hp, PC.held]) trivial
  | rwait p n r hp hl =>
    rw [hp] at hloc
    exact hi.take p _ (by rw [hp]; rfl) hl hloc.2.1 (by simp [hp, PC.held]) hloc
  | rgot p n r hp hn =>
    rw [hp] at hloc
    exact hi.goto _ (.inl (by rw [hp]; rfl)) (by simp [hp, PC.held]) ⟨hloc.1, hn, (hi.up hloc.1.live hn).2.1⟩
  | rmiss p n r hp hn =>
    rw [hp] at hloc
    obtain ⟨h1, h2, h3, h4⟩ := hloc
    refine hi.give p _ (by rw [hp]; rfl) (by simp [hp, PC.held]) (fun q => ?_) h1
    simp only [hp, PC.held, List.mem_cons]
    grind
  | takeOut p n r b hp => exact inv_takeOut hi p n r b hp
  | dpar u q p n hp hn =>
    rw [hp] at hloc
    obtain ⟨h1, h2, h3, h4⟩ := hi.up hloc.1 hn
    refine hi.goto _ (.inl (by rw [hp]; rfl)) (by simp [hp, PC.held]) ?_
    simp only [State.Loc] at hloc ⊢
    grind [State.Live]
  | dnull q p n hp hn =>
    rw [hp] at hloc
    simp only [State.Loc] at hloc
    split
    · refine hi.goto _ (.inl (by rw [hp]; rfl)) ?_ ?_
      · simp only [hp, PC.held]; grind
      · exact ⟨hloc.2.1, hloc.2.2.1, hloc.2.2.2.1, hloc.2.2.2.2.2.1⟩
    · refine hi.give q _ (by rw [hp]; rfl) (by simp [hp, PC.held]) ?_ ?_
      · simp only [hp, PC.held, List.mem_cons]; grind
      · exact ⟨hloc.2.1, hloc.2.2.1, hloc.2.2.2.1, hloc.2.2.2.2.2.1⟩
  | dwait u q p n hp hl =>
    rw [hp] at hloc
    refine hi.take u _ (by rw [hp]; rfl) hl ?_ (by simp [hp, PC.held]) hloc
    exact hloc.2.2.2.2.2.2.2.2.1
  | dgot u q p n hp hn =>
    rw [hp] at hloc
    obtain ⟨h1, h2, h3, h4⟩ := hi.up hloc.1 hn
    refine hi.goto _ (.inl (by rw [hp]; rfl)) (by simp [hp, PC.held]) ?_
    simp only [State.Loc] at hloc ⊢
    grind [State.Live]
  | dmiss u q p n hp hn =>
    rw [hp] at hloc
    simp only [State.Loc] at hloc
    refine hi.give u _ (by rw [hp]; rfl) (by simp [hp, PC.held]) ?_ ?_
    · simp only [hp, PC.held, List.mem_cons]; grind
    · simp only [State.Loc]; grind
  | dmod u q p n hp =>
    rw [hp] at hloc
    simp only [State.Loc] at hloc
    split
    · refine hi.goto _ (.inl (by rw [hp]; rfl)) ?_ ?_
      · simp only [hp, PC.held]; grind
      · simp only [State.Loc]; grind
    · refine hi.give q _ (by rw [hp]; rfl) (by simp [hp, PC.held]) ?_ ?_
      · simp only [hp, PC.held, List.mem_cons]; grind
      · simp only [State.Loc]; grind
  | dmore u p n hp =>
    rw [hp] at hloc
    simp only [State.Loc] at hloc
    refine hi.goto _ (.inl (by rw [hp]; rfl)) (by simp [hp, PC.held]) ?_
    simp only [State.Loc]; grind
  | ddone u p n hp =>
    rw [hp] at hloc
    simp only [State.Loc] at hloc
    refine hi.give u _ (by rw [hp]; rfl) (by simp [hp, PC.held]) ?_ ?_
    · simp only [hp, PC.held, List.mem_cons]; grind
    · simp only [State.Loc]; grind
  | rend p n hp =>
    rw [hp] at hloc
    simp only [State.Loc] at hloc
    refine hi.give n _ (by rw [hp]; rfl) (by simp [hp, PC.held]) ?_ hloc.1
    simp only [hp, PC.held, List.mem_cons]; grind
  | rstop p hp => exact hi.give p _ (by rw [hp]; rfl) (by simp [hp, PC.held]) (by simp [hp, PC.held]) trivial
  | rmore p r hp hq hr =>
    rw [hp] at hloc
    exact (hi.limbo (p :: s.limbo)).goto (i := i) _ (.inl (by rw [hp]; rfl)) (by simp [hp, PC.held]) ⟨hloc, hr⟩
  | gc n r hp hr =>
    rw [hp] at hloc
    obtain ⟨h1, h2, h3⟩ := hi.subLt n r hr
    exact hi.goto _ (.inl (by rw [hp]; rfl)) (by simp [hp, PC.held]) ⟨hloc.1, hloc.2, h2, h3⟩
  | gparent n r r' hp hr => exact inv_gparent hi n r r' hp hr
  | gleave n r hp =>
    rw [hp] at hloc
    exact hi.goto _ (.inl (by rw [hp]; rfl)) (by simp [hp, PC.held]) ⟨hloc.1, hloc.2.1⟩
  | gask n r hp =>
    rw [hp] at hloc
    exact hi.goto _ (.inl (by rw [hp]; rfl)) (by simp [hp, PC.held]) hloc
  | gwait n r hp hl =>
    rw [hp] at hloc
    exact hi.take r _ (by rw [hp]; rfl) hl hloc.2.2.1 (by simp only [hp, PC.held, List.mem_cons]; grind) hloc
  | gback n r hp =>
    rw [hp] at hloc
    simp only [State.Loc] at hloc
    refine hi.give r _ (by rw [hp]; rfl) (by simp [hp, PC.held]) ?_ ⟨hloc.1, hloc.2.1⟩
    simp only [hp, PC.held, List.mem_cons]; grind
  | gbusy n r c hp hc hl =>
    rw [hp] at hloc
    simp only [State.Loc] at hloc
    refine hi.give r _ (by rw [hp]; rfl) (by simp [hp, PC.held]) ?_ hloc
    simp only [hp, PC.held, List.mem_cons]; grind
  | gtry n r c hp hr hc hl =>
    rw [hp] at hloc
    obtain ⟨h1, h2, h3, h4⟩ := hloc
    refine hi.take c _ (by rw [hp]; rfl) hl (hi.kid r c ((hc c).mpr rfl)).2.1.1 ?_ ⟨h1, h2, h3, h4, hr, hc⟩
    simp only [hp, PC.held, List.mem_cons]; grind
  | gchild n r c hp => exact inv_gchild hi n r c hp
  | gup n r c hp => exact inv_gup hi n r c hp
  | gkill n r hp hh hr hs => exact inv_gkill hi n r hp hh hr

theorem init_inv (key : Nat → Nat → Nat) : Inv key State.init := by
  constructor <;> simp [State.init, PC.held, State.Loc, Leaflink.State.init]
  exact fun l => .init

theorem reachable_inv {key : Nat → Nat → Nat} {s : State} (h : Reachable key s) : Inv key s := by
  induction h with
  | init => exact init_inv key
  | step _ st ih => exact step_inv ih st

end Verif.LockOrder
