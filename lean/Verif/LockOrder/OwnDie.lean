import Verif.LockOrder.OwnGrow

/-!
# Nodes that go and the second invariant
-/
namespace Verif.LockOrder

open Function (update)

variable {key : Nat → Nat → Nat} {i : Nat} {s : State}

theorem tree_gchild (hi : Inv key s) (ht : Tree s) (n r c : Nat) (hp : s.pc i = .gch n r c) :
    Tree { s with
      parent := update s.parent c none
      kids := update s.kids r (fun _ => False)
      sub := update s.sub n (fun x => (s.sub n x ∧ x ≠ r) ∨ x = c)
      lock := update s.lock c none
      pc := update s.pc i (.gup n r c) } := by
  have hloc := hi.loc i
  have hown := ht.own i
  rw [hp] at hloc hown
  obtain ⟨h1, h2, h3, h4, h5, h6⟩ := hloc
  have hnl : s.lock n = some i := (hi.mine hp n).mpr (by simp [PC.held])
  have hrl : s.lock r = some i := (hi.mine hp r).mpr (by simp [PC.held])
  have hcl : s.lock c = some i := (hi.mine hp c).mpr (by simp [PC.held])
  obtain ⟨j1, j2, j3, j4⟩ := hi.kid r c ((h6 c).mpr rfl)
  have hcr := (hi.parLt c r j3).2.2
  have hlo : (s.pc i).loose = none := by rw [hp]; rfl
  have hrloose : ∀ j, (s.pc j).loose ≠ some r := by
    intro j hj
    have := (ht.loose hi hj).1
    rw [hrl] at this
    cases this
    rw [hlo] at hj
    cases hj
  have hlive := ht.subLive
  have hone := ht.subOne
  have halive := ht.subAlive
  refine ht.grow hi (.gup n r c) rfl ⟨Nat.le_refl _, fun _ _ => rfl, fun _ _ => rfl, fun _ _ _ => Iff.rfl, ?_, ?_⟩
    rfl rfl rfl ?_ (by rw [hp]; rfl) ?_ ?_ ?_ ?_ (fun q h h' => absurd h (Nat.not_le.mpr h')) ?_ ?_
  · simp only [update2]; grind
  · simp only [Function.update_apply]; grind
  · intro x hx
    exact Function.update_of_ne (by rintro rfl; exact j2.2 hx) ..
  · simp only [update2, State.Live] at *; grind
  · simp only [update2, State.Own] at *; grind
  · simp only [update2, State.Live, State.Own] at *; grind
  · intro a b k1 k2 k3 k4 k5 k8 k9 k6 k7
    change some r ≠ some _ at k8 k9
    have ha : ∀ j, (s.pc j).loose ≠ some a := (loose_split i).mpr ⟨by rw [hlo]; simp, k6⟩
    have hb : ∀ j, (s.pc j).loose ≠ some b := (loose_split i).mpr ⟨by rw [hlo]; simp, k7⟩
    have t1 := fun e1 e2 e3 => ht.top a b k1 k2 e1 e2 e3 ha hb
    have t2 := fun e1 e3 => ht.top a r k1 j1 e1 h5 e3 ha hrloose
    have t3 := fun e1 e3 => ht.top b r k2 j1 e1 h5 e3 hb hrloose
    simp only [Function.update_apply] at *
    grind
  · intro l k1 k2 k3
    obtain ⟨m, x, h7, h8⟩ := ht.owned l k1 k2 k3
    simp only [update2]
    by_cases hm : m = n ∧ x = r
    · exact ⟨n, c, by simp, by rw [← hcr, ← hm.2]; exact h8⟩
    · refine ⟨m, x, ?_, h8⟩
      split
      · rename_i e
        exact .inl ⟨e ▸ h7, fun e' => hm ⟨e, e'⟩⟩
      · exact h7
  · refine ⟨by simp [update2], j1, ?_, c, .live j2, ?_⟩
    · simp only; omega
    · rintro rfl; omega

/-- A step in which one node dies. -/
theorem Tree.die {s' : State} (hi : Inv key s) (ht : Tree s) (d : Nat) (hd : s.Live d) (hdl : s.lock d = some i)
    (hnosub : ∀ r, ¬ s.sub d r) (pc : PC)
    (hpc : s'.pc = update s.pc i pc) (hf : s'.fresh = s.fresh) (hht : s'.ht = s.ht) (hlay : s'.lay = s.lay)
    (hdep : s'.dep = s.dep) (hdead : s'.dead = update s.dead d True)
    (hpar : ∀ x, s.parent x ≠ none → s'.parent x ≠ none) (hpar' : ∀ x, x ≠ d → s.parent x = none → s'.parent x = none)
    (hsub : ∀ x r, s.lock x ≠ some i → (s'.sub x r ↔ s.sub x r)) (hsub' : ∀ x r, s'.sub x r → s.sub x r)
    (hhead : s.lay d ≠ d ∨ ∀ q, s.Live q → s.lay q = s.lay d → q = d)
    (hsubd : s.lay d = d → ∀ x r, s'.sub x r → s.lay r ≠ d)
    (hkeep : ∀ x r, s.sub x r → s.lay r ≠ d → s'.sub x r)
    (hleads : ∀ q a, s.Leads q a → s.lay q ≠ d → ∃ b, s'.Leads q b)
    (hleads' : ∀ j n r c a, j ≠ i → s.pc j = .gup n r c → s.Leads c a → a ≠ r → ∃ a, s'.Leads c a ∧ a ≠ r)
    (hlo : (s.pc i).loose = some d ∨ (s.pc i).loose = none) (hlo' : pc.loose = none)
    (own : s'.Own pc) (nodup : s'.limbo.Nodup)
    (gone : ∀ q, q ∈ s'.limbo ↔ s'.dead q ∨ pc.going = some q ∨ ∃ j, j ≠ i ∧ (s.pc j).going = some q)
    (hd0 : d ≠ 0) : Tree s' := by
  have hlive : ∀ x, s'.Live x ↔ s.Live x ∧ x ≠ d := by
    intro x
    simp only [State.Live, hf, hdead, Function.update_apply]
    grind
  have hne : ∀ q, s.Live q → q ≠ d → s.lay q ≠ d := by
    intro q hq hqd e
    rcases hhead with h | h
    · have := (ht.headLay q hq.1).1
      rw [e] at this
      exact h this
    · have h1 := ht.headLay q hq.1
      rw [e] at h1
      exact hqd (h q hq (by rw [e, h1.1]))
  have f : Calm (fun q => s.lock q = some i) s s' := ⟨Nat.le_of_eq hf.symm, fun _ _ => by rw [hht], fun _ _ => by rw [hlay],
    fun x _ h => by rw [hdead, Function.update_of_ne (by rintro rfl; exact h hdl)], fun x r _ h => hsub x r h,
    fun x _ _ h => hpar x h⟩
  refine ⟨?_, ?_, ?_, ?_, ?_, ?_, ?_, ?_, ?_, ?_, nodup, ?_⟩
  · rw [hlive, hlay, hdep]
    exact ⟨⟨ht.zero.1, hd0.symm⟩, ht.zero.2⟩
  · intro x r h
    have h := hsub' x r h
    rw [hlive, hht]
    exact ⟨⟨(ht.subLive x r h).1, fun e => hnosub r (e ▸ h)⟩, (ht.subLive x r h).2⟩
  · intro x r x' r' h h'
    rw [hlay]
    exact ht.subOne x r x' r' (hsub' _ _ h) (hsub' _ _ h')
  · intro x r h
    rw [hlive, hlay]
    refine ⟨ht.subAlive x r (hsub' _ _ h), fun e => ?_⟩
    refine hsubd ?_ x r h e
    have := (ht.headLay r (hi.subLt x r (hsub' _ _ h)).2.1).1
    rwa [e] at this
  · intro a b h1 h2 h3 h4 h5 h6 h7
    rw [hlive] at h1 h2
    rw [hpc, loose_update] at h6 h7
    rw [hlay] at h5
    have hnone : ∀ x, s'.parent x = none → s.parent x = none := fun x h => by
      by_contra h'
      exact hpar x h' h
    have hl : ∀ x, x ≠ d → (∀ j, j ≠ i → (s.pc j).loose ≠ some x) → ∀ j, (s.pc j).loose ≠ some x := by
      intro x hx h
      refine (loose_split i).mpr ⟨?_, h⟩
      rcases hlo with hlo | hlo <;> rw [hlo] <;> simp [hx.symm]
    exact ht.top a b h1.1 h2.1 (hnone a h3) (hnone b h4) h5 (hl a h1.2 h6.2) (hl b h2.2 h7.2)
  · rw [hf, hlay, hht]; exact ht.headLay
  · intro q h
    rw [hlive] at h
    rw [hlive, hlay]
    exact ⟨ht.head q h.1, hne q h.1 h.2⟩
  · intro q hq h
    rw [hlive, hlay] at h
    obtain ⟨a, ha⟩ := ht.leads q (hf ▸ hq) h.1
    exact hleads q a ha h.2
  · intro l h1 h2 h3
    rw [hlive] at h1
    rw [hlay] at h2 ⊢
    obtain ⟨m, x, h4, h5⟩ := ht.owned l h1.1 h2 h3
    exact ⟨m, x, hkeep m x h4 (by rw [h5]; exact h1.2), h5⟩
  · exact owns hi ht f pc hpc (fun j n r c hj e ⟨a, h, h'⟩ => hleads' j n r c a hj e h h') own
  · intro q
    rw [gone, hpc, going_update]

theorem tree_takeOut (hi : Inv key s) (ht : Tree s) (p n : Nat) (r : Option Nat) (b : Bool) (hp : s.pc i = .rmod p n r) :
    Tree { s with
      parent := setParent s.parent r p
      kids := update (update s.kids p (fun q => (s.kids p q ∧ q ≠ n) ∨ r = some q)) n (fun _ => False)
      dead := update s.dead n True
      pc := update s.pc i (if b then .dpar p p n else .rend p n) } := by
  have hloc := hi.loc i
  have hout := ht.own i
  rw [hp] at hloc hout
  obtain ⟨hg, h2, h3⟩ := hloc
  obtain ⟨k1, k2, k3, k4⟩ := hi.up hg.live h2
  have hnl : s.lock n = some i := (hi.mine hp n).mpr (by simp [PC.held])
  have hgo : (s.pc i).going = some n := by rw [hp]; rfl
  have hlo : (s.pc i).loose = none := by rw [hp]; rfl
  have hkid := hi.kid n
  have hset : ∀ q, setParent s.parent r p q = if r = some q then some p else s.parent q := by
    intro q
    cases r with
    | none => simp [setParent]
    | some r => simp only [setParent, Function.update_apply, Option.some.injEq]; grind
  have hrn : ∀ q, r = some q → s.Live q ∧ s.parent q = some n ∧ q ≠ n := by
    intro q hq
    obtain ⟨g1, g2, g3, g4⟩ := hkid q ((hg.only q).mpr hq)
    exact ⟨g2, g3, by rintro rfl; omega⟩
  have hhead : s.lay n ≠ n := by
    by_cases h0 : s.ht n = 0
    · exact hout.leaf h0
    · intro e
      have := (ht.headLay n hg.live.1).2
      rw [e] at this
      exact h0 this
  obtain ⟨s', hs'⟩ : ∃ s', s' = { s with
      parent := setParent s.parent r p
      kids := update (update s.kids p (fun q => (s.kids p q ∧ q ≠ n) ∨ r = some q)) n (fun _ => False)
      dead := update s.dead n True
      pc := update s.pc i (if b then .dpar p p n else .rend p n) } := ⟨_, rfl⟩
  have hpl : s'.Leads p p := by
    refine .live ?_
    subst hs'
    refine ⟨k1.1, ?_⟩
    simp only [Function.update_apply]
    rw [if_neg (by rintro rfl; omega)]
    exact k1.2
  have hleads : ∀ q a, s.Leads q a → s'.Leads q (if a = n then p else a) := by
    intro q a h
    refine h.die (n := n) (p := p) (b := p) ?_ ?_ ?_ ?_ hpl
    · rw [hs']
    · intro x; subst hs'; simp only [Function.update_apply]; grind
    · intro x hx
      subst hs'
      simp only [hset]
      rw [if_neg (fun e => (hrn x e).1.2 hx)]
    · subst hs'
      simp only [hset]
      rw [if_neg (fun e => (hrn n e).2.2 rfl)]
      exact h2
  rw [← hs']
  refine ht.die hi (i := i) n hg.live hnl hout.bare (if b then .dpar p p n else .rend p n) (by rw [hs']) (by rw [hs']) (by rw [hs'])
    (by rw [hs']) (by rw [hs']) (by rw [hs']) ?_ ?_ ?_ ?_ (.inl hhead) (fun h => absurd h hhead) ?_ ?_ ?_ (.inr hlo) ?_ ?_ ?_ ?_ ?_
  · intro x hx; subst hs'; simp only [hset]; split <;> simp [hx]
  · intro x hx hn
    subst hs'
    simp only [hset]
    rw [if_neg (fun e => by have := (hrn x e).2.1; rw [hn] at this; cases this)]
    exact hn
  · subst hs'; exact fun _ _ _ => Iff.rfl
  · subst hs'; exact fun _ _ h => h
  · subst hs'; exact fun _ _ h _ => h
  · exact fun q a h _ => ⟨_, hleads q a h⟩
  · intro j n' r' c' a hj hpj ha har
    refine ⟨_, hleads c' a ha, ?_⟩
    split
    · rintro rfl
      have := hi.loc j
      rw [hpj] at this
      exact this.2.2.2.2.2.1 n h3
    · exact har
  · cases b <;> rfl
  · cases b <;> trivial
  · subst hs'; exact ht.nodup
  · intro q
    have hge : (if b then PC.dpar p p n else .rend p n).going = none := by cases b <;> rfl
    have := ht.gone q
    rw [going_split i, hgo] at this
    rw [hge]
    subst hs'
    simp only [Function.update_apply]
    grind
  · rintro rfl
    exact hhead ht.zero.2.1

/-- The second invariant does not speak of the leaf lists. -/
theorem Tree.remove (hi : Inv key s) (ht : Tree s) (n : Nat) (pc : PC) (f : Nat → Leaflink.State) (hn : s.Live n)
    (hl : s.lock n = some i) (hgo : (s.pc i).going = none) (hlo : (s.pc i).loose = none) (hgo' : pc.going = some n)
    (hlo' : pc.loose = none) (own : s.Out n) (hpc : ∀ s : State, s.Out n → s.Own pc) :
    Tree { s with limbo := n :: s.limbo, list := f, pc := update s.pc i pc } := by
  have hnew : n ∉ s.limbo := by
    intro h
    rcases (ht.gone n).mp h with h | ⟨j, hj⟩
    · exact hn.2 h
    · have := (ht.outgoing hi hj).1
      rw [hl] at this
      cases this
      rw [hgo] at hj
      cases hj
  have hleads : ∀ q a, s.Leads q a → State.Leads { s with limbo := n :: s.limbo, list := f, pc := update s.pc i pc } q a :=
    fun q a h => h.keep (Nat.le_refl _) (fun _ _ => Iff.rfl) hi.deadLt (fun _ _ => rfl)
  refine ⟨ht.zero, ht.subLive, ht.subOne, ht.subAlive, ?_, ht.headLay, ht.head, ?_, ht.owned, ?_, ?_, ?_⟩
  · intro a b h1 h2 h3 h4 h5 h6 h7
    simp only at h6 h7
    rw [loose_update] at h6 h7
    exact ht.top a b h1 h2 h3 h4 h5 ((loose_split i).mpr ⟨by rw [hlo]; simp, h6.2⟩)
      ((loose_split i).mpr ⟨by rw [hlo]; simp, h7.2⟩)
  · intro q h1 h2
    obtain ⟨a, ha⟩ := ht.leads q h1 h2
    exact ⟨a, hleads q a ha⟩
  · refine owns hi ht ⟨Nat.le_refl _, fun _ _ => rfl, fun _ _ => rfl, fun _ _ _ => Iff.rfl, fun _ _ _ _ => Iff.rfl,
      fun _ _ _ h => h⟩ pc rfl (fun j n r c _ _ ⟨a, h, h'⟩ => ⟨a, hleads _ _ h, h'⟩) (hpc _ ⟨own.bare, own.leaf, own.node⟩)
  · exact List.nodup_cons.mpr ⟨hnew, ht.nodup⟩
  · intro q
    have := ht.gone q
    rw [going_split i, hgo] at this
    simp only [List.mem_cons]
    rw [going_update, hgo']
    grind

theorem tree_gup (hi : Inv key s) (ht : Tree s) (n r c : Nat) (hp : s.pc i = .gup n r c) :
    Tree { s with
      parent := update s.parent r (some c)
      dead := update s.dead r True
      limbo := r :: s.limbo
      lock := update s.lock r none
      pc := update s.pc i (.gc n c) } := by
  have hloc := hi.loc i
  have hown := ht.own i
  rw [hp] at hloc hown
  obtain ⟨h1, h2, h3, h4, h5, h6, h7, h8⟩ := hloc
  obtain ⟨o1, o2, o3, a₀, o4, o5⟩ := hown
  have hnl : s.lock n = some i := (hi.mine hp n).mpr (by simp [PC.held])
  have hrl : s.lock r = some i := (hi.mine hp r).mpr (by simp [PC.held])
  have hlo : (s.pc i).loose = some r := by rw [hp]; rfl
  have hgo : (s.pc i).going = none := by rw [hp]; rfl
  have hhead : s.lay r ≠ r := by
    intro e
    have := (ht.headLay r h3).2
    rw [e] at this
    omega
  have hnew : r ∉ s.limbo := by
    intro h
    rcases (ht.gone r).mp h with h | ⟨j, hj⟩
    · exact o2.2 h
    · have := (ht.outgoing hi hj).1
      rw [hrl] at this
      cases this
      rw [hgo] at hj
      cases hj
  obtain ⟨s', hs'⟩ : ∃ s', s' = { s with
      parent := update s.parent r (some c)
      dead := update s.dead r True
      limbo := r :: s.limbo
      lock := update s.lock r none
      pc := update s.pc i (.gc n c) } := ⟨_, rfl⟩
  have hstep : ∀ q a b, s.Leads q a → s'.Leads c b → s'.Leads q (if a = r then b else a) := by
    intro q a b h hb
    refine h.die (n := r) (p := c) (b := b) ?_ ?_ ?_ ?_ hb
    · rw [hs']
    · intro x; subst hs'; simp only [Function.update_apply]; grind
    · intro x hx
      subst hs'
      exact Function.update_of_ne (by rintro rfl; exact o2.2 hx) ..
    · subst hs'; exact Function.update_self ..
  have hother : ∀ q a, s.Leads q a → a ≠ r → s'.Leads q a := by
    intro q a h
    induction h with
    | @live a h =>
      intro ha
      refine .live ?_
      subst hs'
      refine ⟨h.1, ?_⟩
      simp only [Function.update_apply]
      rw [if_neg ha]
      exact h.2
    | @dead q p a k1 k2 _ ih =>
      intro ha
      have hq : q ≠ r := by rintro rfl; exact o2.2 k1
      refine .dead ?_ ?_ (ih ha)
      · subst hs'; simp only [Function.update_of_ne hq]; exact k1
      · subst hs'; simp only [Function.update_of_ne hq]; exact k2
  have hca : s'.Leads c a₀ := hother c a₀ o4 o5
  have hleads : ∀ q a, s.Leads q a → s'.Leads q (if a = r then a₀ else a) := fun q a h => hstep q a a₀ h hca
  rw [← hs']
  refine ht.die hi (i := i) r o2 hrl ?_ (.gc n c) (by rw [hs']) (by rw [hs']) (by rw [hs'])
    (by rw [hs']) (by rw [hs']) (by rw [hs']) ?_ ?_ ?_ ?_ (.inl hhead) (fun h => absurd h hhead) ?_ ?_ ?_ (.inl hlo) rfl ?_ ?_ ?_ ?_
  · intro x hx
    have := (ht.subLive r x hx).2
    omega
  · intro x hx; subst hs'; simp only [Function.update_apply]; split <;> simp [hx]
  · intro x hx hn
    subst hs'
    simp only
    rw [Function.update_of_ne hx]
    exact hn
  · subst hs'; exact fun _ _ _ => Iff.rfl
  · subst hs'; exact fun _ _ h => h
  · subst hs'; exact fun _ _ h _ => h
  · exact fun q a h _ => ⟨_, hleads q a h⟩
  · intro j n' r' c' a hj hpj ha har
    refine ⟨_, hleads c' a ha, ?_⟩
    rw [if_neg]
    · exact har
    · rintro rfl
      have hl := hi.loc j
      rw [hpj] at hl
      refine hj (ht.one_gc hi hnl o1 hpj ?_).symm
      rw [← hl.2.2.2.2.2.2.2, ← ha.lay hi, h8]
  · subst hs'; exact o1
  · subst hs'; exact List.nodup_cons.mpr ⟨hnew, ht.nodup⟩
  · intro q
    have := ht.gone q
    rw [going_split i, hgo] at this
    subst hs'
    simp only [Function.update_apply, List.mem_cons]
    have : (PC.gc n c).going = none := rfl
    grind
  · rintro rfl
    exact hhead ht.zero.2.1

theorem tree_gkill (hi : Inv key s) (ht : Tree s) (n r : Nat) (hp : s.pc i = .ggot n r) (hh : s.ht r = 0)
    (hr : s.parent r = none) (hs : ∀ x, ¬ s.sub r x) :
    Tree { s with
      sub := update s.sub n (fun x => s.sub n x ∧ x ≠ r)
      dead := update s.dead r True
      limbo := r :: s.limbo
      lock := update s.lock r none
      pc := update s.pc i (.hold n) } := by
  have hloc := hi.loc i
  have hown := ht.own i
  rw [hp] at hloc hown
  obtain ⟨h1, h2, h3, h4⟩ := hloc
  change s.sub n r at hown
  have hnl : s.lock n = some i := (hi.mine hp n).mpr (by simp [PC.held])
  have hrl : s.lock r = some i := (hi.mine hp r).mpr (by simp [PC.held])
  have hlo : (s.pc i).loose = none := by rw [hp]; rfl
  have hgo : (s.pc i).going = none := by rw [hp]; rfl
  have hlive := ht.subTop hi hown hr
  have halone : ∀ q, s.Live q → s.lay q = s.lay r → q = r := by
    intro q hq hl
    refine ht.alone hi hlive hh hr hrl hlo q hq hl fun j n' c' e => ?_
    have := ht.one_gc hi hnl hown e hl
    subst this
    rw [hp] at e
    cases e
  have hhead : s.lay r = r := halone _ (ht.head r hlive) (ht.headLay r h3).1
  have hnew : r ∉ s.limbo := by
    intro h
    rcases (ht.gone r).mp h with h | ⟨j, hj⟩
    · exact hlive.2 h
    · have := (ht.outgoing hi hj).1
      rw [hrl] at this
      cases this
      rw [hgo] at hj
      cases hj
  have hleads : ∀ q a, s.Leads q a → s.lay q ≠ r → State.Leads { s with
      sub := update s.sub n (fun x => s.sub n x ∧ x ≠ r)
      dead := update s.dead r True
      limbo := r :: s.limbo
      lock := update s.lock r none
      pc := update s.pc i (.hold n) } q a := by
    intro q a h
    induction h with
    | @live a h =>
      intro hl
      refine .live ⟨h.1, ?_⟩
      simp only [Function.update_apply]
      rw [if_neg (by rintro rfl; exact hl hhead)]
      exact h.2
    | @dead q p a k1 k2 _ ih =>
      intro hl
      refine .dead ?_ k2 (ih (by rw [(hi.parLt q p k2).2.2]; exact hl))
      simp only [Function.update_apply]
      split
      · trivial
      · exact k1
  have hone : ∀ x y, s.sub x y → s.lay y = r → x = n ∧ y = r := fun x y h e =>
    ht.subOne x y n r h hown (by rw [e, hhead])
  refine ht.die hi (i := i) r hlive hrl hs (.hold n) rfl rfl rfl rfl rfl rfl (fun _ h => h) (fun _ _ h => h) ?_ ?_
    (.inr halone) ?_ ?_ (fun q a h hl => ⟨a, hleads q a h hl⟩) ?_ (.inr hlo) rfl trivial ?_ ?_ ?_
  · simp only [update2]; grind
  · simp only [update2]; grind
  · intro _ x y hxy e
    simp only [update2] at hxy
    have := hone x y
    grind
  · intro x y hxy e
    simp only [update2]
    split
    · rename_i e'
      exact ⟨e' ▸ hxy, by rintro rfl; exact e hhead⟩
    · exact hxy
  · intro j n' r' c' a hj hpj ha har
    refine ⟨a, hleads c' a ha fun e => hj (ht.one_gc hi hnl hown hpj ?_).symm, har⟩
    have hl := hi.loc j
    rw [hpj] at hl
    rw [← hl.2.2.2.2.2.2.2, e, hhead]
  · exact List.nodup_cons.mpr ⟨hnew, ht.nodup⟩
  · intro q
    have := ht.gone q
    rw [going_split i, hgo] at this
    simp only [Function.update_apply, List.mem_cons]
    have : (PC.hold n).going = none := rfl
    grind
  · rintro rfl
    have := ht.zero
    rw [this.2.1, this.2.2] at h4
    omega

end Verif.LockOrder
