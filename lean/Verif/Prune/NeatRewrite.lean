import Verif.Prune.NeatUnlink

/-!
# Rewriting a key
-/
namespace Verif.Prune

variable {G : Type} {up : List Nat → Nat → Nat}

theorem State.Goods.above {s : State G} (h : Inv s) (hf : ∀ n, n < s.fresh → s.bd n = s.hi n) {m p k : Nat} (hm : m < s.fresh)
    (hg : s.Goods m k) (hp : s.parent m = some p) : s.Goods p k := by
  refine ⟨fun a ha => hg.1 a (ha.step hp), ?_⟩
  have := (hg.range h hf hm (.up .refl hp)).2
  have := hg.2
  omega

theorem State.Goods.mono {s : State G} {m k k' : Nat} (hg : s.Goods m k) (h1 : k ≤ k') (h2 : k' < s.bd m) : s.Goods m k' := by
  refine ⟨fun a ha q hq => ?_, h2⟩
  obtain ⟨j, a1, a2, a3⟩ := hg.1 a ha q hq
  exact ⟨j, a1, fun j' z e hz => by have := a2 j' z e hz; omega, a3⟩

/-- The child on the left ends where the child begins. -/
theorem left_of {s : State G} (h : Inv s) {u q k : Nat} (hu : u < s.fresh) (hl : s.leaf u = false)
    (hq : (s.kids u)[k + 1]? = some (some q)) (h0 : k = 0 → (s.kids u).head? ≠ some none) :
    ∃ b, (s.kids u)[k]? = some (some b) ∧ s.bd b = s.elo q := by
  have hn := h.has' hu hl (mem_of_get hq)
  have hlen := hn.length
  have hk : k + 1 < (s.kids u).length := (List.getElem?_eq_some_iff.1 hq).1
  obtain ⟨b, hb⟩ : ∃ b, (s.kids u)[k]? = some (some b) := by
    cases hk' : (s.kids u)[k]? with
    | none => rw [List.getElem?_eq_none_iff] at hk'; omega
    | some o =>
      cases o with
      | some b => exact ⟨b, rfl⟩
      | none =>
        cases k with
        | zero => exact absurd (by rw [List.head?_eq_getElem?]; exact hk') (h0 rfl)
        | succ k => exact absurd hk' hn.none
  obtain ⟨z, hz, _⟩ := hn.key hq
  obtain ⟨q', h1, h2⟩ := hn.next hb hz
  rw [hq] at h1; cases h1
  exact ⟨b, hb, h2.symm⟩

theorem neat_rewrite (hu : Counts up) {s : State G} (h : Inv s) (hl : Lone s) (hn : Neat s) (i q p n ik y u : Nat)
    (hp : s.pc i = .dset u q p n ik y) :
    Neat (State.to
        { s with
          keys := Function.update s.keys u
            (if up (s.keys u) ik = 0 then s.keys u else (s.keys u).set (up (s.keys u) ik - 1) y) } i
        (if s.goesOn u (up (s.keys u) ik) then .dpar u p n ik y else .dtop u p n y)) := by
  have h1 : (s.pc i).Removing := by rw [hp]; trivial
  obtain ⟨ht, t1, t2, t3, t4, t5⟩ := by simpa only [hp] using hn.task i h1
  have hf : ∀ n, n < s.fresh → s.bd n = s.hi n := fun n hn => hl.flat h h1 hn
  have hloc := h.loc i
  rw [hp] at hloc
  obtain ⟨hin, ⟨s1, s2, s3, s4, s5⟩, hab, h3, h4, h5⟩ := hloc
  obtain ⟨u1, u2, _⟩ := h.parent q u s1 h5
  obtain ⟨g1, g2, g3⟩ := State.Good.found hu h s1 (t1.1 q .refl) t1.2 h5
  generalize up (s.keys u) ik = kp at *
  generalize hx : (if s.goesOn u kp then PC.dpar u p n ik y else .dtop u p n y) = x'
  have hnode := h.has' u1 u2 (mem_of_get g1)
  have hmid : x'.Mid = none := by subst hx; split <;> rfl
  have hrepl : x'.Repl = none := by subst hx; split <;> rfl
  have hrem : x'.Removing := by subst hx; split <;> trivial
  have hgap : ∀ m p, m < s.fresh → s.parent m = some p → s.dead m = false → s.elo m < s.bd m := by
    intro m p a1 a2 a3
    refine (ht.gap m p a1 a2 a3).resolve_right ?_
    rintro ⟨m, hm, _, hm'⟩
    cases hm; omega
  have hrange : ∀ a, Anc s.parent u a → s.elo a ≤ s.elo u ∧ s.bd u ≤ s.bd a := fun a ha =>
    (t1.above h hf s1 h5).range h hf u1 ha
  -- either the range of the parent begins here too, or it does not
  have hgo : s.goesOn u kp → s.elo u = y := by
    intro hgo
    rcases hgo with e | ⟨e, hgo⟩
    · subst e; rw [← t4]; exact (hnode.head g1).symm
    · subst e; rw [← t4]; exact (hnode.second hgo g1).symm
  have hstop : ¬ s.goesOn u kp → s.elo u < y := by
    intro hgo
    match kp, g1 with
    | 0, _ => exact absurd (Or.inl rfl) hgo
    | k + 1, g1 =>
      obtain ⟨b, b1, b2⟩ := left_of h u1 u2 g1 (fun e hh => hgo (Or.inr ⟨by omega, hh⟩))
      obtain ⟨b3, b4⟩ := h.kid u b u1 u2 (mem_of_get b1)
      have hb := (ht.alive u b u1 u2 (mem_of_get b1)).resolve_right (by simp [PC.Mid])
      have := hgap b u b3 b4 hb
      have := (h.in u1 u2 (mem_of_get b1)).1
      omega
  have hplace : ∀ j, (s.kids u)[j]? = some (some q) → j = kp := by
    intro j hj
    obtain ⟨b1, e1⟩ := List.getElem?_eq_some_iff.1 hj
    obtain ⟨b2, e2⟩ := List.getElem?_eq_some_iff.1 g1
    exact (List.Nodup.getElem_inj_iff (h.nodup u u1 u2)).1 (e1.trans e2.symm)
  generalize hK : (if kp = 0 then s.keys u else (s.keys u).set (kp - 1) y) = K
  have hKj : ∀ j, j + 1 ≠ kp → K[j]? = (s.keys u)[j]? := by
    intro j hj
    subst hK
    split
    · rfl
    · rw [List.getElem?_set_ne (by omega)]
  generalize hs' : State.to { s with keys := Function.update s.keys u K } i x' = s'
  have ei : s'.pc i = x' := by rw [← hs']; simp [State.to]
  have hkeys' : ∀ r, r ≠ u → s'.keys r = s.keys r := fun r hr => by rw [← hs']; simp [State.to, hr]
  have hkeysu : s'.keys u = K := by rw [← hs']; simp [State.to]
  have ef : s'.fresh = s.fresh := by rw [← hs']; rfl
  have ep : s'.parent = s.parent := by rw [← hs']; rfl
  have ek : s'.kids = s.kids := by rw [← hs']; rfl
  have el : s'.leaf = s.leaf := by rw [← hs']; rfl
  have ee : s'.elo = s.elo := by rw [← hs']; rfl
  have eb : s'.bd = s.bd := by rw [← hs']; rfl
  have ed : s'.dead = s.dead := by rw [← hs']; rfl
  have es : s'.dS = s.dS := by rw [← hs']; rfl
  refine neat_task (i := i) h hl hn ef ?_ ?_ (fun k hk => by rw [← hs']; simp [State.to, hk]) h1
    (Or.inl (by rw [ei]; exact hrem)) ?_
  · obtain ⟨rk, hk⟩ := hn.rank
    exact ⟨rk, by rw [ef, ep]; exact hk.1⟩
  · intro a
    have := hn.root a
    rw [← hs']; exact this
  · rw [ei]
    have hgy : s'.Goods p y := by
      refine ⟨fun a ha r hr => ?_, by rw [eb]; exact t2.2⟩
      rw [ep] at ha hr
      rw [ek, eb]
      by_cases hru : r = u
      · subst hru
        have : a = q := Anc.one h hn.rank hin.1 ha t3 hr h5
        subst this
        rw [hkeysu]
        refine ⟨kp, g1, fun j z e hz => ?_, fun z hz => g3 z (by rw [← hKj kp (by omega)]; exact hz)⟩
        subst e
        rw [← hK, if_neg (by omega)] at hz
        simp only [Nat.add_sub_cancel] at hz
        rw [List.getElem?_set_self (by
          have := hnode.length
          have := (List.getElem?_eq_some_iff.1 g1).1
          omega)] at hz
        cases hz
        exact Nat.le_refl _
      · rw [hkeys' r hru]; exact t2.1 a ha r hr
    refine ⟨⟨?_, ?_, ?_, ?_⟩, ?_⟩
    · rw [ef, ep, ed, ek, hmid, hrepl]; exact ht.sub
    · rw [ef, el, ed, ek, hmid]; exact ht.alive
    · rw [ef, ep, ed, ee, eb]
      exact fun m p a1 a2 a3 => Or.inl (hgap m p a1 a2 a3)
    · rw [ef, el, ek, ep, ee]
      intro r j z c a1 a2 a3 a4
      obtain ⟨c1, c2⟩ := h.kid r c a1 a2 (mem_of_get a4)
      by_cases hru : r = u
      · subst hru
        rw [hkeysu] at a3
        left
        by_cases hj : j + 1 = kp
        · subst hj
          rw [g1] at a4
          cases a4
          rw [← hK, if_neg (by omega)] at a3
          simp only [Nat.add_sub_cancel] at a3
          rw [List.getElem?_set_self (by
            have := hnode.length
            have := (List.getElem?_eq_some_iff.1 g1).1
            omega)] at a3
          cases a3
          exact t4.symm
        · rw [hKj j hj] at a3
          rcases ht.exact r j z c a1 a2 a3 a4 with h6 | ⟨m, h6, h7, h8⟩
          · exact h6
          · cases h6
            have : c = q := Anc.one h hn.rank s1 h7 .refl c2 h5
            subst this
            exact absurd (hplace _ a4) hj
      · rw [hkeys' r hru] at a3
        rcases ht.exact r j z c a1 a2 a3 a4 with h6 | ⟨m, h6, h7, h8⟩
        · exact Or.inl h6
        · cases h6
          rcases h7.head with rfl | ⟨u', h9, h10⟩
          · rw [h5] at c2; cases c2; exact absurd rfl hru
          · rw [h5] at h9; cases h9
            have h11 := hrange c h10
            right
            by_cases hg : s.goesOn u kp
            · have := hgo hg
              refine ⟨u, ?_, h10, by omega⟩
              rw [← hx, if_pos hg]; rfl
            · have := hstop hg
              omega
    · rw [← hx]
      split
      case isTrue hg =>
        refine ⟨?_, hgy, by rw [ep]; exact .up t3 h5, by rw [ee]; exact hgo hg, by rw [es]; exact t5⟩
        refine (t1.above h hf s1 h5).frame (fun a _ => by rw [ep]) (fun a r ha hr => ⟨by rw [ek], hkeys' r ?_⟩)
          (fun a _ => by rw [eb])
        rintro rfl
        exact Anc.not h hn.rank (ha.lt h u1) hr ha
      case isFalse => exact ⟨hgy, by rw [es]; exact t5⟩

end Verif.Prune
