import Verif.Prune.NeatRewrite

/-!
# Taking a node out of its parent
-/
namespace Verif.Prune

variable {G : Type} {up : List Nat → Nat → Nat}

/-- Without a replacement. -/
theorem neat_take {s : State G} (h : Inv s) (hl : Lone s) (hn : Neat s) (i p n ik : Nat) (hp : s.pc i = .rmod p n none ik)
    (K : List Nat) (C : List (Option Nat)) (x' : PC G)
    (h' : Inv (State.to { s with keys := Function.update s.keys p K, kids := Function.update s.kids p C } i x'))
    (hC : ∀ q, some q ∈ C ↔ some q ∈ s.kids p ∧ q ≠ n)
    (hK : ∀ j z q, K[j]? = some z → C[j + 1]? = some (some q) →
      ∃ j', (s.keys p)[j']? = some z ∧ (s.kids p)[j' + 1]? = some (some q))
    (hx : s.elo p = s.elo n ∧ C.head? = some none ∧ ((∃ y K', K = y :: K' ∧ x' = .dpar p p n ik y) ∨ K = [] ∧ x' = .rend p n ik) ∨
      s.elo p < s.elo n ∧ x' = .rend p n ik) :
    Neat (State.to { s with keys := Function.update s.keys p K, kids := Function.update s.kids p C } i x') := by
  have h1 : (s.pc i).Removing := by rw [hp]; trivial
  obtain ⟨ht, t1, _, t3⟩ := by simpa only [hp] using hn.task i h1
  have hf : ∀ n, n < s.fresh → s.bd n = s.hi n := fun n hn => hl.flat h h1 hn
  have hloc := h.loc i
  rw [hp] at hloc
  obtain ⟨⟨o1, o2, o3, o4, o5⟩, ⟨p1, p2⟩, hpn, h5, hdI⟩ := hloc
  have hmem := (t1.1 n .refl).mem h5
  have hdp := h.has p1 p2 hmem
  have hgp : s.Goods p ik := t1.above h hf o1 h5
  have hrange : ∀ a, Anc s.parent p a → s.elo a ≤ s.elo p ∧ s.bd p ≤ s.bd a := fun a ha => hgp.range h hf p1 ha
  have hnp := (hgp.range h hf p1 .refl)
  have hbnp : s.bd n ≤ s.bd p := (t1.range h hf o1 (.up .refl h5)).2
  -- on the way up from `n`, only `n` is a child of `p`
  have hone : ∀ a, Anc s.parent n a → s.parent a = some p → a = n := fun a ha hq => Anc.one h hn.rank o1 ha .refl hq h5
  have hup : ∀ a, Anc s.parent n a → a ≠ n → Anc s.parent p a := by
    intro a ha hne
    rcases ha.head with rfl | ⟨b, b1, b2⟩
    · exact absurd rfl hne
    · rw [h5] at b1; cases b1; exact b2
  have hmid : x'.Mid = none := by rcases hx with ⟨_, _, ⟨y, K', _, rfl⟩ | ⟨_, rfl⟩⟩ | ⟨_, rfl⟩ <;> rfl
  have hrepl : x'.Repl = none := by rcases hx with ⟨_, _, ⟨y, K', _, rfl⟩ | ⟨_, rfl⟩⟩ | ⟨_, rfl⟩ <;> rfl
  have hrem : x'.Removing := by rcases hx with ⟨_, _, ⟨y, K', _, rfl⟩ | ⟨_, rfl⟩⟩ | ⟨_, rfl⟩ <;> trivial
  generalize hs' : State.to { s with keys := Function.update s.keys p K, kids := Function.update s.kids p C } i x' = s' at *
  have ei : s'.pc i = x' := by rw [← hs']; simp [State.to]
  have hkeys' : ∀ r, r ≠ p → s'.keys r = s.keys r := fun r hr => by rw [← hs']; simp [State.to, hr]
  have hkids' : ∀ r, r ≠ p → s'.kids r = s.kids r := fun r hr => by rw [← hs']; simp [State.to, hr]
  have ekp : s'.keys p = K := by rw [← hs']; simp [State.to]
  have ecp : s'.kids p = C := by rw [← hs']; simp [State.to]
  have ef : s'.fresh = s.fresh := by rw [← hs']; rfl
  have ep : s'.parent = s.parent := by rw [← hs']; rfl
  have el : s'.leaf = s.leaf := by rw [← hs']; rfl
  have elo : s'.lo = s.lo := by rw [← hs']; rfl
  have ee : s'.elo = s.elo := by rw [← hs']; rfl
  have eb : s'.bd = s.bd := by rw [← hs']; rfl
  have eh : s'.hi = s.hi := by rw [← hs']; rfl
  have ed : s'.dead = s.dead := by rw [← hs']; rfl
  have es : s'.dS = s.dS := by rw [← hs']; rfl
  have hnode' := h'.node p (by rw [ef]; exact p1) (by rw [el]; exact p2) (by rw [ed]; exact hdp)
  rw [ekp, ecp, elo, ee, eb, eh] at hnode'
  -- what is known of the first key
  have hfirst : ∀ y K', K = y :: K' → C.head? = some none → x' = .dpar p p n ik y → s.elo p = y ∧ y < s.bd p := by
    rintro y K' rfl hc rfl
    have hloc := h'.loc i
    rw [ei] at hloc
    have hsh := hloc.2.1
    refine ⟨?_, by rw [← eb]; exact hsh.2.2.2.2⟩
    obtain ⟨d, hd⟩ : ∃ d, C[1]? = some (some d) := by
      have hlen := hnode'.length
      cases hc1 : C[1]? with
      | none => rw [List.getElem?_eq_none_iff] at hc1; simp at hlen; omega
      | some o =>
        cases o with
        | some d => exact ⟨d, rfl⟩
        | none => exact absurd hc1 hnode'.none
    have h6 := hnode'.second hc hd
    obtain ⟨j', k1, k2⟩ := hK 0 y d rfl hd
    rcases ht.exact p j' y d p1 p2 k1 k2 with h7 | ⟨m, h7, h8, _⟩
    · omega
    · cases h7
      have hd' := (hC d).1 (mem_of_get hd)
      exact absurd (hone d h8 (h.kid p d p1 p2 hd'.1).2) hd'.2
  have hgp' : s'.Goods p ik := by
    refine hgp.frame (fun a _ => by rw [ep]) (fun a r ha hr => ?_) (fun a _ => by rw [eb])
    have : r ≠ p := by
      rintro rfl
      exact Anc.not h hn.rank (ha.lt h p1) hr ha
    exact ⟨hkids' r this, hkeys' r this⟩
  refine neat_task (i := i) h hl hn ef ?_ ?_ (fun k hk => by rw [← hs']; simp [State.to, hk]) h1
    (Or.inl (by rw [ei]; exact hrem)) ?_
  · obtain ⟨rk, hk⟩ := hn.rank
    exact ⟨rk, by rw [ef, ep]; exact hk.1⟩
  · intro a
    have := hn.root a
    rw [← hs']; exact this
  · rw [ei]
    refine ⟨⟨?_, ?_, ?_, ?_⟩, ?_⟩
    · rw [ef, ep, ed, hmid, hrepl]
      intro a q a1 a2 a3 _
      have a3 := a3.resolve_right (by simp)
      have hne : a ≠ n := by rintro rfl; rw [o2] at a3; cases a3
      have hm := ht.sub a q a1 a2 (Or.inl a3) (by simp [PC.Repl])
      by_cases e : q = p
      · subst e; rw [ecp]; exact (hC a).2 ⟨hm, hne⟩
      · rw [hkids' q e]; exact hm
    · rw [ef, el, ed, hmid]
      intro r q a1 a2 a3
      left
      have : some q ∈ s.kids r ∧ q ≠ n := by
        by_cases e : r = p
        · subst e; rw [ecp] at a3; exact (hC q).1 a3
        · rw [hkids' r e] at a3
          refine ⟨a3, ?_⟩
          rintro rfl
          have := (h.kid r q a1 a2 a3).2
          rw [h5] at this; cases this; exact e rfl
      refine (ht.alive r q a1 a2 this.1).resolve_right ?_
      intro e; cases e; exact this.2 rfl
    · rw [ef, ep, ed, ee, eb]
      intro a q a1 a2 a3
      have hne : a ≠ n := by rintro rfl; rw [o2] at a3; cases a3
      rcases ht.gap a q a1 a2 a3 with h6 | ⟨m, h6, h7, h8⟩
      · exact Or.inl h6
      · cases h6
        have ha := hup a h7 hne
        have hr := hrange a ha
        rcases hx with ⟨x1, x2, ⟨y, K', x3, x4⟩ | ⟨x3, x4⟩⟩ | ⟨x1, x2⟩
        · left
          have := hfirst y K' x3 x2 x4
          omega
        · right
          subst x3 x4
          rcases hnode'.empty with ⟨x5, x6⟩ | ⟨c, x5, _⟩
          · refine ⟨p, ?_, ha, ?_⟩
            · simp only [State.Cur]; rw [ecp, if_pos x5]
            · rw [hf p p1]; exact x6
          · rw [x5] at x2; simp at x2
        · left
          omega
    · rw [ef, el, ep, ee]
      intro r j z q a1 a2 a3 a4
      obtain ⟨j', k1, k2, k3⟩ : ∃ j', (s.keys r)[j']? = some z ∧ (s.kids r)[j' + 1]? = some (some q) ∧ q ≠ n := by
        by_cases e : r = p
        · subst e; rw [ecp] at a4; rw [ekp] at a3
          obtain ⟨j', k1, k2⟩ := hK j z q a3 a4
          exact ⟨j', k1, k2, ((hC q).1 (mem_of_get a4)).2⟩
        · rw [hkids' r e] at a4; rw [hkeys' r e] at a3
          refine ⟨j, a3, a4, ?_⟩
          rintro rfl
          have := (h.kid r q a1 a2 (mem_of_get a4)).2
          rw [h5] at this; cases this; exact e rfl
      rcases ht.exact r j' z q a1 a2 k1 k2 with h6 | ⟨m, h6, h7, h8⟩
      · exact Or.inl h6
      · cases h6
        have ha := hup q h7 k3
        have hr := hrange q ha
        right
        rcases hx with ⟨x1, x2, ⟨y, K', x3, x4⟩ | ⟨x3, x4⟩⟩ | ⟨x1, x2⟩
        · subst x4
          exact ⟨p, rfl, ha, by omega⟩
        · subst x3 x4
          rcases hnode'.empty with ⟨x5, x6⟩ | ⟨c, x5, _⟩
          · refine ⟨p, ?_, ha, by omega⟩
            simp only [State.Cur]; rw [ecp, if_pos x5]
          · rw [x5] at x2; simp at x2
        · omega
    · have hend : s'.Goods p ik ∧ s'.dS p = false := ⟨hgp', by rw [es]; exact t3⟩
      rcases hx with ⟨x1, x2, ⟨y, K', x3, x4⟩ | ⟨x3, x4⟩⟩ | ⟨x1, x2⟩
      · obtain ⟨y1, y2⟩ := hfirst y K' x3 x2 x4
        subst x4
        have := t1.2
        exact ⟨hgp', hgp'.mono (by omega) (by rw [eb]; exact y2), .refl, by rw [ee]; exact y1, by rw [es]; exact t3⟩
      · subst x4; exact hend
      · subst x2; exact hend

end Verif.Prune
