import Verif.Prune.NeatRemove

/-!
# Taking a node out of its parent, in favour of another or not
-/
namespace Verif.Prune

variable {G : Type} {up : List Nat → Nat → Nat}

theorem mem_set_iff {D : List (Option Nat)} {j n : Nat} (hd : D.Nodup) (hj : D[j]? = some (some n)) (q : Nat) :
    some q ∈ D.set j none ↔ some q ∈ D ∧ q ≠ n := by
  constructor
  · intro h
    rcases mem_set_of hd hj h with h | h
    · cases h
    · exact ⟨h.1, fun e => h.2 (by rw [e])⟩
  · rintro ⟨h1, h2⟩
    obtain ⟨a, ha, e⟩ := List.mem_iff_getElem.1 h1
    have haj : j ≠ a := by
      rintro rfl
      rw [List.getElem?_eq_getElem ha, e] at hj
      cases hj; exact h2 rfl
    refine List.mem_of_getElem? (i := a) ?_
    rw [List.getElem?_set_ne haj, List.getElem?_eq_getElem ha, e]

theorem mem_erase_iff {D : List (Option Nat)} {j n : Nat} (hd : D.Nodup) (hj : D[j]? = some (some n)) (q : Nat) :
    some q ∈ D.eraseIdx j ↔ some q ∈ D ∧ q ≠ n := by
  constructor
  · intro h
    have := mem_erase_of hd hj h
    exact ⟨this.1, fun e => this.2 (by rw [e])⟩
  · rintro ⟨h1, h2⟩
    rw [List.mem_eraseIdx_iff_getElem?]
    obtain ⟨a, ha, e⟩ := List.mem_iff_getElem.1 h1
    refine ⟨a, ?_, by rw [List.getElem?_eq_getElem ha, e]⟩
    rintro rfl
    rw [List.getElem?_eq_getElem ha, e] at hj
    cases hj; exact h2 rfl

theorem neat_removeNone (hu : Counts up) {s : State G} (h : Inv s) (hl : Lone s) (hn : Neat s) (i p n ik : Nat)
    (hp : s.pc i = .rmod p n none ik)
    (h' : Inv ((s.removeKid up p none ik).to i ((s.removeKid up p none ik).removed p n (up (s.keys p) ik) ik))) :
    Neat ((s.removeKid up p none ik).to i ((s.removeKid up p none ik).removed p n (up (s.keys p) ik) ik)) := by
  have h1 : (s.pc i).Removing := by rw [hp]; trivial
  obtain ⟨ht, t1, _, t3⟩ := by simpa only [hp] using hn.task i h1
  have hloc := h.loc i
  rw [hp] at hloc
  obtain ⟨⟨o1, o2, o3, o4, o5⟩, ⟨p1, p2⟩, hpn, h5, hdI⟩ := hloc
  obtain ⟨g1, g2, g3⟩ := State.Good.found hu h o1 (t1.1 n .refl) t1.2 h5
  have hd := h.nodup p p1 p2
  have hnode := h.has' p1 p2 (mem_of_get g1)
  have hlen := hnode.length
  cases hkp : up (s.keys p) ik with
  | zero =>
    rw [hkp] at g1 g3 h'
    have e : s.removeKid up p none ik = { s with
        keys := Function.update s.keys p (s.keys p)
        kids := Function.update s.kids p ((s.kids p).set 0 none) } := by
      simp only [State.removeKid, hkp, if_pos]
      rw [Function.update_eq_self]
    have hc : ((s.kids p).set 0 none).head? = some none := by
      match s.kids p, hlen with
      | _ :: _, _ => rfl
    rw [e] at h' ⊢
    refine neat_take h hl hn i p n ik hp _ _ _ h' (fun q => mem_set_iff hd g1 q) (fun j z q a1 a2 => ?_) ?_
    · rw [List.getElem?_set_ne (by omega)] at a2
      exact ⟨j, a1, a2⟩
    · left
      refine ⟨(hnode.head g1).symm, hc, ?_⟩
      simp only [State.removed, Function.update_self]
      match hK : s.keys p, hD : (s.kids p).set 0 none, hc with
      | [], _, _ => exact Or.inr ⟨rfl, rfl⟩
      | y :: K', none :: C, _ => exact Or.inl ⟨y, K', rfl, by simp⟩
  | succ k =>
    rw [hkp] at g1 g3 h'
    have e : s.removeKid up p none ik = { s with
        keys := Function.update s.keys p ((s.keys p).eraseIdx k)
        kids := Function.update s.kids p ((s.kids p).eraseIdx (k + 1)) } := by
      simp only [State.removeKid, hkp, Nat.add_one_ne_zero, if_false, Nat.add_sub_cancel]
    rw [e] at h' ⊢
    refine neat_take h hl hn i p n ik hp _ _ _ h' (fun q => mem_erase_iff hd g1 q) (fun j z q a1 a2 => ?_) ?_
    · rw [List.getElem?_eraseIdx] at a1 a2
      by_cases hj : j < k
      · rw [if_pos hj] at a1; rw [if_pos (by omega)] at a2
        exact ⟨j, a1, a2⟩
      · rw [if_neg hj] at a1; rw [if_neg (by omega)] at a2
        exact ⟨j + 1, a1, a2⟩
    · simp only [State.removed, Function.update_self]
      by_cases h0 : k = 0 ∧ (s.kids p).head? = some none
      · obtain ⟨rfl, h0⟩ := h0
        left
        have hc : ((s.kids p).eraseIdx (0 + 1)).head? = some none := by
          match s.kids p, h0 with
          | _ :: _, h0 => exact h0
        refine ⟨(hnode.second h0 g1).symm, hc, ?_⟩
        match hK : (s.keys p).eraseIdx 0, hD : (s.kids p).eraseIdx (0 + 1), hc with
        | [], _, _ => exact Or.inr ⟨rfl, rfl⟩
        | y :: K', none :: C, _ => exact Or.inl ⟨y, K', rfl, by simp⟩
      · right
        obtain ⟨b, b1, b2⟩ := left_of h p1 p2 g1 (fun e hh => h0 ⟨e, hh⟩)
        obtain ⟨b3, b4⟩ := h.kid p b p1 p2 (mem_of_get b1)
        have hbn : b ≠ n := by
          rintro rfl
          obtain ⟨c1, e1⟩ := List.getElem?_eq_some_iff.1 b1
          obtain ⟨c2, e2⟩ := List.getElem?_eq_some_iff.1 g1
          have := (List.Nodup.getElem_inj_iff hd).1 (e1.trans e2.symm)
          omega
        have hb := (ht.alive p b p1 p2 (mem_of_get b1)).resolve_right (by intro e; cases e; exact hbn rfl)
        have hg : s.elo b < s.bd b := by
          rcases ht.gap b p b3 b4 hb with h6 | ⟨m, h6, h7, _⟩
          · exact h6
          · cases h6
            exact absurd (Anc.one h hn.rank o1 h7 .refl b4 h5) hbn
        have := (h.in p1 p2 (mem_of_get b1)).1
        refine ⟨by omega, ?_⟩
        match hK : (s.keys p).eraseIdx k, hD : (s.kids p).eraseIdx (k + 1) with
        | [], _ => rfl
        | _ :: _, [] => rfl
        | _ :: _, some _ :: _ => rfl
        | y :: K', none :: C =>
          dsimp only
          rw [if_neg]
          intro hk
          refine h0 ⟨by omega, ?_⟩
          match hk' : s.kids p with
          | [] => rw [hk'] at hD; simp at hD
          | a :: D => rw [hk', List.eraseIdx_cons_succ] at hD; cases hD; rfl

theorem neat_removeSome (hu : Counts up) {s : State G} (h : Inv s) (hl : Lone s) (hn : Neat s) (i p n ik c : Nat)
    (hp : s.pc i = .rmod p n (some c) ik) :
    Neat ((s.removeKid up p (some c) ik).to i ((s.removeKid up p (some c) ik).removed p n (up (s.keys p) ik) ik)) := by
  have h1 : (s.pc i).Removing := by rw [hp]; trivial
  obtain ⟨ht, t1, t2, t3⟩ := by simpa only [hp] using hn.task i h1
  have hf : ∀ n, n < s.fresh → s.bd n = s.hi n := fun n hn => hl.flat h h1 hn
  have hloc := h.loc i
  rw [hp] at hloc
  obtain ⟨⟨o1, o2, o3, o4, o5, o6, o7, o8, o9⟩, ⟨p1, p2⟩, hpn, h5, hdI⟩ := hloc
  have t2 := t2 c rfl
  obtain ⟨g1, g2, g3⟩ := State.Good.found hu h o1 (t1.1 n .refl) t1.2 h5
  have hmem := mem_of_get g1
  have hnode := h.has' p1 p2 hmem
  have hd := h.nodup p p1 p2
  have hgp : s.Goods p ik := t1.above h hf o1 h5
  have hgap : ∀ m p, m < s.fresh → s.parent m = some p → s.dead m = false → s.elo m < s.bd m := by
    intro m p a1 a2 a3
    exact (ht.gap m p a1 a2 a3).resolve_right (by rintro ⟨m, hm, _⟩; cases hm)
  have hexact : ∀ p j z q, p < s.fresh → s.leaf p = false → (s.keys p)[j]? = some z → (s.kids p)[j + 1]? = some (some q) →
      z = s.elo q := by
    intro p j z q a1 a2 a3 a4
    exact (ht.exact p j z q a1 a2 a3 a4).resolve_right (by rintro ⟨m, hm, _⟩; cases hm)
  obtain ⟨rk, hrk⟩ := hn.rank
  have hr1 := hrk.1 c n o5 o6
  have hr2 := hrk.1 n p o1 h5
  have hcp : ∀ a, Anc s.parent p a → a ≠ c := by
    rintro a ha rfl
    have := ha.rank h hrk p1
    omega
  have hdn : ∀ a, s.dead a = false → a ≠ n := by rintro a ha rfl; rw [o2] at ha; cases ha
  generalize hx : (s.removeKid up p (some c) ik).removed p n (up (s.keys p) ik) ik = x'
  simp only [State.removeKid] at hx ⊢
  generalize up (s.keys p) ik = kp at *
  simp only [State.removed, Function.update_self] at hx
  have hxs : (∃ y K' C, s.keys p = y :: K' ∧ (s.kids p).set kp (some c) = none :: C ∧ kp ≤ 1 ∧ x' = .dpar p p n ik y) ∨
      x' = .rend p n ik := by
    split at hx
    case h_1 y K' C e1 e2 =>
      split at hx
      · exact Or.inl ⟨y, K', _, e1, e2, by assumption, hx.symm⟩
      · exact Or.inr hx.symm
    case h_2 => exact Or.inr hx.symm
  clear hx
  have hmid : x'.Mid = none := by rcases hxs with ⟨_, _, _, _, _, _, rfl⟩ | rfl <;> rfl
  have hrepl : x'.Repl = none := by rcases hxs with ⟨_, _, _, _, _, _, rfl⟩ | rfl <;> rfl
  have hrem : x'.Removing := by rcases hxs with ⟨_, _, _, _, _, _, rfl⟩ | rfl <;> trivial
  have hkl : kp < (s.kids p).length := (List.getElem?_eq_some_iff.1 g1).1
  generalize hs' : State.to { s with
      kids := Function.update s.kids p ((s.kids p).set kp (some c))
      parent := Function.update s.parent c (some p) } i x' = s'
  have ei : s'.pc i = x' := by rw [← hs']; simp [State.to]
  have ek : s'.keys = s.keys := by rw [← hs']; rfl
  have hkids' : ∀ r, r ≠ p → s'.kids r = s.kids r := fun r hr => by rw [← hs']; simp [State.to, hr]
  have ecp : s'.kids p = (s.kids p).set kp (some c) := by rw [← hs']; simp [State.to]
  have ef : s'.fresh = s.fresh := by rw [← hs']; rfl
  have ep : ∀ a, a ≠ c → s'.parent a = s.parent a := fun a ha => by rw [← hs']; simp [State.to, ha]
  have epc : s'.parent c = some p := by rw [← hs']; simp [State.to]
  have el : s'.leaf = s.leaf := by rw [← hs']; rfl
  have ee : s'.elo = s.elo := by rw [← hs']; rfl
  have eb : s'.bd = s.bd := by rw [← hs']; rfl
  have ed : s'.dead = s.dead := by rw [← hs']; rfl
  have es : s'.dS = s.dS := by rw [← hs']; rfl
  have hgp' : s'.Goods p ik := by
    refine hgp.frame (fun a ha => ep a (hcp a ha)) (fun a r ha hr => ?_) (fun a _ => by rw [eb])
    have : r ≠ p := by
      rintro rfl
      exact Anc.not h hn.rank (ha.lt h p1) hr ha
    exact ⟨hkids' r this, by rw [ek]⟩
  refine neat_task (i := i) h hl hn ef ?_ ?_ (fun k hk => by rw [← hs']; simp [State.to, hk]) h1
    (Or.inl (by rw [ei]; exact hrem)) ?_
  · refine ⟨rk, fun a q a1 a2 => ?_⟩
    rw [ef] at a1
    by_cases e : a = c
    · subst e; rw [epc] at a2; cases a2; omega
    · rw [ep a e] at a2; exact hrk.1 a q a1 a2
  · intro a
    rw [ef, el]
    intro a1 a2 a3
    by_cases e : a = c
    · subst e
      rcases hn.root a a1 a2 (by rw [← hs'] at a3; exact a3) with h6 | h6
      · rw [o6] at h6; cases h6
      · right; rw [es]; exact h6
    · rw [ep a e, es]
      exact hn.root a a1 a2 (by rw [← hs'] at a3; exact a3)
  · rw [ei]
    refine ⟨⟨?_, ?_, ?_, ?_⟩, ?_⟩
    · rw [ef, ed, hmid, hrepl]
      intro a q a1 a2 a3 _
      have a3 := a3.resolve_right (by simp)
      by_cases e : a = c
      · subst e
        rw [epc] at a2; cases a2
        rw [ecp]
        exact List.mem_set hkl _
      · rw [ep a e] at a2
        have hm := ht.sub a q a1 a2 (Or.inl a3) (by simp [PC.Repl]; exact fun h => e h.symm)
        by_cases e' : q = p
        · subst e'; rw [ecp]
          obtain ⟨b, hb, e2⟩ := List.mem_iff_getElem.1 hm
          have hbk : kp ≠ b := by
            rintro rfl
            rw [List.getElem?_eq_getElem hb, e2] at g1
            cases g1; exact hdn _ a3 rfl
          refine List.mem_of_getElem? (i := b) ?_
          rw [List.getElem?_set_ne hbk, List.getElem?_eq_getElem hb, e2]
        · rw [hkids' q e']; exact hm
    · rw [ef, el, ed, hmid]
      intro r q a1 a2 a3
      left
      by_cases e : r = p
      · subst e; rw [ecp] at a3
        rcases mem_set_of hd g1 a3 with h6 | h6
        · cases h6; exact t2
        · refine (ht.alive r q a1 a2 h6.1).resolve_right ?_
          intro e; cases e; exact h6.2 rfl
      · rw [hkids' r e] at a3
        refine (ht.alive r q a1 a2 a3).resolve_right ?_
        intro e'; cases e'
        have := (h.kid r n a1 a2 a3).2
        rw [h5] at this; cases this; exact e rfl
    · rw [ef, ed, ee, eb]
      intro a q a1 a2 a3
      left
      by_cases e : a = c
      · subst e; exact hgap a n a1 o6 a3
      · rw [ep a e] at a2; exact hgap a q a1 a2 a3
    · rw [ef, el, ek, ee]
      intro r j z q a1 a2 a3 a4
      left
      by_cases e : r = p
      · subst e; rw [ecp] at a4
        by_cases ej : kp = j + 1
        · subst ej
          rw [List.getElem?_set_self hkl] at a4
          cases a4
          rw [o7]
          exact hexact r j z n a1 a2 a3 g1
        · rw [List.getElem?_set_ne ej] at a4
          exact hexact r j z q a1 a2 a3 a4
      · rw [hkids' r e] at a4
        exact hexact r j z q a1 a2 a3 a4
    · rcases hxs with ⟨y, K', C, x1, x2, x3, rfl⟩ | rfl
      · have hk1 : kp = 1 := by
          rcases Nat.lt_or_ge kp 1 with h6 | h6
          · have : kp = 0 := by omega
            subst this
            match hk' : s.kids p, hkl with
            | _ :: _, _ => rw [hk'] at x2; simp at x2
          · omega
        subst hk1
        have hhead : (s.kids p).head? = some none := by
          match hk' : s.kids p, hkl with
          | a :: D, _ => rw [hk'] at x2; simp at x2; simp [x2.1]
        have hep := hnode.second hhead g1
        have hy : y = s.elo n := hexact p 0 y n p1 p2 (by rw [x1]; rfl) g1
        have hb1 := (t1.range h hf o1 (.up .refl h5)).2
        have hb2 := hgap c n o5 o6 t2
        refine ⟨hgp', ⟨fun a ha q hq => ?_, by rw [eb]; omega⟩, .refl, by rw [ee]; omega, by rw [es]; exact t3⟩
        have ha' := Anc.congr (fun a ha => ep a (hcp a ha)) ha
        obtain ⟨j, j1, j2, j3⟩ := hgp'.1 a ha q hq
        rw [ep a (hcp a ha')] at hq
        have hqp : q ≠ p := by
          rintro rfl
          exact Anc.not h hn.rank (ha'.lt h p1) hq ha'
        obtain ⟨q1, q2, _⟩ := h.parent a q (ha'.lt h p1) hq
        refine ⟨j, j1, ?_, j3⟩
        rintro j' z rfl hz
        rw [hkids' q hqp] at j1
        rw [ek] at hz
        have := hexact q j' z a q1 q2 hz j1
        have := (hgp.range h hf p1 ha').1
        omega
      · exact ⟨hgp', by rw [es]; exact t3⟩

end Verif.Prune
