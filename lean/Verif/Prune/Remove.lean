import Verif.Prune.Unlink

/-!
# Taking a node out of its parent
-/
namespace Verif.Prune

variable {G : Type}

/-- A change of the keys and children of one internode that is kept locked. -/
theorem inv_kids {s : State G} (h : Inv s) {i p : Nat} {x : PC G} {K : List Nat} {C : List (Option Nat)} {P : Nat → Option Nat}
    (hne : s.pc i ≠ .idle) (hp : p < s.fresh) (hl : s.leaf p = false) (hd : s.dead p = false) (hlk : s.lock p = some i)
    (hP : ∀ q, P q = s.parent q ∨ ∃ a, s.parent q = some a ∧ P q = some p ∧ s.lock a = some i ∧ s.dS a = true ∧
      (s.lo q = 0 → s.lo p = 0))
    (hO : ∀ a, x.Owns a ↔ (s.pc i).Owns a) (hS : ∀ a, ¬ (s.pc i).Skew a) (hL : ∀ a, ¬ (s.pc i).Loose a) (hQ : ¬ (s.pc i).Pre)
    (node : Node s.lo s.elo s.bd (s.lo p) (s.elo p) (s.hi p) K C)
    (keys : ∀ z, z ∈ K → 0 < z ∧ z < s.hi p) (sorted : K.Pairwise (· < ·))
    (kid : ∀ q, some q ∈ C → q < s.fresh ∧ P q = some p)
    (kid' : ∀ a q, a < s.fresh → s.leaf a = false → a ≠ p → some q ∈ s.kids a → P q = some a)
    (nodup : C.Nodup)
    (loc : State.Loc { s with keys := Function.update s.keys p K, kids := Function.update s.kids p C, parent := P } (s.key i) x) :
    Inv (State.to { s with keys := Function.update s.keys p K, kids := Function.update s.kids p C, parent := P } i x) ∧
    Mono s (State.to { s with keys := Function.update s.keys p K, kids := Function.update s.kids p C, parent := P } i x) := by
  generalize hs' : State.to { s with
      keys := Function.update s.keys p K
      kids := Function.update s.kids p C
      parent := P } i x = s'
  have hpar : ∀ q a, s.parent q = some a → s.dS a = false → P q = some a := by
    intro q a h1 h2
    rcases hP q with e | ⟨b, e1, e2, e3, e4, e5⟩
    · rw [e, h1]
    · rw [h1] at e1; cases e1; rw [h2] at e4; cases e4
  have hmono : Mono s s' := by
    subst hs'
    refine ⟨Nat.le_refl _, fun _ _ => rfl, fun _ _ => rfl, fun _ _ => Nat.le_refl _, fun _ _ => Nat.le_refl _,
      fun _ _ _ h => ⟨h, rfl, Nat.le_refl _⟩, fun _ _ h _ _ => h, fun q _ hc _ _ c _ h => ⟨hpar c q h hc.2, Nat.le_refl _⟩⟩
  have hframe : Frame i id s s' := by
    subst hs'
    exact { pc := fun j hj => by simp only [State.to, Function.update_of_ne hj]
            key := fun _ _ => rfl
            base := fun _ _ => rfl
            le := fun _ => Nat.le_refl _
            dI := fun _ _ _ _ => rfl
            dS := fun _ _ _ _ => rfl
            dead := fun _ _ _ _ => rfl
            gone := fun _ _ _ _ => rfl
            items := fun _ _ _ _ => rfl
            hi := fun _ _ _ _ => rfl
            bd := fun _ _ _ _ => rfl
            elo := fun _ _ _ _ => rfl
            next := fun _ _ _ _ _ _ h => h
            loose := fun q j _ _ h4 => by
              show P q = none
              rcases hP q with e | ⟨b, e1, _⟩
              · rw [e, h4]
              · rw [h4] at e1; cases e1
            parent := fun q a j h1 h2 h3 h4 => by
              refine ⟨?_, rfl, rfl⟩
              show P q = some a
              rcases hP q with e | ⟨b, e1, e2, e3, _⟩
              · rw [e, h4]
              · rw [h4] at e1; cases e1; rw [h1] at e3; exact absurd (Option.some.inj e3) h2 }
  have hown := h.own i
  have hlck := h.lck i
  refine ⟨inv_heavy (x := x) h hmono hframe ?_ hne ?_ ?_ ?_ ?_ ?_ ?_ ?_ ?_ ?_ ?_ ?_ ?_
    ?_ ?_ ?_ ?_ ?_ ?_ ?_ ?_ ?_ ?_ ?_ ?_ ?_ ?_, hmono⟩ <;> (subst hs'; try clear hmono hframe)
  · simp [State.to]
  · rfl
  · rfl
  · rfl
  · cases x <;> exact loc
  · exact fun a => ⟨fun e => (hO a).mpr (hlck a e), fun e => hown a ((hO a).mp e)⟩
  · exact fun _ _ _ => Iff.rfl
  · exact h.dirty
  · exact h.alloc
  · exact h.rng
  · exact h.live
  · exact h.gone
  · exact fun a ha => Or.inr (Or.inr ⟨ha, rfl, rfl, hS a⟩)
  · intro a ha hpa
    refine Or.inr (Or.inr ⟨ha, ?_, id, hL a⟩)
    change P a = none at hpa
    rcases hP a with e | ⟨b, e1, e2, _⟩
    · rw [← e, hpa]
    · rw [hpa] at e2; cases e2
  · intro q a hq ha
    change P q = some a at ha
    rcases hP q with e | ⟨b, e1, e2, e3, e4, e5⟩
    · rw [e] at ha; exact h.parent q a hq ha
    · rw [ha] at e2; cases e2
      exact ⟨hp, hl, e5⟩
  · intro a ha hla hda
    by_cases hap : a = p
    · subst hap
      simp only [State.to, Function.update_self]
      exact node
    · simp only [State.to, Function.update_of_ne hap]
      exact h.node a ha hla hda
  · intro a ha hla hda
    have hap : a ≠ p := by rintro rfl; rw [show s.dead a = true from hda] at hd; cases hd
    simp only [State.to, Function.update_of_ne hap]
    exact h.deadNode a ha hla hda
  · intro a z ha hla
    by_cases hap : a = p
    · subst hap
      simp only [State.to, Function.update_self]
      exact keys z
    · simp only [State.to, Function.update_of_ne hap]
      exact h.keys a z ha hla
  · intro a ha hla
    by_cases hap : a = p
    · subst hap
      simp only [State.to, Function.update_self]
      exact sorted
    · simp only [State.to, Function.update_of_ne hap]
      exact h.sorted a ha hla
  · intro a q ha hla
    by_cases hap : a = p
    · subst hap
      simp only [State.to, Function.update_self]
      exact kid q
    · simp only [State.to, Function.update_of_ne hap]
      exact fun hq => ⟨(h.kid a q ha hla hq).1, kid' a q ha hla hap hq⟩
  · intro a ha hla
    by_cases hap : a = p
    · subst hap
      simp only [State.to, Function.update_self]
      exact nodup
    · simp only [State.to, Function.update_of_ne hap]
      exact h.nodup a ha hla
  · exact h.rt
  · exact h.val
  · exact h.dom
  · exact fun a b k h1 h2 h3 h4 h5 h6 h7 h8 h9 h10 h11 => Or.inr ⟨h1, h2, h6, h7, ⟨k, h8, h9, h10, h11⟩, fun e => hQ e.1⟩
  · exact h.last
  · exact h.next

/-- What follows, given what `p` is now. -/
theorem removed_loc {s : State G} {k p n kp ik : Nat} (hin : s.Inner p n)
    (node : Node s.lo s.elo s.bd (s.lo p) (s.elo p) (s.hi p) (s.keys p) (s.kids p))
    (keys : ∀ z, z ∈ s.keys p → 0 < z ∧ z < s.hi p) (hb : s.bd p = s.hi p) :
    s.Loc k (s.removed p n kp ik) ∧ ∀ a, (s.removed p n kp ik : PC G).Owns a ↔ a = p ∨ a = n := by
  unfold State.removed
  split
  · next y K C e1 e2 =>
    by_cases hkp : kp ≤ 1
    · rw [if_pos hkp]
      rw [e1, e2] at node
      have h1 := node.first
      have h2 := keys y (by rw [e1]; simp)
      refine ⟨⟨hin, ⟨hin.1, hin.2.1, h2.1, h1, by omega⟩, hin.2.2.2.1⟩, fun a => ?_⟩
      simp only [PC.Owns]
      constructor
      · rintro (e | e | e)
        · exact Or.inl e
        · exact Or.inl e
        · exact Or.inr e
      · rintro (e | e)
        · exact Or.inl e
        · exact Or.inr (Or.inr e)
    · rw [if_neg hkp]
      exact ⟨hin, fun a => Iff.rfl⟩
  · exact ⟨hin, fun a => Iff.rfl⟩

theorem inv_removeKid {up : List Nat → Nat → Nat} {s : State G} (h : Inv s) (ht : Tidy up s) (i p n ik : Nat) (r : Option Nat)
    (hp : s.pc i = .rmod p n r ik) :
    Inv ((s.removeKid up p r ik).to i ((s.removeKid up p r ik).removed p n (up (s.keys p) ik) ik)) ∧
    Mono s ((s.removeKid up p r ik).to i ((s.removeKid up p r ik).removed p n (up (s.keys p) ik) ik)) := by
  have hj := ht.rmod i p n r ik hp
  have hloc := h.loc i
  have hown := h.own i
  rw [hp] at hloc hown
  obtain ⟨hout, ⟨a1, a2⟩, a3, a4, a5⟩ := hloc
  have hlp := hown p (by simp [PC.Owns])
  have hln := hown n (by simp [PC.Owns])
  have hd := h.alive a1 a2 hj
  have hnode := h.node p a1 a2 hd
  have hkeys := h.keys p
  have hsort := h.sorted p a1 a2
  have hnd := h.nodup p a1 a2
  have hb : s.bd p = s.hi p := by
    rcases h.skew p a1 with h1 | h1
    · exact h1
    · rw [holder_of hlp, hp] at h1; exact h1.elim
  have hnf : n < s.fresh := by cases r <;> exact hout.1
  have hnn : s.dead n = true ∧ s.dS n = true := by cases r <;> exact ⟨hout.2.1, hout.2.2.1⟩
  cases r with
  | some c =>
    obtain ⟨b1, b2, b3, b4, b5, b6, b7, b8, b9⟩ := hout
    have hs' : s.removeKid up p (some c) ik = { s with
      keys := Function.update s.keys p (s.keys p)
      kids := Function.update s.kids p ((s.kids p).set (up (s.keys p) ik) (some c))
      parent := Function.update s.parent c (some p) } := by
      rw [Function.update_eq_self]; rfl
    rw [hs']
    clear hs'
    have h4 : 0 < s.lo n → 0 < s.lo c := by
      intro h0
      have := (h.parent c n b5 b6).2.2
      omega
    have hnode' : Node s.lo s.elo s.bd (s.lo p) (s.elo p) (s.hi p) (s.keys p) ((s.kids p).set (up (s.keys p) ik) (some c)) :=
      hnode.replace hj hnd (fun _ _ _ => ⟨rfl, rfl, rfl⟩) b7 b8 b9 h4
    have hck : ∀ a q, a < s.fresh → s.leaf a = false → some q ∈ s.kids a → q ≠ c := by
      rintro a q ha hl hq rfl
      have := (h.kid a q ha hl hq).2
      rw [b6] at this
      cases this
      rw [(h.deadNode n b1 b4 b2).2] at hq
      simp at hq
    have hrl := removed_loc (k := s.key i) (p := p) (n := n) (kp := up (s.keys p) ik) (ik := ik) (s := { s with
      keys := Function.update s.keys p (s.keys p)
      kids := Function.update s.kids p ((s.kids p).set (up (s.keys p) ik) (some c))
      parent := Function.update s.parent c (some p) }) ⟨a1, a2, hd, a3, hnf⟩
      (by simp only [Function.update_self]; exact hnode')
      (by simp only [Function.update_self]; exact fun z => hkeys z a1 a2) hb
    refine inv_kids h (by simp [hp]) a1 a2 hd hlp (fun q => ?_) (fun a => ?_) (by simp [hp, PC.Skew]) (by simp [hp, PC.Loose])
      (by simp [hp, PC.Pre]) hnode' (fun z => hkeys z a1 a2) hsort (fun q hq => ?_) (fun a q ha hl hap hq => ?_) ?_ hrl.1
    · by_cases hqc : q = c
      · subst hqc
        refine Or.inr ⟨n, b6, by simp, hln, b3, fun e => ?_⟩
        exact (h.parent n p b1 a4).2.2 ((h.parent q n b5 b6).2.2 e)
      · exact Or.inl (by simp [hqc])
    · rw [hrl.2 a, hp]; rfl
    · rcases mem_set_of hnd hj hq with e | ⟨e1, e2⟩
      · cases e; exact ⟨b5, by simp⟩
      · have := h.kid p q a1 a2 e1
        rw [Function.update_of_ne (hck p q a1 a2 e1)]
        exact this
    · rw [Function.update_of_ne (hck a q ha hl hq)]
      exact (h.kid a q ha hl hq).2
    · exact hnd.set fun e => hck p c a1 a2 e rfl
  | none =>
    obtain ⟨b1, b2, b3, b4, b5⟩ := hout
    by_cases hkp : up (s.keys p) ik = 0
    · have hs' : s.removeKid up p none ik = { s with
        keys := Function.update s.keys p (s.keys p)
        kids := Function.update s.kids p ((s.kids p).set 0 none)
        parent := s.parent } := by
        rw [Function.update_eq_self]; simp only [State.removeKid, if_pos hkp]
      rw [hs']
      clear hs'
      rw [hkp] at hj
      have hnode' : Node s.lo s.elo s.bd (s.lo p) (s.elo p) (s.hi p) (s.keys p) ((s.kids p).set 0 none) := hnode.drop hj b4
      have hnone : none ∉ s.kids p := by
        revert hnode hj
        match s.kids p with
        | [] => simp
        | some c :: C => intro _ hnode e; simp at e; exact hnode.2.2.some e
        | none :: C => simp
      have hrl := removed_loc (k := s.key i) (p := p) (n := n) (kp := up (s.keys p) ik) (ik := ik) (s := { s with
        keys := Function.update s.keys p (s.keys p)
        kids := Function.update s.kids p ((s.kids p).set 0 none)
        parent := s.parent }) ⟨a1, a2, hd, a3, hnf⟩
        (by simp only [Function.update_self]; exact hnode')
        (by simp only [Function.update_self]; exact fun z => hkeys z a1 a2) hb
      refine inv_kids h (by simp [hp]) a1 a2 hd hlp (fun q => Or.inl rfl) (fun a => ?_) (by simp [hp, PC.Skew]) (by simp [hp, PC.Loose])
        (by simp [hp, PC.Pre]) hnode' (fun z => hkeys z a1 a2) hsort (fun q hq => ?_) (fun a q ha hl hap hq => ?_) ?_ hrl.1
      · rw [hrl.2 a, hp]; rfl
      · rcases mem_set_of hnd hj hq with e | ⟨e1, e2⟩
        · cases e
        · exact h.kid p q a1 a2 e1
      · exact (h.kid a q ha hl hq).2
      · exact hnd.set hnone
    · obtain ⟨j, hj'⟩ := Nat.exists_eq_succ_of_ne_zero hkp
      have hs' : s.removeKid up p none ik = { s with
        keys := Function.update s.keys p ((s.keys p).eraseIdx j)
        kids := Function.update s.kids p ((s.kids p).eraseIdx (j + 1))
        parent := s.parent } := by
        simp only [State.removeKid, if_neg hkp]; rw [hj']; rfl
      rw [hs']
      clear hs'
      rw [hj'] at hj
      have hnode' : Node s.lo s.elo s.bd (s.lo p) (s.elo p) (s.hi p) ((s.keys p).eraseIdx j) ((s.kids p).eraseIdx (j + 1)) :=
        hnode.erase hj b4
      have hkeys' : ∀ z, z ∈ (s.keys p).eraseIdx j → 0 < z ∧ z < s.hi p := fun z hz => hkeys z a1 a2 (List.mem_of_mem_eraseIdx hz)
      have hrl := removed_loc (k := s.key i) (p := p) (n := n) (kp := up (s.keys p) ik) (ik := ik) (s := { s with
        keys := Function.update s.keys p ((s.keys p).eraseIdx j)
        kids := Function.update s.kids p ((s.kids p).eraseIdx (j + 1))
        parent := s.parent }) ⟨a1, a2, hd, a3, hnf⟩
        (by simp only [Function.update_self]; exact hnode')
        (by simp only [Function.update_self]; exact hkeys') hb
      refine inv_kids h (by simp [hp]) a1 a2 hd hlp (fun q => Or.inl rfl) (fun a => ?_) (by simp [hp, PC.Skew]) (by simp [hp, PC.Loose])
        (by simp [hp, PC.Pre]) hnode' hkeys' (hsort.sublist (List.eraseIdx_sublist ..)) (fun q hq => ?_) (fun a q ha hl hap hq => ?_) ?_ hrl.1
      · rw [hrl.2 a, hp]; rfl
      · exact h.kid p q a1 a2 (List.mem_of_mem_eraseIdx hq)
      · exact (h.kid a q ha hl hq).2
      · exact hnd.sublist (List.eraseIdx_sublist ..)

theorem inv_rewrite {up : List Nat → Nat → Nat} {s : State G} (h : Inv s) (ht : Tidy up s) (i q p n ik y u : Nat)
    (hp : s.pc i = .dset u q p n ik y) :
    Inv (State.to
        { s with
          keys := Function.update s.keys u
            (if up (s.keys u) ik = 0 then s.keys u else (s.keys u).set (up (s.keys u) ik - 1) y) } i
        (if s.goesOn u (up (s.keys u) ik) then .dpar u p n ik y else .dtop u p n y)) ∧
    Mono s (State.to
        { s with
          keys := Function.update s.keys u
            (if up (s.keys u) ik = 0 then s.keys u else (s.keys u).set (up (s.keys u) ik - 1) y) } i
        (if s.goesOn u (up (s.keys u) ik) then .dpar u p n ik y else .dtop u p n y)) := by
  obtain ⟨hj, hz⟩ := ht.dset i u q p n ik y hp
  have hloc := h.loc i
  have hown := h.own i
  rw [hp] at hloc hown
  obtain ⟨hin, ⟨c1, c2, c3, c4, c5⟩, ⟨a1, a2⟩, a3, a4, a5⟩ := hloc
  have hlu := hown u (by simp [PC.Owns])
  have hd := h.alive a1 a2 hj
  have hnode := h.node u a1 a2 hd
  have hsort := h.sorted u a1 a2
  have hb : s.bd u = s.hi u := by
    rcases h.skew u a1 with h1 | h1
    · exact h1
    · rw [holder_of hlu, hp] at h1; exact h1.elim
  have hord := hnode.order fun c hc => (h.rng c (h.kid u c a1 a2 hc).1).1
  have hqu := (hord.2 q (mem_of_get hj)).2
  have hgo : s.goesOn u (up (s.keys u) ik) → y ≤ s.elo u := by
    rintro (e | ⟨e1, e2⟩)
    · rw [e] at hj; have := hnode.head hj; omega
    · rw [e1] at hj; have := hnode.second e2 hj; omega
  have hs' : ∀ K, { s with keys := Function.update s.keys u K } = { s with
    keys := Function.update s.keys u K
    kids := Function.update s.kids u (s.kids u)
    parent := s.parent } := by
    intro K; rw [Function.update_eq_self]
  rw [hs']
  have key : ∀ K, Node s.lo s.elo s.bd (s.lo u) (s.elo u) (s.hi u) K (s.kids u) → K.Pairwise (· < ·) →
      (∀ z, z ∈ K → 0 < z ∧ z < s.hi u) → _ := fun K k1 k2 k3 =>
    inv_kids (s := s) (K := K) (C := s.kids u) (P := s.parent) (i := i) (p := u)
      (x := if s.goesOn u (up (s.keys u) ik) then .dpar u p n ik y else .dtop u p n y) h (by simp [hp]) a1 a2 hd hlu
      (fun q => Or.inl rfl) (fun a => by rw [hp]; split <;> exact Iff.rfl) (by simp [hp, PC.Skew]) (by simp [hp, PC.Loose])
      (by simp [hp, PC.Pre]) k1 k3 k2 (fun q hq => h.kid u q a1 a2 hq) (fun a q ha hl _ hq => (h.kid a q ha hl hq).2)
      (h.nodup u a1 a2) (by
        split
        · next hg =>
          exact ⟨hin, ⟨a1, a2, c3, hgo hg, by show y < s.bd u; omega⟩, a4⟩
        · exact ⟨hin, ⟨a1, a2⟩, a3, a4⟩)
  by_cases hkp : up (s.keys u) ik = 0
  · rw [if_pos hkp]
    exact key _ hnode hsort fun z => h.keys u z a1 a2
  · obtain ⟨j, hj'⟩ := Nat.exists_eq_succ_of_ne_zero hkp
    rw [if_neg hkp]
    have e1 : up (s.keys u) ik - 1 = j := by omega
    obtain ⟨z1, z2⟩ := hz j hj'
    rw [hj'] at hj
    obtain ⟨z, w1, w2, w3, w4⟩ := hnode.key hj
    have := z1 z w1
    refine key _ ?_ ?_ ?_
    · rw [e1]; exact hnode.rewrite hj (by omega) c4
    · rw [e1]; exact sorted_set hsort z1 z2
    · rw [e1]
      intro v hv
      rcases List.mem_or_eq_of_mem_set hv with hv | rfl
      · exact h.keys u v a1 a2 hv
      · exact ⟨c3, by omega⟩

theorem inv_killNode {s : State G} (h : Inv s) (i p ik : Nat) (hp : s.pc i = .rnext p ik) (hk : s.keys p = []) :
    Inv (State.to
        { s with
          dead := Function.update s.dead p true
          dS := Function.update s.dS p true
          kids := Function.update s.kids p [none] } i (.rpar p ((s.kids p).headD none) ik)) ∧
    Mono s (State.to
        { s with
          dead := Function.update s.dead p true
          dS := Function.update s.dS p true
          kids := Function.update s.kids p [none] } i (.rpar p ((s.kids p).headD none) ik)) := by
  have hloc := h.loc i
  have hown := h.own i
  have hlck := h.lck i
  rw [hp] at hloc hown hlck
  obtain ⟨a1, a2, a3⟩ := hloc
  have hlp := hown p rfl
  have hb : s.bd p = s.hi p := by
    rcases h.skew p a1 with h1 | h1
    · exact h1
    · rw [holder_of hlp, hp] at h1; exact h1.elim
  have hnode := h.node p a1 a2 a3
  rw [hk] at hnode
  have hne : ∀ a j, s.lock a = some j → j ≠ i → a ≠ p :=
    fun a j h1 h2 e => by subst e; rw [hlp] at h1; exact h2 (Option.some.inj h1).symm
  generalize hs' : State.to { s with
      dead := Function.update s.dead p true
      dS := Function.update s.dS p true
      kids := Function.update s.kids p [none] } i (.rpar p ((s.kids p).headD none) ik) = s'
  have hcl : s'.dS p = true := by subst hs'; simp [State.to]
  have hold : ∀ q, q ≠ p → s'.dS q = s.dS q ∧ s'.dead q = s.dead q ∧ s'.kids q = s.kids q := by
    intro q hq; subst hs'; simp only [State.to, Function.update_of_ne hq, and_self]
  have hmono : Mono s s' := by
    have hf : ∀ q, s'.dS q = false → q ≠ p := fun q h1 e => by rw [e, hcl] at h1; cases h1
    have hi : s'.hi = s.hi := by subst hs'; rfl
    have hdI : s'.dI = s.dI := by subst hs'; rfl
    constructor
    · subst hs'; exact Nat.le_refl _
    · subst hs'; exact fun _ _ => rfl
    · subst hs'; exact fun _ _ => rfl
    · subst hs'; exact fun _ _ => Nat.le_refl _
    · subst hs'; exact fun _ _ => Nat.le_refl _
    · intro q _ _ h2
      have := hold q (hf q h2)
      rw [hi]
      exact ⟨this.1 ▸ h2, this.2.1, Nat.le_refl _⟩
    · intro q _ h1 _ _
      have := hold q (hf q h1.2)
      exact ⟨hdI ▸ h1.1, this.1 ▸ h1.2⟩
    · subst hs'; exact fun _ _ _ _ _ _ _ h => ⟨h, Nat.le_refl _⟩
  have hframe : Frame i id s s' := by
    have hpc : ∀ j, j ≠ i → s'.pc j = s.pc j := by
      intro j hj; subst hs'; simp only [State.to, Function.update_of_ne hj]
    refine { pc := hpc, key := ?_, base := ?_, le := fun _ => Nat.le_refl _, dI := ?_, dS := fun q j h1 h2 => (hold q (hne q j h1 h2)).1,
             dead := fun q j h1 h2 => (hold q (hne q j h1 h2)).2.1, gone := ?_, items := ?_,
             hi := ?_, bd := ?_, elo := ?_, next := ?_, loose := ?_, parent := ?_ }
    all_goals subst hs'
    · exact fun _ _ => rfl
    · exact fun _ _ => rfl
    · exact fun _ _ _ _ => rfl
    · exact fun _ _ _ _ => rfl
    · exact fun _ _ _ _ => rfl
    · exact fun _ _ _ _ => rfl
    · exact fun _ _ _ _ => rfl
    · exact fun _ _ _ _ => rfl
    · exact fun _ _ _ _ _ _ h => h
    · exact fun _ _ _ _ h => h
    · exact fun _ _ _ _ _ _ h => ⟨h, rfl, rfl⟩
  have hlock : s'.lock = s.lock := by subst hs'; rfl
  refine ⟨inv_heavy (x := .rpar p ((s.kids p).headD none) ik) h hmono hframe ?_ (by simp [hp]) ?_ ?_ ?_ ?_ ?_ ?_ ?_ ?_ ?_ ?_ ?_ ?_
    ?_ ?_ ?_ ?_ ?_ ?_ ?_ ?_ ?_ ?_ ?_ ?_ ?_ ?_, hmono⟩ <;> try clear hmono hframe
  · subst hs'; simp [State.to]
  · subst hs'; rfl
  · subst hs'; rfl
  · subst hs'; rfl
  · have hdd : s'.dead p = true := by subst hs'; simp [State.to]
    rcases hnode.empty with ⟨e1, e2⟩ | ⟨c, e1, e2, e3, e4⟩
    · rw [e1]
      subst hs'
      refine ⟨a1, hdd, hcl, ?_, fun e => ?_⟩
      · show s.elo p = s.bd p
        omega
      · exact absurd (show s.leaf p = true from e) (by simp [a2])
    · have hc := h.kid p c a1 a2 (by rw [e1]; simp)
      rw [e1]
      subst hs'
      refine ⟨a1, hdd, hcl, a2, hc.1, hc.2, e2, ?_, e3⟩
      show s.bd c = s.bd p
      omega
  · rw [hlock]
    exact fun a => ⟨hlck a, fun e => by cases e; exact hlp⟩
  · rw [hlock]; exact fun _ _ _ => Iff.rfl
  · intro a ha
    rw [hlock] at ha
    have hap : a ≠ p := by rintro rfl; rw [hlp] at ha; cases ha
    rw [(hold a hap).1]
    subst hs'
    exact h.dirty a ha
  · subst hs'; exact h.alloc
  · subst hs'; exact h.rng
  · subst hs'; exact h.live
  · subst hs'
    intro a ha hga
    have := h.gone a ha hga
    refine ⟨this.1, ?_, this.2.2⟩
    by_cases hap : a = p
    · subst hap; simp [State.to]
    · simp only [State.to, Function.update_of_ne hap]; exact this.2.1
  · subst hs'; exact fun a ha => Or.inr (Or.inr ⟨ha, rfl, rfl, by rw [hp]; exact id⟩)
  · subst hs'; exact fun a ha hpa => Or.inr (Or.inr ⟨ha, hpa, id, by rw [hp]; exact id⟩)
  · subst hs'; exact h.parent
  · intro a ha hla hda
    have hap : a ≠ p := by rintro rfl; subst hs'; simp [State.to] at hda
    rw [(hold a hap).2.1] at hda
    rw [(hold a hap).2.2]
    subst hs'
    exact h.node a ha hla hda
  · intro a ha hla hda
    by_cases hap : a = p
    · subst hap; subst hs'
      exact ⟨hk, by simp [State.to]⟩
    · rw [(hold a hap).2.1] at hda
      rw [(hold a hap).2.2]
      subst hs'
      exact h.deadNode a ha hla hda
  · subst hs'; exact h.keys
  · subst hs'; exact h.sorted
  · intro a q ha hla hq
    by_cases hap : a = p
    · subst hap; subst hs'; simp [State.to] at hq
    · rw [(hold a hap).2.2] at hq
      subst hs'
      exact h.kid a q ha hla hq
  · intro a ha hla
    by_cases hap : a = p
    · subst hap; subst hs'; simp [State.to]
    · rw [(hold a hap).2.2]
      subst hs'
      exact h.nodup a ha hla
  · intro a ha hra hza hda
    have hap : a ≠ p := by rintro rfl; rw [hcl] at hda; cases hda
    rw [(hold a hap).1] at hda
    subst hs'
    exact h.rt a ha hra hza hda
  · subst hs'; exact h.val
  · subst hs'; exact h.dom
  · subst hs'
    exact fun a b k h1 h2 h3 h4 h5 h6 h7 h8 h9 h10 h11 => Or.inr ⟨h1, h2, h6, h7, ⟨k, h8, h9, h10, h11⟩, fun e => by
      rw [hp] at e; exact e.1⟩
  · subst hs'; exact h.last
  · subst hs'; exact h.next

end Verif.Prune
