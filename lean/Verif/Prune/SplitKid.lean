import Verif.Prune.Insert

/-!
# Inserting a child into a full internode
-/
namespace Verif.Prune

variable {G : Type}

local macro "heavy" : tactic => `(tactic|
  ((try simp only [State.to, Function.update_apply, PC.Owns, PC.Skew, PC.Loose, PC.Pre, State.Loc, State.In,
      State.Target, State.Pair, State.Open, State.clean, State.Level, State.Above, Option.map_some, Option.some.injEq, id] at *) <;>
    grind))

set_option maxHeartbeats 2000000 in
theorem inv_splitKid {up : List Nat → Nat → Nat} (hu : Counts up) {s : State G} (h : Inv s) (ht : Tidy up s)
    (i p n c x mid y d : Nat) (t : Option Nat) (hp : s.pc i = .mod p n c x t)
    (hy : (s.keysWith up p x)[mid]? = some y) (hd : (s.kidsWith up p c x)[mid + 1]? = some (some d)) :
    Inv ((s.splitKid up i p n c x mid y d).to i (.fin (some p) (some (s.fresh, y)) n c x t)) ∧
    Mono s ((s.splitKid up i p n c x mid y d).to i (.fin (some p) (some (s.fresh, y)) n c x t)) := by
  obtain ⟨hj, hx⟩ := ht.mod i p n c x t hp
  have hloc := h.loc i
  have hlck := h.lck i
  have hown := h.own i
  rw [hp] at hloc hlck hown
  obtain ⟨h0, h1, _, _, ⟨a1, a2⟩, _⟩ := hloc
  obtain ⟨b1, b2, b3, b4, b5, b6⟩ := halves h h0 h1
  obtain ⟨hg, hgs, hgk, hgd, hgm⟩ := with_kid hu h (bd' := Function.update s.bd n (s.elo c)) hj hx a1 a2 h0
    (fun q => by simp only [Function.update_apply])
  clear h0 h1
  have hloc := h.loc i
  rw [hp] at hloc
  obtain ⟨⟨⟨p1, p2, p3, p4, p5, p6, p7, p8⟩, q1, q2⟩, q3, q4, q5, ⟨a1, a2⟩, q6, q7, q8, q9, q10⟩ := hloc
  have hlp := hown p (by simp [PC.Owns])
  have hln := hown n (by simp [PC.Owns])
  have hlc := hown c (by simp [PC.Owns])
  have hlf := h.alloc s.fresh (Nat.le_refl _)
  have hal := h.alive a1 a2 hj
  have hbdp : s.bd p = s.hi p := by
    rcases h.skew p a1 with h1 | h1
    · exact h1
    · rw [holder_of hlp, hp] at h1; exact absurd h1.1 q6
  have hold : ∀ q, q < s.fresh → q ≠ s.fresh := fun q hq => by omega
  have htl : t ≠ some s.fresh := by
    rintro rfl
    exact absurd q3.2.2.2.1 (Nat.lt_irrefl _)
  -- the children with `c` added
  have hmem : ∀ q, some q ∈ s.kidsWith up p c x → q < s.fresh ∧ (q = c ∨ s.parent q = some p) := by
    intro q hq
    rcases (hgm (some q)).mp hq with hq | hq
    · cases hq; exact ⟨p2, Or.inl rfl⟩
    · have := h.kid p q a1 a2 hq
      exact ⟨this.1, Or.inr this.2⟩
  have hrngb : ∀ q, some q ∈ s.kidsWith up p c x → s.elo q ≤ Function.update s.bd n (s.elo c) q := by
    intro q hq
    have := (h.rng q (hmem q hq).1).1
    rw [Function.update_apply]
    split
    · next e => subst e; exact b2
    · exact this
  obtain ⟨hgl, hgh, y1, y2, y3⟩ := hg.split hy hd
  have hdrop : ∀ q, some q ∈ (s.kidsWith up p c x).drop (mid + 1) → q < s.fresh ∧ (q = c ∨ s.parent q = some p) ∧ 0 < s.lo q := by
    intro q hq
    obtain ⟨j, hj⟩ := List.mem_iff_getElem?.mp hq
    rw [List.getElem?_drop, show mid + 1 + j = mid + j + 1 by omega] at hj
    obtain ⟨z, -, -, -, hz⟩ := hg.key hj
    obtain ⟨e1, e2⟩ := hmem q (List.mem_of_mem_drop hq)
    exact ⟨e1, e2, hz⟩
  have htake : ∀ q, some q ∈ (s.kidsWith up p c x).take (mid + 1) → q < s.fresh ∧ (q = c ∨ s.parent q = some p) :=
    fun q hq => hmem q (List.mem_of_mem_take hq)
  have hdis : ∀ q, some q ∈ (s.kidsWith up p c x).take (mid + 1) → some q ∉ (s.kidsWith up p c x).drop (mid + 1) :=
    fun q h1 h2 => (List.nodup_append.mp (by rw [List.take_append_drop]; exact hgd)).2.2 _ h1 _ h2 rfl
  have hndT : ((s.kidsWith up p c x).take (mid + 1)).Nodup := hgd.sublist (List.take_sublist _ _)
  have hndD : ((s.kidsWith up p c x).drop (mid + 1)).Nodup := hgd.sublist (List.drop_sublist _ _)
  have hsT : ((s.keysWith up p x).take mid).Pairwise (· < ·) := hgs.sublist (List.take_sublist _ _)
  have hsD : ((s.keysWith up p x).drop (mid + 1)).Pairwise (· < ·) := hgs.sublist (List.drop_sublist _ _)
  have hkT : ∀ z, z ∈ (s.keysWith up p x).take mid → 0 < z ∧ z < s.elo d := by
    intro z hz
    have hyd : y ∈ (s.keysWith up p x).drop mid := by
      obtain ⟨hm, hy⟩ := List.getElem?_eq_some_iff.mp hy
      rw [List.drop_eq_getElem_cons hm, hy]
      exact List.mem_cons_self
    have := (List.pairwise_append.mp (by rw [List.take_append_drop]; exact hgs)).2.2 z hz y hyd
    exact ⟨(hgk z (List.mem_of_mem_take hz)).1, by omega⟩
  have hkD : ∀ z, z ∈ (s.keysWith up p x).drop (mid + 1) → 0 < z ∧ z < s.hi p :=
    fun z hz => hgk z (List.mem_of_mem_drop hz)
  have hky := hgk y (List.mem_of_getElem? hy)
  have hol := (hgl.order fun q hq => hrngb q (List.mem_of_mem_take hq)).1
  have hoh := (hgh.order fun q hq => hrngb q (List.mem_of_mem_drop hq)).1
  have hnd : some s.fresh ∉ (s.kidsWith up p c x).drop (mid + 1) := fun hq => absurd (hdrop _ hq).1 (Nat.lt_irrefl _)
  have hpn : n ≠ p := fun e => q6 e.symm
  have hs' : s.splitKid up i p n c x mid y d = { s with
    leaf := Function.update s.leaf s.fresh false
    lock := Function.update s.lock s.fresh (some i)
    ins := Function.update s.ins s.fresh (s.ins p)
    spl := Function.update s.spl s.fresh (s.spl p)
    dI := Function.update s.dI s.fresh (s.dI p)
    dS := Function.update (Function.update s.dS s.fresh (s.dS p)) p true
    rt := Function.update s.rt s.fresh false
    dead := Function.update s.dead s.fresh false
    parent := fun q => if some q ∈ (s.kidsWith up p c x).drop (mid + 1) then some s.fresh else if q = c then some p else
      if q = s.fresh then none else s.parent q
    keys := Function.update (Function.update s.keys s.fresh ((s.keysWith up p x).drop (mid + 1))) p ((s.keysWith up p x).take mid)
    kids := Function.update (Function.update s.kids s.fresh ((s.kidsWith up p c x).drop (mid + 1))) p
      ((s.kidsWith up p c x).take (mid + 1))
    lo := Function.update s.lo s.fresh y
    gone := Function.update s.gone s.fresh false
    hi := Function.update (Function.update s.hi s.fresh (s.hi p)) p (s.elo d)
    bd := Function.update (Function.update s.bd n (s.elo c)) s.fresh (s.bd p)
    elo := Function.update s.elo s.fresh (s.elo d)
    fresh := s.fresh + 1 } := rfl
  rw [hs']
  generalize hD : (s.kidsWith up p c x).drop (mid + 1) = D at *
  generalize hT : (s.kidsWith up p c x).take (mid + 1) = T at *
  generalize hK1 : (s.keysWith up p x).drop (mid + 1) = K1 at *
  generalize hK2 : (s.keysWith up p x).take mid = K2 at *
  clear hs' hD hT hK1 hK2 hg hgs hgk hgd hgm hy hd hmem hrngb hj hx ht
  have hpf := hold p a1
  have hnf := hold n p1
  have hcf := hold c p2
  have hfp : s.fresh ≠ p := fun e => hpf e.symm
  generalize hS : ({ s with
    leaf := Function.update s.leaf s.fresh false
    lock := Function.update s.lock s.fresh (some i)
    ins := Function.update s.ins s.fresh (s.ins p)
    spl := Function.update s.spl s.fresh (s.spl p)
    dI := Function.update s.dI s.fresh (s.dI p)
    dS := Function.update (Function.update s.dS s.fresh (s.dS p)) p true
    rt := Function.update s.rt s.fresh false
    dead := Function.update s.dead s.fresh false
    parent := fun q => if some q ∈ D then some s.fresh else if q = c then some p else if q = s.fresh then none else s.parent q
    keys := Function.update (Function.update s.keys s.fresh K1) p K2
    kids := Function.update (Function.update s.kids s.fresh D) p T
    lo := Function.update s.lo s.fresh y
    gone := Function.update s.gone s.fresh false
    hi := Function.update (Function.update s.hi s.fresh (s.hi p)) p (s.elo d)
    bd := Function.update (Function.update s.bd n (s.elo c)) s.fresh (s.bd p)
    elo := Function.update s.elo s.fresh (s.elo d)
    fresh := s.fresh + 1 } : State G) = S
  have hmono : Mono s (S.to i (.fin (some p) (some (s.fresh, y)) n c x t)) := by
    subst hS
    refine ⟨Nat.le_succ _, ?_, ?_, ?_, ?_, ?_, ?_, ?_⟩ <;>
      (clear h hgl hgh hdis htake hndT hndD hsT hsD hkT hkD; heavy)
  have hframe : Frame i id s (S.to i (.fin (some p) (some (s.fresh, y)) n c x t)) := by
    subst hS
    have hal := h.alloc
    refine ⟨?_, fun _ _ => rfl, fun _ _ => rfl, fun _ => Nat.le_refl _, ?_, ?_, ?_, ?_, ?_, ?_, ?_, ?_, ?_, ?_, ?_⟩ <;>
      (clear h hmono hgl hgh hdis htake hndT hndD hsT hsD hkT hkD; heavy)
  have hkids : ∀ a q, a < s.fresh → s.leaf a = false → a ≠ p → some q ∈ s.kids a → q < s.fresh ∧ q ≠ c ∧ q ≠ n ∧ some q ∉ D ∧
      s.parent q = some a := by
    intro a q ha hl hap hq
    have := h.kid a q ha hl hq
    clear hmono hframe hgl hgh hdis htake hndT hndD hsT hsD hkT hkD
    grind
  refine ⟨inv_heavy (x := .fin (some p) (some (s.fresh, y)) n c x t) h hmono hframe (by simp [State.to]) (by simp [hp])
    (by subst hS; rfl) (by subst hS; rfl) (by subst hS; rfl) ?_ ?_ ?_ ?_ ?_ ?_ ?_
    ?_ ?_ ?_ ?_ ?_ ?_ ?_ ?_ ?_ ?_ ?_ ?_ ?_ ?_ ?_ ?_, hmono⟩
  all_goals subst hS
  · clear hmono hframe h hgl hgh hdis hdrop htake hndT hndD hsT hsD hkT hkD hkids
    cases t with
    | none => heavy
    | some t => heavy
  · clear hmono hframe h hgl hgh hdis hdrop htake hndT hndD hsT hsD hkT hkD hkids; heavy
  · clear hmono hframe h hgl hgh hdis hdrop htake hndT hndD hsT hsD hkT hkD hkids; heavy
  · have := h.dirty
    clear hmono hframe h hgl hgh hdis hdrop htake hndT hndD hsT hsD hkT hkD hkids; heavy
  · have := h.alloc
    clear hmono hframe h hgl hgh hdis hdrop htake hndT hndD hsT hsD hkT hkD hkids; heavy
  · have := h.rng
    clear hmono hframe h hgl hgh hdis hdrop htake hndT hndD hsT hsD hkT hkD hkids; heavy
  · have := h.live
    clear hmono hframe h hgl hgh hdis hdrop htake hndT hndD hsT hsD hkT hkD hkids; heavy
  · have := h.gone
    clear hmono hframe h hgl hgh hdis hdrop htake hndT hndD hsT hsD hkT hkD hkids; heavy
  · rw [hp]
    clear hmono hframe h hgl hgh hdis hdrop htake hndT hndD hsT hsD hkT hkD hkids; heavy
  · rw [hp]
    clear hmono hframe h hgl hgh hdis htake hndT hndD hsT hsD hkT hkD hkids; heavy
  · have := h.parent
    clear hmono hframe h hgl hgh hdis htake hndT hndD hsT hsD hkT hkD hkids; heavy
  · -- node
    intro a ha hl hd'
    simp only [State.to] at ha hl hd' ⊢
    have hcg : ∀ q, q < s.fresh → Function.update s.lo s.fresh y q = s.lo q ∧ Function.update s.elo s.fresh (s.elo d) q = s.elo q ∧
        Function.update (Function.update s.bd n (s.elo c)) s.fresh (s.bd p) q = Function.update s.bd n (s.elo c) q := by
      intro q hq
      simp only [Function.update_of_ne (hold q hq), and_self]
    by_cases haf : a = s.fresh
    · subst haf
      simp only [Function.update_self, Function.update_of_ne hfp]
      exact hgh.congr_id fun q hq => hcg q (hdrop q hq).1
    · by_cases hap : a = p
      · subst hap
        simp only [Function.update_self, Function.update_of_ne haf]
        exact hgl.congr_id fun q hq => hcg q (htake q hq).1
      · simp only [Function.update_of_ne haf, Function.update_of_ne hap] at hl hd' ⊢
        refine (h.node a (by omega) hl hd').congr_id fun q hq => ?_
        obtain ⟨c1, c2, c3, c4⟩ := hkids a q (by omega) hl hap hq
        obtain ⟨e1, e2, e3⟩ := hcg q c1
        exact ⟨e1, e2, by rw [e3, Function.update_of_ne c3]⟩
  · intro a ha hl hd'
    simp only [State.to] at ha hl hd' ⊢
    by_cases haf : a = s.fresh
    · subst haf; rw [Function.update_self] at hd'; cases hd'
    · by_cases hap : a = p
      · subst hap; rw [Function.update_of_ne haf, hal] at hd'; cases hd'
      · simp only [Function.update_of_ne haf, Function.update_of_ne hap] at hl hd' ⊢
        exact h.deadNode a (by omega) hl hd'
  · intro a z ha hl hz
    simp only [State.to] at ha hl hz ⊢
    by_cases haf : a = s.fresh
    · subst haf
      simp only [Function.update_self, Function.update_of_ne hfp] at hz ⊢
      exact hkD z hz
    · by_cases hap : a = p
      · subst hap
        simp only [Function.update_self] at hz ⊢
        exact hkT z hz
      · simp only [Function.update_of_ne haf, Function.update_of_ne hap] at hl hz ⊢
        exact h.keys a z (by omega) hl hz
  · intro a ha hl
    simp only [State.to] at ha hl ⊢
    by_cases haf : a = s.fresh
    · subst haf
      simp only [Function.update_self, Function.update_of_ne hfp]
      exact hsD
    · by_cases hap : a = p
      · subst hap
        simp only [Function.update_self]
        exact hsT
      · simp only [Function.update_of_ne haf, Function.update_of_ne hap] at hl ⊢
        exact h.sorted a (by omega) hl
  · -- kid
    intro a q ha hl hq
    simp only [State.to] at ha hl hq ⊢
    by_cases haf : a = s.fresh
    · subst haf
      rw [Function.update_of_ne hfp, Function.update_self] at hq
      have := hdrop q hq
      rw [if_pos hq]
      exact ⟨by omega, rfl⟩
    · by_cases hap : a = p
      · subst hap
        rw [Function.update_self] at hq
        have := htake q hq
        rw [if_neg (hdis q hq)]
        refine ⟨by omega, ?_⟩
        by_cases hqc : q = c
        · rw [if_pos hqc]
        · rw [if_neg hqc, if_neg (hold q this.1)]
          exact this.2.resolve_left hqc
      · rw [Function.update_of_ne haf] at hl
        rw [Function.update_of_ne hap, Function.update_of_ne haf] at hq
        have := hkids a q (by omega) hl hap hq
        rw [if_neg this.2.2.2.1, if_neg this.2.1, if_neg (hold q this.1)]
        exact ⟨by omega, this.2.2.2.2⟩
  · intro a ha hl
    simp only [State.to] at ha hl ⊢
    by_cases haf : a = s.fresh
    · subst haf
      simp only [Function.update_self, Function.update_of_ne hfp]
      exact hndD
    · by_cases hap : a = p
      · subst hap
        simp only [Function.update_self]
        exact hndT
      · simp only [Function.update_of_ne haf, Function.update_of_ne hap] at hl ⊢
        exact h.nodup a (by omega) hl
  · have := h.rt
    clear hmono hframe h hgl hgh hdis hdrop htake hndT hndD hsT hsD hkT hkD hkids; heavy
  · have := h.val
    clear hmono hframe h hgl hgh hdis hdrop htake hndT hndD hsT hsD hkT hkD hkids; heavy
  · have := h.dom
    clear hmono hframe h hgl hgh hdis hdrop htake hndT hndD hsT hsD hkT hkD hkids; heavy
  · -- disj
    rw [hp]
    intro a b k h1 h2 h3 h4 h5 h6 h7 h8 h9 h10 h11
    simp only [State.to] at *
    have haf : a ≠ s.fresh := by rintro rfl; rw [Function.update_self] at h4; cases h4
    have hbf : b ≠ s.fresh := by rintro rfl; rw [Function.update_self] at h5; cases h5
    rw [Function.update_of_ne haf] at h4 h6 h8
    rw [Function.update_of_ne hbf] at h5 h7 h10
    have hap : a ≠ p := by rintro rfl; rw [a2] at h4; cases h4
    have hbp : b ≠ p := by rintro rfl; rw [a2] at h5; cases h5
    rw [Function.update_of_ne hap, Function.update_of_ne haf] at h9
    rw [Function.update_of_ne hbp, Function.update_of_ne hbf] at h11
    by_cases hP : (PC.mod (G := G) p n c x t).Pre ∧ (PC.mod (G := G) p n c x t).Owns a ∧ (PC.mod (G := G) p n c x t).Owns b
    · refine Or.inl ⟨hP.1, ?_, ?_⟩
      · rcases hP.2.1 with e | e | e | e <;> simp_all [PC.Owns]
      · rcases hP.2.2 with e | e | e | e <;> simp_all [PC.Owns]
    · exact Or.inr ⟨by omega, by omega, h6, h7, ⟨k, h8, h9, h10, h11⟩, hP⟩
  · have := h.last
    clear hmono hframe h hgl hgh hdis hdrop htake hndT hndD hsT hsD hkT hkD hkids; heavy
  · have := h.next
    clear hmono hframe h hgl hgh hdis hdrop htake hndT hndD hsT hsD hkT hkD hkids; heavy

end Verif.Prune
