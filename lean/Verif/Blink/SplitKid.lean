import Verif.Blink.Insert

/-!
# Inserting a child into a full internode
-/
namespace Verif.Blink

variable {G : Type}

local macro "heavy" : tactic => `(tactic|
  ((try simp only [State.to, State.splitKid, Function.update_apply, PC.Owns, PC.Half, PC.Loose, PC.Pre, State.Loc, State.In,
      State.Target, State.Pair, State.Open, State.clean, State.Level, State.Above, Option.map_some, Option.some.injEq] at *) <;>
    grind))

set_option maxHeartbeats 2000000 in
theorem inv_splitKid {s : State G} (h : Inv s) (i p n c x mid y : Nat) (t : Option Nat) (hp : s.pc i = .mod p n c x t)
    (hy : (s.keysWith p x)[mid]? = some y) :
    Inv ((s.splitKid i p n c x mid y).to i (.fin (some p) (some (s.fresh, y)) n c x t)) := by
  have hloc := h.loc i
  have hlck := h.lck i
  have hown := h.own i
  rw [hp] at hloc hlck hown
  obtain ⟨hO, q3, q4, q5, ⟨a1, a2, a3⟩, q6, q7, q8, q9, q10⟩ := hloc
  have hO' := hO
  obtain ⟨⟨p1, p2, p3, p4, p5, p6, p7, p8, p9, p10⟩, q1, q2⟩ := hO'
  have hlp := hown p (by simp [PC.Owns])
  have hln := hown n (by simp [PC.Owns])
  have hlc := hown c (by simp [PC.Owns])
  have hlf := h.alloc s.fresh (Nat.le_refl _)
  have hs := h.slot n p p1 q9
  have hrng := h.rng n p1
  have hrngp := h.rng p a1
  have hchip := h.chi p a1 a3
  have hphip : s.phi p = s.hi p := by
    rcases h.phi p a1 with h1 | h1
    · exact h1
    · rw [holder_of hlp, hp] at h1; exact h1.elim
  obtain ⟨hg, hgr, hgm⟩ := with_kid h q9 q2 hO
  obtain ⟨y1, y2, hgl, hgh, hrl, hrh, hdis⟩ := hg.split hy
  have hold : ∀ q, q < s.fresh → q ≠ s.fresh := fun q hq => by omega
  have htl : t ≠ some s.fresh := by
    rintro rfl
    exact absurd q3.2.2.2.1 (Nat.lt_irrefl _)
  -- the children with `c` added
  have hmem : ∀ q, q ∈ s.kidsWith p c x → q < s.fresh ∧ (q = c ∨ s.parent q = some p) := by
    intro q hq
    rcases (hgm q).mp hq with rfl | hq
    · exact ⟨p2, Or.inl rfl⟩
    · have := h.kid p q a1 a2 hq
      exact ⟨this.1, Or.inr this.2⟩
  have hdrop : ∀ q, q ∈ (s.kidsWith p c x).drop (mid + 1) → q < s.fresh ∧ (q = c ∨ s.parent q = some p) :=
    fun q hq => hmem q (List.mem_of_mem_drop hq)
  have htake : ∀ q, q ∈ (s.kidsWith p c x).take (mid + 1) → q < s.fresh ∧ (q = c ∨ s.parent q = some p) :=
    fun q hq => hmem q (List.mem_of_mem_take hq)
  have hnd : s.fresh ∉ (s.kidsWith p c x).drop (mid + 1) := fun hq => absurd (hdrop _ hq).1 (Nat.lt_irrefl _)
  have hslotW : ∀ a, a < s.fresh → (a = c ∨ s.parent a = some p) → ∀ k, s.lo a ≤ k → k < Function.update s.phi n x a →
      s.lo p ≤ k ∧ k < s.chi p ∧ routeOf (s.keysWith p x) (s.kidsWith p c x) k = a := by
    intro a ha hb k h1 h2
    rw [hgr]
    have hsa := h.slot a p ha
    have hsn := h.slot n p p1 q9 k
    rw [Function.update_apply] at h2
    clear h hg hgr hgm hgl hgh hrl hrh hdis
    grind
  have hrngW : ∀ k, s.lo p ≤ k → k < s.chi p →
      s.lo (routeOf (s.keysWith p x) (s.kidsWith p c x) k) ≤ k ∧
      k < Function.update s.phi n x (routeOf (s.keysWith p x) (s.kidsWith p c x) k) := by
    intro k h1 h2
    rw [hgr]
    have hk := h.kidRng p k a1 a2 h1 h2
    rw [Function.update_apply]
    clear h hg hgr hgm hgl hgh hrl hrh hdis
    grind
  -- which side a child is on
  have hleft : ∀ k, s.lo p ≤ k → k < y → routeOf (s.keysWith p x) (s.kidsWith p c x) k ∉ (s.kidsWith p c x).drop (mid + 1) := by
    intro k _ h2
    rw [← hrl k h2]
    exact hdis _ (hgl.route_mem k)
  have hright : ∀ k, y ≤ k → routeOf (s.keysWith p x) (s.kidsWith p c x) k ∈ (s.kidsWith p c x).drop (mid + 1) := by
    intro k h2
    rw [← hrh k h2]
    exact hgh.route_mem k
  generalize hD : (s.kidsWith p c x).drop (mid + 1) = D at *
  generalize hT : (s.kidsWith p c x).take (mid + 1) = T at *
  have hs' : s.splitKid i p n c x mid y = { s with
    leaf := Function.update s.leaf s.fresh false
    lock := Function.update s.lock s.fresh (some i)
    ins := Function.update s.ins s.fresh (s.ins p)
    spl := Function.update s.spl s.fresh (s.spl p)
    dI := Function.update s.dI s.fresh (s.dI p)
    dS := Function.update (Function.update s.dS s.fresh (s.dS p)) p true
    rt := Function.update s.rt s.fresh false
    parent := fun q => if q ∈ D then some s.fresh else if q = c then some p else if q = s.fresh then none else s.parent q
    keys := Function.update (Function.update s.keys s.fresh ((s.keysWith p x).drop (mid + 1))) p ((s.keysWith p x).take mid)
    kids := Function.update (Function.update s.kids s.fresh D) p T
    lo := Function.update s.lo s.fresh y
    hi := Function.update s.hi s.fresh (s.hi p)
    phi := Function.update (Function.update s.phi s.fresh (s.hi p)) n x
    chi := Function.update (Function.update s.chi s.fresh (s.hi p)) p y
    fresh := s.fresh + 1 } := by
    unfold State.splitKid; rw [hD, hT]
  rw [hs']
  generalize hW : routeOf (s.keysWith p x) (s.kidsWith p c x) = W at *
  generalize hK1 : (s.keysWith p x).drop (mid + 1) = K1 at *
  generalize hK2 : (s.keysWith p x).take mid = K2 at *
  clear hs' hD hT hW hK1 hK2 hg hgr hgm hy
  have hpf := hold p a1
  have hnf := hold n p1
  have hcf := hold c p2
  generalize hS : ({ s with
    leaf := Function.update s.leaf s.fresh false
    lock := Function.update s.lock s.fresh (some i)
    ins := Function.update s.ins s.fresh (s.ins p)
    spl := Function.update s.spl s.fresh (s.spl p)
    dI := Function.update s.dI s.fresh (s.dI p)
    dS := Function.update (Function.update s.dS s.fresh (s.dS p)) p true
    rt := Function.update s.rt s.fresh false
    parent := fun q => if q ∈ D then some s.fresh else if q = c then some p else if q = s.fresh then none else s.parent q
    keys := Function.update (Function.update s.keys s.fresh K1) p K2
    kids := Function.update (Function.update s.kids s.fresh D) p T
    lo := Function.update s.lo s.fresh y
    hi := Function.update s.hi s.fresh (s.hi p)
    phi := Function.update (Function.update s.phi s.fresh (s.hi p)) n x
    chi := Function.update (Function.update s.chi s.fresh (s.hi p)) p y
    fresh := s.fresh + 1 } : State G) = S
  have hmono : Mono s (S.to i (.fin (some p) (some (s.fresh, y)) n c x t)) := by
    subst hS
    refine ⟨Nat.le_succ _, ?_, ?_, ?_, ?_, ?_, ?_⟩ <;>
      (clear h hgl hgh hrl hrh hdis hleft hright hslotW hrngW hmem hdrop htake; heavy)
  have hframe : Frame i s (S.to i (.fin (some p) (some (s.fresh, y)) n c x t)) := by
    subst hS
    have hal := h.alloc
    refine ⟨?_, fun _ _ => rfl, fun _ _ => rfl, ?_, ?_, ?_, ?_, ?_, ?_, ?_, ?_⟩ <;>
      (clear h hmono hgl hgh hrl hrh hdis hleft hright hslotW hrngW hmem htake; heavy)
  have hkids : ∀ a q, a < s.fresh → s.leaf a = false → a ≠ p → q ∈ s.kids a → q < s.fresh ∧ q ≠ c ∧ q ≠ n ∧ q ∉ D ∧
      s.parent q = some a := by
    intro a q ha hl hap hq
    have := h.kid a q ha hl hq
    clear hmono hframe hgl hgh hrl hrh hdis hleft hright hslotW hrngW
    grind
  refine inv_heavy (x := .fin (some p) (some (s.fresh, y)) n c x t) h hmono hframe (by simp [State.to]) (by simp [hp])
    (by subst hS; rfl) (by subst hS; rfl) (by subst hS; rfl) ?_ ?_ ?_ ?_ ?_ ?_ ?_
    ?_ ?_ ?_ ?_ ?_ ?_ ?_ ?_ ?_ ?_ ?_ ?_ ?_ ?_
  all_goals subst hS
  · clear hmono hframe h hgl hgh hrl hrh hdis hleft hright hslotW hrngW hmem hdrop htake hkids
    cases t with
    | none => heavy
    | some t => heavy
  · clear hmono hframe h hgl hgh hrl hrh hdis hleft hright hslotW hrngW hmem hdrop htake hkids; heavy
  · clear hmono hframe h hgl hgh hrl hrh hdis hleft hright hslotW hrngW hmem hdrop htake hkids; heavy
  · have := h.dirty
    clear hmono hframe h hgl hgh hrl hrh hdis hleft hright hslotW hrngW hmem hdrop htake hkids; heavy
  · have := h.alloc
    clear hmono hframe h hgl hgh hrl hrh hdis hleft hright hslotW hrngW hmem hdrop htake hkids; heavy
  · have := h.rng
    clear hmono hframe h hgl hgh hrl hrh hdis hleft hright hslotW hrngW hmem hdrop htake hkids; heavy
  · have := h.leafChi
    clear hmono hframe h hgl hgh hrl hrh hdis hleft hright hslotW hrngW hmem hdrop htake hkids; heavy
  · have := h.chi
    clear hmono hframe h hgl hgh hrl hrh hdis hleft hright hslotW hrngW hmem hdrop htake hkids; heavy
  · rw [hp]
    clear hmono hframe h hgl hgh hrl hrh hdis hleft hright hslotW hrngW hmem hdrop htake hkids; heavy
  · rw [hp]
    clear hmono hframe h hgl hgh hrl hrh hdis hleft hright hslotW hrngW hmem htake hkids; heavy
  · have := h.parent
    clear hmono hframe h hgl hgh hrl hrh hdis hleft hright hslotW hrngW hmem hdrop htake hkids; heavy
  · -- slot
    intro a b ha hb k h1 h2
    simp only [State.to] at ha hb h1 h2 ⊢
    by_cases haf : a = s.fresh
    · subst haf
      rw [if_neg hnd, if_neg (fun e => hcf e.symm), if_pos rfl] at hb
      cases hb
    · have ha' : a < s.fresh := by omega
      rw [Function.update_of_ne haf] at h1
      have h2' : k < Function.update s.phi n x a := by
        simp only [Function.update_apply] at h2 ⊢
        simpa [haf] using h2
      by_cases hD : a ∈ D
      · rw [if_pos hD] at hb
        cases hb
        obtain ⟨w1, w2, w3⟩ := hslotW a ha' (hdrop a hD).2 k h1 h2'
        have hyk : y ≤ k := by
          by_contra hc
          have := hleft k w1 (by omega)
          rw [w3] at this; exact this hD
        rw [Function.update_self, Function.update_of_ne (fun e => hpf e.symm), Function.update_of_ne (fun e => hpf e.symm),
          Function.update_of_ne (fun e => hpf e.symm), Function.update_self, Function.update_self, Function.update_self,
          hrh k hyk]
        exact ⟨hyk, by omega, w3⟩
      · rw [if_neg hD] at hb
        by_cases hbp : b = p
        · subst hbp
          have hab : a = c ∨ s.parent a = some b := by
            by_cases hac : a = c
            · exact Or.inl hac
            · rw [if_neg hac, if_neg haf] at hb; exact Or.inr hb
          obtain ⟨w1, w2, w3⟩ := hslotW a ha' hab k h1 h2'
          have hyk : k < y := by
            by_contra hc
            have := hright k (by omega)
            rw [w3] at this; exact hD this
          rw [Function.update_of_ne hpf, Function.update_self, Function.update_self, Function.update_self, hrl k hyk]
          exact ⟨w1, hyk, w3⟩
        · have hac : a ≠ c := by
            rintro rfl; rw [if_pos rfl] at hb; exact hbp (Option.some.inj hb).symm
          rw [if_neg hac, if_neg haf] at hb
          have hbf := hold b (h.parent a b ha' hb).1
          have han : a ≠ n := by
            rintro rfl; rw [q9] at hb; exact hbp (Option.some.inj hb).symm
          rw [Function.update_of_ne han] at h2'
          rw [Function.update_of_ne hbf, Function.update_of_ne hbp, Function.update_of_ne hbp, Function.update_of_ne hbp,
            Function.update_of_ne hbf, Function.update_of_ne hbf, Function.update_of_ne hbf]
          exact h.slot a b ha' hb k h1 h2'
  · -- good
    intro a ha hl
    simp only [State.to] at ha hl ⊢
    by_cases haf : a = s.fresh
    · subst haf
      rw [Function.update_self, Function.update_of_ne (fun e => hpf e.symm), Function.update_of_ne (fun e => hpf e.symm),
        Function.update_of_ne (fun e => hpf e.symm), Function.update_self, Function.update_self, Function.update_self, ← hchip]
      exact hgh
    · by_cases hap : a = p
      · subst hap
        rw [Function.update_of_ne hpf, Function.update_self, Function.update_self, Function.update_self]
        exact hgl
      · rw [Function.update_of_ne haf] at hl
        rw [Function.update_of_ne haf, Function.update_of_ne hap, Function.update_of_ne hap, Function.update_of_ne hap,
          Function.update_of_ne haf, Function.update_of_ne haf, Function.update_of_ne haf]
        exact h.good a (by omega) hl
  · -- kid
    intro a q ha hl hq
    simp only [State.to] at ha hl hq ⊢
    by_cases haf : a = s.fresh
    · subst haf
      rw [Function.update_of_ne (fun e => hpf e.symm), Function.update_self] at hq
      have := hdrop q hq
      rw [if_pos hq]
      exact ⟨by omega, rfl⟩
    · by_cases hap : a = p
      · subst hap
        rw [Function.update_self] at hq
        have := htake q hq
        rw [if_neg (hdis q hq)]
        refine ⟨by omega, ?_⟩
        by_cases hqc : q = c
        · rw [if_pos hqc]
        · rw [if_neg hqc, if_neg (hold q this.1)]
          exact this.2.resolve_left hqc
      · rw [Function.update_of_ne haf] at hl
        rw [Function.update_of_ne hap, Function.update_of_ne haf] at hq
        have := hkids a q (by omega) hl hap hq
        rw [if_neg this.2.2.2.1, if_neg this.2.1, if_neg (hold q this.1)]
        exact ⟨by omega, this.2.2.2.2⟩
  · -- kidRng
    intro a k ha hl h1 h2
    simp only [State.to] at ha hl h1 h2 ⊢
    have hphi : ∀ q, q < s.fresh → Function.update (Function.update s.phi s.fresh (s.hi p)) n x q = Function.update s.phi n x q := by
      intro q hq
      have := hold q hq
      simp [Function.update_apply, this]
    by_cases haf : a = s.fresh
    · subst haf
      rw [Function.update_self] at h1
      rw [Function.update_of_ne (fun e => hpf e.symm), Function.update_self] at h2
      rw [Function.update_of_ne (fun e => hpf e.symm), Function.update_of_ne (fun e => hpf e.symm), Function.update_self,
        Function.update_self, hrh k h1]
      have hq := (hdrop _ (hright k h1)).1
      rw [hphi _ hq, Function.update_of_ne (hold _ hq)]
      exact hrngW k (by omega) (by omega)
    · by_cases hap : a = p
      · subst hap
        rw [Function.update_of_ne hpf] at h1
        rw [Function.update_self] at h2
        rw [Function.update_self, Function.update_self, hrl k h2]
        have hq : W k < s.fresh := by
          rw [← hrl k h2]; exact (htake _ (hgl.route_mem k)).1
        rw [hphi _ hq, Function.update_of_ne (hold _ hq)]
        exact hrngW k h1 (by omega)
      · rw [Function.update_of_ne haf] at hl h1
        rw [Function.update_of_ne hap, Function.update_of_ne haf] at h2
        rw [Function.update_of_ne hap, Function.update_of_ne haf, Function.update_of_ne hap, Function.update_of_ne haf]
        have := hkids a _ (by omega) hl hap ((h.good a (by omega) hl).route_mem k)
        rw [hphi _ this.1, Function.update_of_ne this.2.2.1, Function.update_of_ne (hold _ this.1)]
        exact h.kidRng a k (by omega) hl h1 h2
  · have := h.rt
    clear hmono hframe h hgl hgh hrl hrh hdis hleft hright hslotW hrngW hmem hdrop htake hkids; heavy
  · have := h.val
    clear hmono hframe h hgl hgh hrl hrh hdis hleft hright hslotW hrngW hmem hdrop htake hkids; heavy
  · have := h.dom
    clear hmono hframe h hgl hgh hrl hrh hdis hleft hright hslotW hrngW hmem hdrop htake hkids; heavy
  · -- disj
    rw [hp]
    intro a b k h1 h2 h3 h4 h5 h6 h7 h8 h9
    clear hmono hframe h hgl hgh hrl hrh hdis hleft hright hslotW hrngW hmem hdrop htake hkids
    heavy
  · have := h.last
    clear hmono hframe h hgl hgh hrl hrh hdis hleft hright hslotW hrngW hmem hdrop htake hkids; heavy
  · have := h.next
    clear hmono hframe h hgl hgh hrl hrh hdis hleft hright hslotW hrngW hmem hdrop htake hkids; heavy

end Verif.Blink
