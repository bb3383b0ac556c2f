import Verif.Prune.Wedge

/-!
# Inserting a child
-/
namespace Verif.Prune

variable {G : Type}

/-- A child that is split can be inserted into its parent. -/
theorem with_kid {up : List Nat → Nat → Nat} (hu : Counts up) {s : State G} (h : Inv s) {p n c x : Nat} {bd' : Nat → Nat}
    (hj : (s.kids p)[up (s.keys p) x]? = some (some n)) (hx : x ∉ s.keys p) (hp : p < s.fresh) (hl : s.leaf p = false)
    (hO : s.Open n c x) (hb : ∀ q, bd' q = if q = n then s.elo c else s.bd q) :
    Node s.lo s.elo bd' (s.lo p) (s.elo p) (s.hi p) (s.keysWith up p x) (s.kidsWith up p c x) ∧
    (s.keysWith up p x).Pairwise (· < ·) ∧ (∀ z, z ∈ s.keysWith up p x → 0 < z ∧ z < s.hi p) ∧
    (s.kidsWith up p c x).Nodup ∧ (∀ q, q ∈ s.kidsWith up p c x ↔ q = some c ∨ q ∈ s.kids p) := by
  obtain ⟨⟨p1, p2, p3, p4, p5, p6, p7, p8⟩, q1, q2⟩ := hO
  have hd := h.alive hp hl hj
  have hg := h.node p hp hl hd
  have hnd := h.nodup p hp hl
  have hsrt := h.sorted p hp hl
  have hc : some c ∉ s.kids p := fun hc => by
    have := (h.kid p c hp hl hc).2
    rw [q2] at this; cases this
  have hlen : up (s.keys p) x < (s.kids p).length := (List.getElem?_eq_some_iff.mp hj).1
  have hlen2 : up (s.keys p) x ≤ (s.keys p).length := by
    have := hg.length
    omega
  have hord := (hg.order (fun q hq => (h.rng q (h.kid p q hp hl hq).1).1)).2 n (mem_of_get hj)
  refine ⟨hg.insert hj hnd hc hb q1 p5 p6 p4, ?_, fun z hz => ?_, nodup_insert hnd (by omega) hc, fun q => ?_⟩
  · unfold State.keysWith
    rw [hu _ _ hsrt]
    exact sorted_insert hsrt hx
  · unfold State.keysWith at hz
    rw [List.mem_insertIdx hlen2] at hz
    rcases hz with rfl | hz
    · exact ⟨p4, by omega⟩
    · exact h.keys p z hp hl hz
  · unfold State.kidsWith
    rw [List.mem_insertIdx (by omega)]

local macro "heavy" : tactic => `(tactic|
  ((try simp only [State.to, State.insertKid, Function.update_apply, PC.Owns, PC.Skew, PC.Loose, PC.Pre, State.Loc, State.In,
      State.Target, State.Pair, State.Open, State.clean, State.Level, State.Above, id] at *) <;> grind))

set_option maxHeartbeats 1000000 in
theorem inv_insertKid {up : List Nat → Nat → Nat} (hu : Counts up) {s : State G} (h : Inv s) (ht : Tidy up s) (i p n c x : Nat)
    (t : Option Nat) (hp : s.pc i = .mod p n c x t) :
    Inv ((s.insertKid up p n c x).to i (.fin (some p) none n c x t)) ∧
    Mono s ((s.insertKid up p n c x).to i (.fin (some p) none n c x t)) := by
  obtain ⟨hj, hx⟩ := ht.mod i p n c x t hp
  have hloc := h.loc i
  have hlck := h.lck i
  have hown := h.own i
  rw [hp] at hloc hlck hown
  obtain ⟨h0, h1, _, _, ⟨a1, a2⟩, _⟩ := hloc
  obtain ⟨b1, b2, b3, b4, b5, b6⟩ := halves h h0 h1
  obtain ⟨hg, hgs, hgk, hgd, hgm⟩ := with_kid hu h (bd' := Function.update s.bd n (s.elo c)) hj hx a1 a2 h0
    (fun q => by simp only [Function.update_apply])
  clear h0 h1
  have hloc := h.loc i
  rw [hp] at hloc
  obtain ⟨⟨⟨p1, p2, p3, p4, p5, p6, p7, p8⟩, q1, q2⟩, q3, q4, q5, ⟨a1, a2⟩, q6, q7, q8, q9, q10⟩ := hloc
  have hlp := hown p (by simp [PC.Owns])
  have hln := hown n (by simp [PC.Owns])
  have hlc := hown c (by simp [PC.Owns])
  have hal := h.alive a1 a2 hj
  have hmono : Mono s ((s.insertKid up p n c x).to i (.fin (some p) none n c x t)) := by
    refine ⟨Nat.le_refl _, ?_, ?_, ?_, ?_, ?_, ?_, ?_⟩ <;> (clear h hg hgs hgk hgd hgm ht; heavy)
  have hframe : Frame i id s ((s.insertKid up p n c x).to i (.fin (some p) none n c x t)) := by
    refine ⟨?_, fun _ _ => rfl, fun _ _ => rfl, fun _ => Nat.le_refl _, ?_, ?_, ?_, ?_, ?_, ?_, ?_, ?_, ?_, ?_, ?_⟩ <;>
      (clear h hmono hg hgs hgk hgd hgm ht; heavy)
  -- children of other nodes
  have hother : ∀ a q, a < s.fresh → s.leaf a = false → some q ∈ s.kids a → q < s.fresh ∧ q ≠ c ∧ (a ≠ p → q ≠ n) ∧
      s.parent q = some a := by
    intro a q ha hl hq
    have := h.kid a q ha hl hq
    refine ⟨this.1, ?_, ?_, this.2⟩
    · rintro rfl; rw [q2] at this; cases this.2
    · rintro hne rfl; rw [q9] at this; exact hne (Option.some.inj this.2).symm
  refine ⟨inv_heavy (x := .fin (some p) none n c x t) h hmono hframe (by simp [State.to]) (by simp [hp]) rfl rfl rfl ?_ ?_ ?_ h.dirty
    h.alloc ?_ ?_ ?_ ?_ ?_ ?_ ?_ ?_ ?_ ?_ ?_ ?_ h.rt h.val h.dom ?_ h.last h.next, hmono⟩
  · clear hmono hframe h hother hg hgs hgk hgd hgm ht
    cases t with
    | none => heavy
    | some t => heavy
  · clear hmono hframe h hother hg hgs hgk hgd hgm ht; heavy
  · clear hmono hframe h hother hg hgs hgk hgd hgm ht; heavy
  · have := h.rng
    clear hmono hframe h hother hg hgs hgk hgd hgm ht; heavy
  · have := h.live
    clear hmono hframe h hother hg hgs hgk hgd hgm ht; heavy
  · have := h.gone
    clear hmono hframe h hother hg hgs hgk hgd hgm ht; heavy
  · rw [hp]
    clear hmono hframe h hother hg hgs hgk hgd hgm ht; heavy
  · rw [hp]
    clear hmono hframe h hother hg hgs hgk hgd hgm ht; heavy
  · have := h.parent
    clear hmono hframe h hother hg hgs hgk hgd hgm ht; heavy
  · intro a ha hl hd
    by_cases hap : a = p
    · subst hap; simpa [State.to, State.insertKid] using hg
    · simp only [State.to, State.insertKid, Function.update_of_ne hap] at *
      refine (h.node a ha hl hd).congr_id fun q hq => ?_
      rw [Function.update_of_ne ((hother a q ha hl hq).2.2.1 hap)]
      simp
  · intro a ha hl hd
    by_cases hap : a = p
    · subst hap
      change s.dead a = true at hd
      rw [hal] at hd; cases hd
    · simp only [State.to, State.insertKid, Function.update_of_ne hap] at *
      exact h.deadNode a ha hl hd
  · intro a z ha hl hz
    by_cases hap : a = p
    · subst hap
      simp only [State.to, State.insertKid, Function.update_self] at *
      exact hgk z hz
    · simp only [State.to, State.insertKid, Function.update_of_ne hap] at *
      exact h.keys a z ha hl hz
  · intro a ha hl
    by_cases hap : a = p
    · subst hap; simpa [State.to, State.insertKid] using hgs
    · simp only [State.to, State.insertKid, Function.update_of_ne hap] at *
      exact h.sorted a ha hl
  · intro a q ha hl hq
    by_cases hap : a = p
    · subst hap
      simp only [State.to, State.insertKid, Function.update_self] at *
      rw [hgm] at hq
      rcases hq with hq | hq
      · cases hq; exact ⟨p2, by rw [Function.update_self]⟩
      · have := hother a q ha hl hq
        rw [Function.update_of_ne this.2.1]
        exact ⟨this.1, this.2.2.2⟩
    · simp only [State.to, State.insertKid, Function.update_of_ne hap] at *
      have := hother a q ha hl hq
      rw [Function.update_of_ne this.2.1]
      exact ⟨this.1, this.2.2.2⟩
  · intro a ha hl
    by_cases hap : a = p
    · subst hap; simpa [State.to, State.insertKid] using hgd
    · simp only [State.to, State.insertKid, Function.update_of_ne hap] at *
      exact h.nodup a ha hl
  · -- disj
    rw [hp]
    intro a b k h1 h2 h3 h4 h5 h6 h7 h8 h9 h10 h11
    by_cases hP : (PC.mod (G := G) p n c x t).Pre ∧ (PC.mod (G := G) p n c x t).Owns a ∧ (PC.mod (G := G) p n c x t).Owns b
    · clear hmono hframe h hother hg hgs hgk hgd hgm ht
      heavy
    · exact Or.inr ⟨h1, h2, h6, h7, ⟨k, h8, h9, h10, h11⟩, hP⟩

end Verif.Prune
