import Verif.Prune.SplitKid

/-!
# Unlinking a leaf
-/
namespace Verif.Prune

variable {G : Type}

set_option maxHeartbeats 1000000 in
theorem inv_unlink {s : State G} (h : Inv s) (i n q : Nat) (hp : s.pc i = .ulk n) (hq : q < s.fresh) (hl : s.leaf q = true)
    (hg : s.gone q = false) (hn : s.next q = some n) :
    Inv ((s.unlink q n).to i (.rpar n none (s.lo n))) ∧ Mono s ((s.unlink q n).to i (.rpar n none (s.lo n))) := by
  have hloc := h.loc i
  have hlck := h.lck i
  have hown := h.own i
  rw [hp] at hloc hlck hown
  obtain ⟨a1, a2, a3, a4, a5, a6, a7⟩ := hloc
  have hln := hown n rfl
  obtain ⟨v1, v2, v3⟩ := h.live n a1 a2 a4
  have hrn := h.rng n a1
  have hbd : s.bd n = s.hi n := by
    rcases h.skew n a1 with h1 | h1
    · exact h1
    · rw [holder_of hln, hp] at h1; exact h1.elim
  -- no other leaf overlaps
  have hno : ∀ a k, a < s.fresh → a ≠ n → s.leaf a = true → s.gone a = false → s.lo a ≤ k → k < s.hi a → s.lo n ≤ k →
      k < s.hi n → False := by
    intro a k e1 e2 e3 e8 e4 e5 e6 e7
    have := (h.disj n a k a1 e1 (fun e => e2 e.symm) a2 e3 a4 e8 e6 e7 e4 e5).2.2
    rw [holder_of hln, hp] at this
    exact this
  have hend : ∀ a, a < s.fresh → a ≠ n → s.leaf a = true → s.gone a = false → s.lo n ≤ s.hi a → s.hi a ≤ s.hi n →
      s.hi a = s.lo n := by
    intro a e1 e2 e3 e4 e5 e6
    by_contra hne
    have := h.live a e1 e3 e4
    exact hno a (max (s.lo a) (s.lo n)) e1 e2 e3 e4 (by omega) (by omega) (by omega) (by omega)
  have hbeg : ∀ a, a < s.fresh → a ≠ n → s.leaf a = true → s.gone a = false → s.lo n ≤ s.lo a → s.lo a ≤ s.hi n →
      s.lo a = s.hi n := by
    intro a e1 e2 e3 e4 e5 e6
    by_contra hne
    have := h.live a e1 e3 e4
    exact hno a (s.lo a) e1 e2 e3 e4 (by omega) (by omega) (by omega) (by omega)
  generalize hu : (fun v => if s.lo n ≤ v ∧ v ≤ s.hi n then s.hi n else v) = u
  have hu1 : ∀ v, s.lo n ≤ v → v ≤ s.hi n → u v = s.hi n := by
    intro v h1 h2; subst hu; simp [h1, h2]
  have hu2 : ∀ v, ¬ (s.lo n ≤ v ∧ v ≤ s.hi n) → u v = v := by
    intro v h1; subst hu; simp only [h1, if_false]
  have hle : ∀ v, v ≤ u v := by
    intro v
    by_cases hv : s.lo n ≤ v ∧ v ≤ s.hi n
    · rw [hu1 v hv.1 hv.2]; exact hv.2
    · rw [hu2 v hv]; exact Nat.le_refl _
  have hmon : ∀ v w, v ≤ w → u v ≤ u w := by
    intro v w hvw
    by_cases hv : s.lo n ≤ v ∧ v ≤ s.hi n
    · rw [hu1 v hv.1 hv.2]
      by_cases hw : s.lo n ≤ w ∧ w ≤ s.hi n
      · rw [hu1 w hw.1 hw.2]; exact Nat.le_refl _
      · rw [hu2 w hw]; omega
    · rw [hu2 v hv]; exact Nat.le_trans hvw (hle w)
  have hutop : u top = top := by
    by_cases hv : s.lo n ≤ top ∧ top ≤ s.hi n
    · rw [hu1 _ hv.1 hv.2]; omega
    · rw [hu2 _ hv]
  have hu3 : ∀ v, v ≤ top → u v ≤ top := fun v hv => by rw [← hutop]; exact hmon v top hv
  have hs' : s.unlink q n = { s with
    next := Function.update s.next q (s.next n)
    gone := Function.update s.gone n true
    hi := fun a => u (s.hi a)
    bd := fun a => u (s.bd a)
    elo := fun a => u (s.elo a) } := by subst hu; rfl
  rw [hs']
  clear hs' hu
  have hlive : ∀ a, Function.update s.gone n true a = false → a ≠ n ∧ s.gone a = false := by
    intro a ha
    by_cases han : a = n
    · subst han; rw [Function.update_self] at ha; cases ha
    · rw [Function.update_of_ne han] at ha; exact ⟨han, ha⟩
  have hext : ∀ a k, a < s.fresh → a ≠ n → s.leaf a = true → s.gone a = false → k < u (s.hi a) → s.hi a ≤ k →
      s.hi a = s.lo n ∧ s.lo n ≤ k ∧ k < s.hi n := by
    intro a k e1 e2 e3 e4 e5 e6
    by_cases hv : s.lo n ≤ s.hi a ∧ s.hi a ≤ s.hi n
    · rw [hu1 _ hv.1 hv.2] at e5
      have := hend a e1 e2 e3 e4 hv.1 hv.2
      exact ⟨this, by omega, e5⟩
    · rw [hu2 _ hv] at e5; omega
  have hmono : Mono s (State.to { s with
    next := Function.update s.next q (s.next n)
    gone := Function.update s.gone n true
    hi := fun a => u (s.hi a)
    bd := fun a => u (s.bd a)
    elo := fun a => u (s.elo a) } i (.rpar n none (s.lo n))) :=
    ⟨Nat.le_refl _, fun _ _ => rfl, fun _ _ => rfl, fun _ _ => Nat.le_refl _, fun _ _ => Nat.le_refl _,
      fun _ _ _ h => ⟨h, rfl, hle _⟩, fun _ _ h _ _ => h, fun _ _ _ _ _ _ _ h => ⟨h, hle _⟩⟩
  have hframe : Frame i u s (State.to { s with
    next := Function.update s.next q (s.next n)
    gone := Function.update s.gone n true
    hi := fun a => u (s.hi a)
    bd := fun a => u (s.bd a)
    elo := fun a => u (s.elo a) } i (.rpar n none (s.lo n))) := by
    have hne : ∀ a j, s.lock a = some j → j ≠ i → a ≠ n :=
      fun a j h1 h2 e => by subst e; rw [hln] at h1; exact h2 (Option.some.inj h1).symm
    exact { pc := fun j hj => by simp only [State.to, Function.update_of_ne hj]
            key := fun _ _ => rfl
            base := fun _ _ => rfl
            le := hle
            dI := fun _ _ _ _ => rfl
            dS := fun _ _ _ _ => rfl
            dead := fun _ _ _ _ => rfl
            gone := fun a j h1 h2 => by simp only [State.to, Function.update_of_ne (hne a j h1 h2)]
            items := fun _ _ _ _ => rfl
            hi := fun _ _ _ _ => rfl
            bd := fun _ _ _ _ => rfl
            elo := fun _ _ _ _ => rfl
            next := fun a c j h1 h2 h3 h4 => by
              have haq : a ≠ q := by
                rintro rfl
                rw [hn] at h4
                exact hne c j h2 h3 (Option.some.inj h4).symm
              simp only [State.to, Function.update_of_ne haq]; exact h4
            loose := fun _ _ _ _ h => h
            parent := fun _ _ _ _ _ _ h => ⟨h, rfl, rfl⟩ }
  have hnq := (h.next q n hq hl hn).2.2 hg
  refine ⟨inv_heavy (x := .rpar n none (s.lo n)) h hmono hframe (by simp [State.to]) (by simp [hp]) rfl rfl rfl ?_ ?_
    (fun _ _ _ => Iff.rfl) h.dirty h.alloc ?_ ?_ ?_ ?_ ?_ h.parent ?_ h.deadNode ?_ h.sorted h.kid h.nodup ?_ ?_ ?_ ?_ ?_ ?_, hmono⟩
  · -- loc
    refine ⟨a1, a3, a6, ?_, fun _ => ?_⟩
    · show u (s.elo n) = u (s.bd n)
      rw [hu1 _ (by omega) (by omega), hu1 _ (by omega) (by omega)]
    · show Function.update s.gone n true n = true
      rw [Function.update_self]
  · intro a
    exact ⟨hlck a, fun e => by subst e; exact hln⟩
  · intro a ha
    have := h.rng a ha
    exact ⟨hmon _ _ this.1, hmon _ _ this.2.1, hu3 _ this.2.2.1, hu3 _ this.2.2.2⟩
  · intro a ha hla hga
    obtain ⟨g1, g2⟩ := hlive a hga
    obtain ⟨w1, w2, w3⟩ := h.live a ha hla g2
    refine ⟨?_, Nat.lt_of_lt_of_le w2 (hle _), Nat.lt_of_lt_of_le w3 (hle _)⟩
    show u (s.elo a) = s.lo a
    rw [w1]
    by_cases hv : s.lo n ≤ s.lo a ∧ s.lo a ≤ s.hi n
    · rw [hu1 _ hv.1 hv.2, hbeg a ha g1 hla g2 hv.1 hv.2]
    · rw [hu2 _ hv]
  · intro a ha hga
    by_cases han : a = n
    · subst han
      refine ⟨a2, a3, ?_⟩
      show u (s.elo a) = u (s.bd a)
      rw [hu1 _ (by omega) (by omega), hu1 _ (by omega) (by omega)]
    · simp only [State.to, Function.update_of_ne han] at hga
      obtain ⟨w1, w2, w3⟩ := h.gone a ha hga
      exact ⟨w1, w2, congrArg u w3⟩
  · intro a ha
    exact Or.inr (Or.inr ⟨ha, rfl, rfl, by rw [hp]; exact id⟩)
  · intro a ha hpa
    refine Or.inr (Or.inr ⟨ha, hpa, fun e => ?_, by rw [hp]; exact id⟩)
    show u (s.bd a) = top
    rw [e, hutop]
  · intro a ha hla hda
    exact (h.node a ha hla hda).congr u hle fun c _ => ⟨rfl, rfl, rfl⟩
  · intro a z ha hla hz
    have := h.keys a z ha hla hz
    exact ⟨this.1, Nat.lt_of_lt_of_le this.2 (hle _)⟩
  · intro a ha h1 h2 h3
    show u (s.hi a) = top
    rw [h.rt a ha h1 h2 h3, hutop]
  · intro a k ha hla hga h1 h2
    obtain ⟨g1, g2⟩ := hlive a hga
    change k < u (s.hi a) at h2
    show s.items a k = s.m k
    by_cases hk : k < s.hi a
    · exact h.val a k ha hla g2 h1 hk
    · obtain ⟨e1, e2, e3⟩ := hext a k ha g1 hla g2 h2 (by omega)
      rw [← h.val n k a1 a2 a4 e2 e3, a7]
      by_contra hne
      exact hk (h.dom a k ha hla g2 hne).2
  · intro a k ha hla hga hi
    obtain ⟨g1, g2⟩ := hlive a hga
    have := h.dom a k ha hla g2 hi
    exact ⟨this.1, Nat.lt_of_lt_of_le this.2 (hle _)⟩
  · -- disj
    intro a b k h1 h2 h3 h4 h5 h6 h7 h8 h9 h10 h11
    obtain ⟨g1, g2⟩ := hlive a h6
    obtain ⟨g3, g4⟩ := hlive b h7
    change k < u (s.hi a) at h9
    change k < u (s.hi b) at h11
    change s.lo a ≤ k at h8
    change s.lo b ≤ k at h10
    refine Or.inr ⟨h1, h2, g2, g4, ?_, by rw [hp]; exact fun e => e.1⟩
    have hla := h.live a h1 h4 g2
    have hlb := h.live b h2 h5 g4
    by_cases ka : k < s.hi a
    · by_cases kb : k < s.hi b
      · exact ⟨k, h8, ka, h10, kb⟩
      · obtain ⟨e1, e2, e3⟩ := hext b k h2 g3 h5 g4 h11 (by omega)
        exact (hno a k h1 g1 h4 g2 h8 ka e2 e3).elim
    · obtain ⟨e1, e2, e3⟩ := hext a k h1 g1 h4 g2 h9 (by omega)
      by_cases kb : k < s.hi b
      · exact (hno b k h2 g3 h5 g4 h10 kb e2 e3).elim
      · obtain ⟨f1, f2, f3⟩ := hext b k h2 g3 h5 g4 h11 (by omega)
        exact ⟨s.lo n - 1, by omega, by omega, by omega, by omega⟩
  · intro a ha hla hga hna
    obtain ⟨g1, g2⟩ := hlive a hga
    show u (s.hi a) = top
    by_cases haq : a = q
    · subst haq
      simp only [State.to, Function.update_self] at hna
      have h1 := h.last n a1 a2 a4 hna
      have h2 := (h.rng a ha).2.2.2
      rw [hu1 _ hnq (by omega), h1]
    · simp only [State.to, Function.update_of_ne haq] at hna
      rw [h.last a ha hla g2 hna, hutop]
  · intro a r ha hla hna
    by_cases haq : a = q
    · subst haq
      simp only [State.to, Function.update_self] at hna
      obtain ⟨e1, e2, e3⟩ := h.next n r a1 a2 hna
      refine ⟨e1, e2, fun hga => ?_⟩
      have e4 := e3 a4
      show s.lo r ≤ u (s.hi a)
      by_cases hv : s.hi a ≤ s.hi n
      · rw [hu1 _ hnq hv]; exact e4
      · have := hle (s.hi a); omega
    · simp only [State.to, Function.update_of_ne haq] at hna
      obtain ⟨e1, e2, e3⟩ := h.next a r ha hla hna
      exact ⟨e1, e2, fun hga => Nat.le_trans (e3 (hlive a hga).2) (hle _)⟩

end Verif.Prune
