import Verif.Range.Sound

/-!
# Forward scans
-/
namespace Verif.Range

variable {V : Type}

/-- What holds during a forward scan from position `b` that began at time `a`. -/
def Fwd (h : Hist V) (b : Nat) (want : V → Bool) (a t : Nat) (s : St V) : Prop :=
  Visits h true b want a t s.ka s.out ∧ s.ub = false ∧ b ≤ s.ka ∧
  match s.pc with
  | .walk true => s.ka = b ∧ s.out = []
  | .walk false => ∀ p, p ≤ s.ka → Cov h true b want a t s.out p
  | .node true n vi vs => s.ka = b ∧ s.out = [] ∧ h.Has t n vi vs ∧ h.lo t n ≤ b / 16 ∧ (h.Ok t n vi vs → b / 16 < h.hi t n)
  | .node false n vi vs => (∀ p, p ≤ s.ka → Cov h true b want a t s.out p) ∧ h.Has t n vi vs ∧
      ∀ p, p < 16 * h.lo t n → Cov h true b want a t s.out p
  | .init n vi vs u K => s.ka = b ∧ s.out = [] ∧ h.Has t n vi vs ∧ h.Since u t n vi vs ∧ a ≤ u ∧ h.lo t n ≤ b / 16 ∧
      (h.Ok t n vi vs → h.Perm u n K ∧ b / 16 < h.hi u n)
  | .scan n vi vs u K ki => (∀ p, p ≤ s.ka → Cov h true b want a t s.out p) ∧ h.Has t n vi vs ∧ h.Since u t n vi vs ∧ a ≤ u ∧
      (∀ p, p < 16 * h.lo t n → Cov h true b want a t s.out p) ∧
      (h.Ok t n vi vs → h.Perm u n K ∧ 0 ≤ ki ∧ ∀ (j p : Nat), (j : Int) < ki → K[j]? = some p → p ≤ s.ka)
  | .next n => (∀ p, p ≤ s.ka → Cov h true b want a t s.out p) ∧ h.leaf t n ∧
      ∀ p, p < 16 * h.hi t n → Cov h true b want a t s.out p
  | .move n => (∀ p, p ≤ s.ka → Cov h true b want a t s.out p) ∧ h.leaf t n ∧
      ∀ p, p < 16 * h.lo t n → Cov h true b want a t s.out p
  | .check _ _ _ _ => False
  | .fin => (∀ p, p ≤ s.ka → Cov h true b want a t s.out p) ∧ ∀ p, p < 16 * 2 ^ 64 → Cov h true b want a t s.out p

variable {h : Hist V} {b : Nat} {want : V → Bool} {a t : Nat}

theorem Fwd.begin {s : St V} (hb : Begin true b want s) : Fwd h b want a a s := by
  have hv : Visits h true b want a a b [] := ⟨Nat.le_refl _, by simp, by simp, by simp⟩
  cases hb with
  | first hb => exact ⟨hv, rfl, Nat.le_refl _, rfl, rfl⟩
  | down hf hb hw =>
    refine ⟨hv, rfl, Nat.le_refl _, fun p hp => Or.inr ⟨a, Nat.le_refl _, Nat.le_refl _, fun v _ hn => ?_⟩⟩
    dsimp only at hp
    rcases hn with hn | ⟨_, hn⟩
    · simp only [if_true] at hn; omega
    · rw [hw] at hn; cases hn
  | downReverse hf => cases hf

theorem Fwd.wait (hs : h.Sound) {s : St V} (hf : Fwd h b want a t s) : Fwd h b want a (t + 1) s := by
  obtain ⟨pc, ka, ub, out⟩ := s
  obtain ⟨h1, h2, h3, h4⟩ := hf
  refine ⟨h1.succ, h2, h3, ?_⟩
  cases pc with
  | walk first =>
    cases first with
    | true => exact h4
    | false => exact fun p hp => (h4 p hp).succ
  | node first n vi vs =>
    cases first with
    | true =>
      obtain ⟨h5, h6, h7, h8, h9⟩ := h4
      refine ⟨h5, h6, h7.succ hs, by rw [hs.lo _ _ h7.leaf]; exact h8, fun ho => ?_⟩
      obtain ⟨h10, h11⟩ := hs.back t n vi vs h7.leaf h7.ins h7.spl ho
      have := h9 h10
      omega
    | false =>
      obtain ⟨h5, h6, h7⟩ := h4
      refine ⟨fun p hp => (h5 p hp).succ, h6.succ hs, ?_⟩
      rw [hs.lo _ _ h6.leaf]
      exact fun p hp => (h7 p hp).succ
  | init n vi vs u K =>
    obtain ⟨h5, h6, h7, h8, h9, h10, h11⟩ := h4
    exact ⟨h5, h6, h7.succ hs, h8.succ hs h7, h9, by rw [hs.lo _ _ h7.leaf]; exact h10,
      fun ho => h11 (hs.back t n vi vs h7.leaf h7.ins h7.spl ho).1⟩
  | scan n vi vs u K ki =>
    obtain ⟨h5, h6, h7, h8, h9, h10⟩ := h4
    refine ⟨fun p hp => (h5 p hp).succ, h6.succ hs, h7.succ hs h6, h8, ?_, fun ho => h10 (hs.back t n vi vs h6.leaf h6.ins h6.spl ho).1⟩
    rw [hs.lo _ _ h6.leaf]
    exact fun p hp => (h9 p hp).succ
  | next n =>
    obtain ⟨h5, h6, h7⟩ := h4
    refine ⟨fun p hp => (h5 p hp).succ, hs.leaf _ _ h6, fun p hp => ?_⟩
    by_cases hp' : p < 16 * h.hi t n
    · exact (h7 p hp').succ
    · refine Cov.none h1.le (Nat.le_succ _) ?_
      rw [entry, hs.grow t n (p / 16) h6 (by omega) (by omega)]; rfl
  | move n =>
    obtain ⟨h5, h6, h7⟩ := h4
    refine ⟨fun p hp => (h5 p hp).succ, hs.leaf _ _ h6, ?_⟩
    rw [hs.lo _ _ h6]
    exact fun p hp => (h7 p hp).succ
  | check n vi vs d => exact h4
  | fin => exact ⟨fun p hp => (h4.1 p hp).succ, fun p hp => (h4.2 p hp).succ⟩

theorem lowerBy_spec {K : List Nat} (hK : K.Pairwise (· < ·)) (ka : Nat) :
    (∀ (j p : Nat), j < lowerBy K ka → K[j]? = some p → p < ka) ∧
    ∀ (j p : Nat), lowerBy K ka ≤ j → K[j]? = some p → ka ≤ p := by
  unfold lowerBy
  induction K with
  | nil => simp
  | cons x K ih =>
    obtain ⟨hx, hK⟩ := List.pairwise_cons.1 hK
    obtain ⟨h1, h2⟩ := ih hK
    by_cases hlt : x < ka
    · simp only [List.countP_cons, hlt, decide_true, if_true]
      constructor
      · intro j p hj hp
        cases j with
        | zero => cases hp; exact hlt
        | succ j => exact h1 j p (by omega) hp
      · intro j p hj hp
        cases j with
        | zero => omega
        | succ j => exact h2 j p (by omega) hp
    · have hz : K.countP (· < ka) = 0 := List.countP_eq_zero.2 fun y hy => by have := hx y hy; simp; omega
      simp only [List.countP_cons, hlt, decide_false, hz]
      constructor
      · intro j p hj; simp at hj
      · intro j p _ hp
        cases j with
        | zero => cases hp; omega
        | succ j => have := hx p (List.mem_of_getElem? hp); omega

theorem lowerBy_mem {K : List Nat} (hK : K.Pairwise (· < ·)) {ka : Nat} (hm : ka ∈ K) : K[lowerBy K ka]? = some ka := by
  obtain ⟨h1, h2⟩ := lowerBy_spec hK ka
  obtain ⟨j, hj⟩ := List.mem_iff_getElem?.1 hm
  have h3 : ¬ j < lowerBy K ka := fun h3 => by have := h1 j ka h3 hj; omega
  by_cases h4 : j = lowerBy K ka
  · rw [← h4]; exact hj
  · have hjl : j < K.length := (List.getElem?_eq_some_iff.1 hj).1
    have h5 := h2 (lowerBy K ka) _ (Nat.le_refl _) (List.getElem?_eq_getElem (by omega))
    have h6 := List.pairwise_iff_getElem.1 hK (lowerBy K ka) j (by omega) hjl (by omega)
    rw [List.getElem?_eq_getElem hjl, Option.some.injEq] at hj
    omega

/-- Everything below the next entry of the leaf is covered. -/
theorem Fwd.below (hs : h.Sound) {n vi vs u ka q : Nat} {K : List Nat} {ki : Int} {out : List (Nat × V)}
    (h5 : ∀ p, p ≤ ka → Cov h true b want a t out p) (h7 : h.Since u t n vi vs) (h8 : a ≤ u)
    (h9 : ∀ p, p < 16 * h.lo t n → Cov h true b want a t out p) (ho : h.Ok t n vi vs) (hp : h.Perm u n K)
    (hj : ∀ (j p : Nat), (j : Int) < ki → K[j]? = some p → p ≤ ka)
    (hq : ∀ (j p : Nat), ki ≤ (j : Int) → K[j]? = some p → q ≤ p) (hh : q ≤ 16 * h.hi u n) :
    ∀ p, p < q → Cov h true b want a t out p := by
  intro p hpq
  by_cases hlo : p < 16 * h.lo t n
  · exact h9 p hlo
  obtain ⟨hleaf, hlo'⟩ := h7.leaf u (Nat.le_refl _) h7.le
  have hok := (h7.ok ho u (Nat.le_refl _) h7.le).1
  by_cases hm : p ∈ K
  · obtain ⟨j, hj'⟩ := List.mem_iff_getElem?.1 hm
    by_cases hjk : (j : Int) < ki
    · exact h5 p (hj j p hjk hj')
    · have := hq j p (by omega) hj'; omega
  · refine Cov.none h8 h7.le (hs.entry_none hleaf hok.2.2.2 (by omega) (by omega) ?_)
    by_contra hne
    exact hm ((hp.2 p).2 hne)

theorem kp_some {K : List Nat} {ki : Int} {p : Nat} (hk : kp K ki = some p) : 0 ≤ ki ∧ K[ki.toNat]? = some p := by
  unfold kp at hk
  split at hk
  · exact ⟨‹_›, hk⟩
  · cases hk

theorem sorted_getElem {K : List Nat} (hK : K.Pairwise (· < ·)) {i j p q : Nat} (hi : K[i]? = some p) (hj : K[j]? = some q)
    (hij : i < j) : p < q := by
  obtain ⟨h1, rfl⟩ := List.getElem?_eq_some_iff.1 hi
  obtain ⟨h2, rfl⟩ := List.getElem?_eq_some_iff.1 hj
  exact List.pairwise_iff_getElem.1 hK i j h1 h2 hij

theorem Fwd.step (hs : h.Sound) {s s' : St V} (hf : Fwd h b want a t s) (hn : Step h true want t s s') :
    Fwd h b want a t s' := by
  obtain ⟨h1, h2, h3, h4⟩ := hf
  cases hn with
  | reach first n vi vs hw =>
    obtain ⟨w1, w2, w3, w4, w5⟩ := hs.walk _ _ _ _ _ hw
    refine ⟨h1, h2, h3, ?_⟩
    cases first with
    | true =>
      obtain ⟨h5, h6⟩ := h4
      dsimp only at h5
      subst h5
      exact ⟨rfl, h6, ⟨w1, w3, w4⟩, w2, w5⟩
    | false => exact ⟨h4, ⟨w1, w3, w4⟩, fun p hp => h4 p (by dsimp only; omega)⟩
  | permFirst n vi vs K hK =>
    obtain ⟨h5, h6, h7, h8, h9⟩ := h4
    exact ⟨h1, h2, h3, h5, h6, h7, .refl h7.leaf, h1.le, h8, fun ho => ⟨hK ho, h9 ho⟩⟩
  | @emitFirst ka ub out n vi vs u w K v ho hk hu hv hw =>
    obtain ⟨h5, h6, h7, h8, h9, h10, h11⟩ := h4
    dsimp only at h5 h6
    subst h5 h6
    obtain ⟨hp, hhi⟩ := h11 ho
    obtain ⟨hwl, _⟩ := h8.leaf w hu.1 hu.2
    have hwo := (h8.ok ho w hu.1 hu.2).1
    have hev := hs.entry_val hwl hwo.2.2.2 hv
    have hcov : ∀ p, p ≤ ka → Cov h true ka want a t [(ka, v)] p := by
      intro p hp
      by_cases hpk : p = ka
      · subst hpk; exact Or.inl ⟨v, by simp⟩
      · refine Or.inr ⟨a, Nat.le_refl _, h1.le, fun v' _ hn => ?_⟩
        rcases hn with hn | hn
        · simp only [if_true] at hn; omega
        · omega
    refine ⟨h1.emit (Or.inr ⟨rfl, hw⟩) (by simp) (by omega) hu.2 hev.1, h2, h3, hcov, h7, h8, h9,
      fun p hp => hcov p (by omega), fun _ => ⟨hp, by unfold nextKi; simp; omega, fun j p hj hp' => ?_⟩⟩
    have hm := lowerBy_mem hp.1 hk
    simp only [nextKi, if_true] at hj
    by_cases hjl : j = lowerBy K ka
    · subst hjl; rw [hm] at hp'; cases hp'; exact Nat.le_refl _
    · have := (lowerBy_spec hp.1 ka).1 j p (by omega) hp'; dsimp only; omega
  | @skipFirst ka ub out n vi vs u w K v ho hk hu hv hw =>
    obtain ⟨h5, h6, h7, h8, h9, h10, h11⟩ := h4
    dsimp only at h5 h6
    subst h5 h6
    obtain ⟨hp, hhi⟩ := h11 ho
    obtain ⟨hwl, _⟩ := h8.leaf w hu.1 hu.2
    have hwo := (h8.ok ho w hu.1 hu.2).1
    have hev := hs.entry_val hwl hwo.2.2.2 hv
    have hcov : ∀ p, p ≤ ka → Cov h true ka want a t [] p := by
      intro p hp
      refine Or.inr ⟨w, by omega, hu.2, fun v' hv' hn => ?_⟩
      rcases hn with hn | ⟨rfl, hn⟩
      · simp only [if_true] at hn; omega
      · rw [hev.1] at hv'; cases hv'; rw [hw] at hn; cases hn
    refine ⟨h1, h2, h3, hcov, h7, h8, h9, fun p hp => hcov p (by omega), fun _ => ⟨hp, by unfold nextKi; simp; omega, fun j p hj hp' => ?_⟩⟩
    have hm := lowerBy_mem hp.1 hk
    simp only [nextKi, if_true] at hj
    by_cases hjl : j = lowerBy K ka
    · subst hjl; rw [hm] at hp'; cases hp'; exact Nat.le_refl _
    · have := (lowerBy_spec hp.1 ka).1 j p (by omega) hp'; dsimp only; omega
  | @noFirst ka ub out n vi vs u K ho hk =>
    obtain ⟨h5, h6, h7, h8, h9, h10, h11⟩ := h4
    dsimp only at h5 h6
    subst h5 h6
    obtain ⟨hp, hhi⟩ := h11 ho
    obtain ⟨hul, hlo⟩ := h8.leaf u (Nat.le_refl _) h8.le
    have huo := (h8.ok ho u (Nat.le_refl _) h8.le).1
    have hcov : ∀ p, p ≤ ka → Cov h true ka want a t [] p := by
      intro p hpk
      by_cases hpk' : p = ka
      · subst hpk'
        refine Cov.none h9 h8.le (hs.entry_none hul huo.2.2.2 (by omega) hhi ?_)
        by_contra hne
        exact hk ((hp.2 p).2 hne)
      · refine Or.inr ⟨a, Nat.le_refl _, h1.le, fun v' _ hn => ?_⟩
        rcases hn with hn | hn
        · simp only [if_true] at hn; omega
        · omega
    refine ⟨h1, h2, h3, hcov, h7, h8, h9, fun p hp => hcov p (by omega), fun _ => ⟨hp, by simp, fun j p hj hp' => ?_⟩⟩
    simp only [if_true] at hj
    have := (lowerBy_spec hp.1 ka).1 j p (by omega) hp'
    dsimp only; omega
  | againFirst n vi vs u K =>
    obtain ⟨h5, h6, _⟩ := h4
    exact ⟨h1, h2, h3, h5, h6⟩
  | @perm ka ub out n vi vs K ki hK =>
    obtain ⟨h5, h6, h7⟩ := h4
    refine ⟨h1, h2, h3, h5, h6, .refl h6.leaf, h1.le, h7, fun ho => ?_⟩
    obtain ⟨hp, rfl⟩ := hK ho
    refine ⟨hp, by simp [lower], fun j p hj hp' => ?_⟩
    simp only [lower, if_true] at hj
    have := (lowerBy_spec hp.1 ka).1 j p (by omega) hp'
    dsimp only; omega
  | @skip ka ub out n vi vs u p K ki ho hk hd =>
    obtain ⟨h5, h6, h7, h8, h9, h10⟩ := h4
    refine ⟨h1, h2, h3, h5, h6, h7, h8, h9, fun _ => ?_⟩
    obtain ⟨hp, hki, hj⟩ := h10 ho
    obtain ⟨_, hk⟩ := kp_some hk
    refine ⟨hp, by simp [nextKi]; omega, fun j q hjk hq => ?_⟩
    simp only [nextKi, if_true] at hjk
    by_cases hjk' : (j : Int) < ki
    · exact hj j q hjk' hq
    · rw [show ki.toNat = j by omega, hq] at hk
      cases hk
      simpa [dup] using hd
  | @emit ka ub out n vi vs u w p K ki v ho hk hd hu hv =>
    obtain ⟨h5, h6, h7, h8, h9, h10⟩ := h4
    obtain ⟨hp, hki, hj⟩ := h10 ho
    obtain ⟨_, hk⟩ := kp_some hk
    obtain ⟨hwl, _⟩ := h7.leaf w hu.1 hu.2
    have hwo := (h7.ok ho w hu.1 hu.2).1
    have hev := hs.entry_val hwl hwo.2.2.2 hv
    have hpk : ka < p := by simpa [dup] using hd
    dsimp only at h3 h5 h9 hj
    obtain ⟨hul, hlo⟩ := h7.leaf u (Nat.le_refl _) h7.le
    have huo := (h7.ok ho u (Nat.le_refl _) h7.le).1
    have hpu : p / 16 < h.hi u n := by
      have := (hp.2 p).1 (List.mem_of_getElem? hk)
      obtain ⟨v', hv'⟩ := Option.ne_none_iff_exists'.1 this
      exact (hs.entry_val hul huo.2.2.2 hv').2.2
    have hbelow := Fwd.below hs h5 h7 h8 h9 ho hp hj (q := p) (fun j q hjk hq => by
      by_cases hjk' : (j : Int) = ki
      · rw [show ki.toNat = j by omega, hq] at hk; cases hk; exact Nat.le_refl _
      · exact Nat.le_of_lt (sorted_getElem hp.1 hk hq (by omega))) (by omega)
    have hcov : ∀ q, q ≤ p → Cov h true b want a t ((p, v) :: out) q := by
      intro q hq
      by_cases hqp : q = p
      · subst hqp; exact Or.inl ⟨v, by simp⟩
      · exact (hbelow q (by omega)).cons _
    have hka := h1.ka
    refine ⟨h1.emit (Or.inl (by simp only [if_true]; omega)) (fun q v' hq => ?_) (by omega) hu.2 hev.1, rfl, by dsimp only; omega, hcov,
      h6, h7, h8, fun q hq => (h9 q hq).cons _, fun _ => ⟨hp, by simp [nextKi]; omega, fun j q hjk hq => ?_⟩⟩
    · have := hka q v' hq
      simp only [if_true] at this ⊢
      omega
    · simp only [nextKi, if_true] at hjk
      dsimp only
      by_cases hjk' : (j : Int) < ki
      · have := hj j q hjk' hq; omega
      · rw [show ki.toNat = j by omega, hq] at hk; cases hk; exact Nat.le_refl _
  | @exhausted ka ub out n vi vs u K ki ho hk =>
    obtain ⟨h5, h6, h7, h8, h9, h10⟩ := h4
    obtain ⟨hp, hki, hj⟩ := h10 ho
    refine ⟨h1, h2, h3, h5, h6.leaf, ?_⟩
    have hlen : K.length ≤ ki.toNat := by
      unfold kp at hk
      rw [if_pos hki] at hk
      exact List.getElem?_eq_none_iff.1 hk
    have hbelow := Fwd.below hs h5 h7 h8 h9 ho hp hj (q := 16 * h.hi u n) (fun j q hjk hq => by
      have := (List.getElem?_eq_some_iff.1 hq).1; omega) (Nat.le_refl _)
    -- the range may have grown since the permutation was read
    have hgrow : ∀ d, u + d ≤ t → ∀ p, p < 16 * h.hi (u + d) n → Cov h true b want a t out p := by
      intro d
      induction d with
      | zero => exact fun _ => hbelow
      | succ d ih =>
        intro hd p hp'
        by_cases hlt : p < 16 * h.hi (u + d) n
        · exact ih (by omega) p hlt
        · refine Cov.none (u := u + d) (by omega) (by omega) ?_
          rw [entry, hs.grow (u + d) n (p / 16) (h7.leaf _ (by omega) (by omega)).1 (by omega)
            (by rw [Nat.add_assoc]; omega)]
          rfl
    have := hgrow (t - u) (by have := h7.le; omega)
    rw [show u + (t - u) = t by have := h7.le; omega] at this
    exact this
  | changed n vi vs u K ki =>
    obtain ⟨h5, h6, h7, h8, h9, h10⟩ := h4
    exact ⟨h1, h2, h3, h5, h6.leaf, h9⟩
  | forward n r hf hn =>
    obtain ⟨h5, h6, h7⟩ := h4
    obtain ⟨h8, h9⟩ := hs.next t n r h6 hn
    exact ⟨h1, h2, h3, h5, h8, fun p hp => h7 p (by omega)⟩
  | forwardEnd n hf hn =>
    obtain ⟨h5, h6, h7⟩ := h4
    rw [hs.last t n h6 hn] at h7
    exact ⟨h1, h2, h3, h5, h7⟩
  | backward n r hf => cases hf
  | backwardEnd n hf => cases hf
  | stable n hf hc =>
    obtain ⟨h5, h6, h7⟩ := h4
    refine ⟨h1, h2, h3, ?_⟩
    dsimp only
    split
    · rename_i heq
      split at heq <;> cases heq
    · exact h5
    · rename_i heq
      split at heq <;> cases heq
    · rename_i heq
      split at heq <;> cases heq
      exact ⟨h5, ⟨h6, Nat.le_refl _, Nat.le_refl _⟩, h7⟩
    all_goals (rename_i heq; split at heq <;> cases heq)
  | stableR n hf => cases hf
  | stay n vi vs d hn => exact h4.elim
  | right n vi vs r d hn hk => exact h4.elim

theorem Fwd.scan (hs : h.Sound) {s : St V} (hx : Scan h true b want a t s) : Fwd h b want a t s := by
  induction hx with
  | begin hb => exact .begin hb
  | wait _ ih => exact ih.wait hs
  | step _ hn ih => exact ih.step hs hn

end Verif.Range
