import Verif.Range.Forward

/-!
# Reverse scans
-/
namespace Verif.Range

variable {V : Type}

/-- Everything from `c` on is covered, which is everything from the key of the scan on, or all but that at the beginning. -/
def From (h : Hist V) (b : Nat) (want : V → Bool) (a t : Nat) (s : St V) (c : Nat) : Prop :=
  (∀ p, c ≤ p → Cov h false b want a t s.out p) ∧ (c ≤ s.ka ∨ s.ub = true ∧ c = s.ka + 1 ∧ s.ka % 16 ≠ 0)

/-- What holds during a reverse scan from position `b` that began at time `a`. -/
def Rev (h : Hist V) (b : Nat) (want : V → Bool) (a t : Nat) (s : St V) : Prop :=
  Visits h false b want a t s.ka s.out ∧ s.ka ≤ b ∧ b < 16 * 2 ^ 64 ∧
  (s.ub = true → s.out = [] ∧ b = 16 * 2 ^ 64 - 1 ∧ ∀ v, want v = true) ∧
  match s.pc with
  | .walk true => s.ka = b ∧ s.out = [] ∧ s.ub = false
  | .walk false => ∃ c, From h b want a t s c
  | .node true n vi vs => s.ka = b ∧ s.out = [] ∧ s.ub = false ∧ h.Has t n vi vs ∧ h.lo t n ≤ b / 16 ∧
      (h.Ok t n vi vs → b / 16 < h.hi t n)
  | .node false n vi vs => ∃ c, From h b want a t s c ∧ h.Has t n vi vs ∧ 16 * h.lo t n ≤ s.ka ∧
      (h.Ok t n vi vs → c ≤ 16 * h.hi t n)
  | .init n vi vs u K => s.ka = b ∧ s.out = [] ∧ s.ub = false ∧ h.Has t n vi vs ∧ h.Since u t n vi vs ∧ a ≤ u ∧
      h.lo t n ≤ b / 16 ∧ (h.Ok t n vi vs → h.Perm u n K ∧ b / 16 < h.hi u n)
  | .scan n vi vs u K ki => ∃ c, From h b want a t s c ∧ h.Has t n vi vs ∧ h.Since u t n vi vs ∧ a ≤ u ∧
      16 * h.lo t n ≤ s.ka ∧
      (h.Ok t n vi vs → h.Perm u n K ∧ c ≤ 16 * h.hi u n ∧ ki < K.length ∧
        ∀ (j p : Nat), ki < (j : Int) → K[j]? = some p → c ≤ p)
  | .next n => h.leaf t n ∧ 16 * h.lo t n ≤ s.ka ∧ ∀ p, 16 * h.lo t n ≤ p → Cov h false b want a t s.out p
  | .move n => ∃ c, From h b want a t s c ∧ h.leaf t n ∧ 16 * h.lo t n ≤ s.ka
  | .check n vi vs _ => ∃ c, From h b want a t s c ∧ h.Has t n vi vs ∧ 16 * h.lo t n ≤ s.ka
  | .fin => ∀ p, Cov h false b want a t s.out p

variable {h : Hist V} {b : Nat} {want : V → Bool} {a t : Nat}

theorem From.succ {s : St V} {c : Nat} (hf : From h b want a t s c) : From h b want a (t + 1) s c :=
  ⟨fun p hp => (hf.1 p hp).succ, hf.2⟩

theorem Rev.begin {s : St V} (hb : Begin false b want s) : Rev h b want a a s := by
  have hv : Visits h false b want a a b [] := ⟨Nat.le_refl _, by simp, by simp, by simp⟩
  cases hb with
  | first hb => exact ⟨hv, Nat.le_refl _, by omega, by simp, rfl, rfl, rfl⟩
  | down hf => cases hf
  | downReverse hf hb hw =>
    refine ⟨hv, Nat.le_refl _, by omega, fun _ => ⟨rfl, by omega, hw⟩, b + 1,
      fun p hp => Or.inr ⟨a, Nat.le_refl _, Nat.le_refl _, fun v _ hn => ?_⟩, Or.inr ⟨rfl, rfl, ?_⟩⟩
    · rcases hn with hn | hn
      · simp only [Bool.false_eq_true, if_false] at hn; omega
      · omega
    · dsimp only; omega

theorem Rev.wait (hs : h.Sound) {s : St V} (hf : Rev h b want a t s) : Rev h b want a (t + 1) s := by
  obtain ⟨pc, ka, ub, out⟩ := s
  obtain ⟨h1, h2, h3, h3', h4⟩ := hf
  refine ⟨h1.succ, h2, h3, h3', ?_⟩
  cases pc with
  | walk first =>
    cases first with
    | true => exact h4
    | false => exact h4.imp fun c hc => hc.succ
  | node first n vi vs =>
    cases first with
    | true =>
      obtain ⟨h5, h6, h6', h7, h8, h9⟩ := h4
      refine ⟨h5, h6, h6', h7.succ hs, by rw [hs.lo _ _ h7.leaf]; exact h8, fun ho => ?_⟩
      obtain ⟨h10, h11⟩ := hs.back t n vi vs h7.leaf h7.ins h7.spl ho
      have := h9 h10
      omega
    | false =>
      obtain ⟨c, h5, h6, h7, h8⟩ := h4
      refine ⟨c, h5.succ, h6.succ hs, by rw [hs.lo _ _ h6.leaf]; exact h7, fun ho => ?_⟩
      obtain ⟨h10, h11⟩ := hs.back t n vi vs h6.leaf h6.ins h6.spl ho
      have := h8 h10
      omega
  | init n vi vs u K =>
    obtain ⟨h5, h6, h6', h7, h8, h9, h10, h11⟩ := h4
    exact ⟨h5, h6, h6', h7.succ hs, h8.succ hs h7, h9, by rw [hs.lo _ _ h7.leaf]; exact h10,
      fun ho => h11 (hs.back t n vi vs h7.leaf h7.ins h7.spl ho).1⟩
  | scan n vi vs u K ki =>
    obtain ⟨c, h5, h6, h7, h8, h9, h10⟩ := h4
    exact ⟨c, h5.succ, h6.succ hs, h7.succ hs h6, h8, by rw [hs.lo _ _ h6.leaf]; exact h9,
      fun ho => h10 (hs.back t n vi vs h6.leaf h6.ins h6.spl ho).1⟩
  | next n =>
    obtain ⟨h5, h6, h7⟩ := h4
    refine ⟨hs.leaf _ _ h5, ?_⟩
    rw [hs.lo _ _ h5]
    exact ⟨h6, fun p hp => (h7 p hp).succ⟩
  | move n =>
    obtain ⟨c, h5, h6, h7⟩ := h4
    exact ⟨c, h5.succ, hs.leaf _ _ h6, by rw [hs.lo _ _ h6]; exact h7⟩
  | check n vi vs d =>
    obtain ⟨c, h5, h6, h7⟩ := h4
    exact ⟨c, h5.succ, h6.succ hs, by rw [hs.lo _ _ h6.leaf]; exact h7⟩
  | fin => exact fun p => (h4 p).succ

/-- Everything above the next entry of the leaf is covered. -/
theorem Rev.above (hs : h.Sound) {n vi vs u q c : Nat} {K : List Nat} {ki : Int} {out : List (Nat × V)}
    (h5 : ∀ p, c ≤ p → Cov h false b want a t out p) (h7 : h.Since u t n vi vs) (h8 : a ≤ u) (ho : h.Ok t n vi vs)
    (hp : h.Perm u n K) (hc : c ≤ 16 * h.hi u n) (hj : ∀ (j p : Nat), ki < (j : Int) → K[j]? = some p → c ≤ p)
    (hq : ∀ (j p : Nat), (j : Int) ≤ ki → K[j]? = some p → p < q) (hh : 16 * h.lo t n ≤ q) :
    ∀ p, q ≤ p → Cov h false b want a t out p := by
  intro p hpq
  by_cases hpc : c ≤ p
  · exact h5 p hpc
  obtain ⟨hleaf, hlo'⟩ := h7.leaf u (Nat.le_refl _) h7.le
  have hok := (h7.ok ho u (Nat.le_refl _) h7.le).1
  by_cases hm : p ∈ K
  · obtain ⟨j, hj'⟩ := List.mem_iff_getElem?.1 hm
    by_cases hjk : ki < (j : Int)
    · have := hj j p hjk hj'; omega
    · have := hq j p (by omega) hj'; omega
  · refine Cov.none h8 h7.le (hs.entry_none hleaf hok.2.2.2 (by omega) (by omega) ?_)
    by_contra hne
    exact hm ((hp.2 p).2 hne)

theorem not_wanted_above {p : Nat} {v : V} (hp : b < p) : ¬ Wanted false b want p v := by
  rintro (hn | hn)
  · simp only [Bool.false_eq_true, if_false] at hn; omega
  · omega

theorem Rev.step (hs : h.Sound) {s s' : St V} (hf : Rev h b want a t s) (hn : Step h false want t s s') :
    Rev h b want a t s' := by
  obtain ⟨h1, h2, h3, h3', h4⟩ := hf
  cases hn with
  | @reach ka ub out first n vi vs hw =>
    obtain ⟨w1, w2, w3, w4, w5⟩ := hs.walk _ _ _ _ _ hw
    refine ⟨h1, h2, h3, h3', ?_⟩
    cases first with
    | true =>
      obtain ⟨h5, h6, h6'⟩ := h4
      dsimp only at h5
      subst h5
      exact ⟨rfl, h6, h6', ⟨w1, w3, w4⟩, w2, w5⟩
    | false =>
      obtain ⟨c, h5⟩ := h4
      refine ⟨c, h5, ⟨w1, w3, w4⟩, by dsimp only; omega, fun ho => ?_⟩
      have := w5 ho
      have := h5.2
      dsimp only at this
      omega
  | permFirst n vi vs K hK =>
    obtain ⟨h5, h6, h6', h7, h8, h9⟩ := h4
    exact ⟨h1, h2, h3, h3', h5, h6, h6', h7, .refl h7.leaf, h1.le, h8, fun ho => ⟨hK ho, h9 ho⟩⟩
  | @emitFirst ka ub out n vi vs u w K v ho hk hu hv hw =>
    obtain ⟨h5, h6, h6', h7, h8, h9, h10, h11⟩ := h4
    dsimp only at h5 h6 h6'
    subst h5 h6 h6'
    obtain ⟨hp, hhi⟩ := h11 ho
    obtain ⟨hwl, _⟩ := h8.leaf w hu.1 hu.2
    have hwo := (h8.ok ho w hu.1 hu.2).1
    have hev := hs.entry_val hwl hwo.2.2.2 hv
    have hm := lowerBy_mem hp.1 hk
    refine ⟨h1.emit (Or.inr ⟨rfl, hw⟩) (by simp) (by omega) hu.2 hev.1, Nat.le_refl _, h3, by simp, ka, ⟨fun p hp => ?_, Or.inl (Nat.le_refl _)⟩,
      h7, h8, h9, by dsimp only; omega, fun _ => ⟨hp, by omega, ?_, fun j p hj hp' => ?_⟩⟩
    · by_cases hpk : p = ka
      · subst hpk; exact Or.inl ⟨v, by simp⟩
      · exact Or.inr ⟨a, Nat.le_refl _, h1.le, fun v' _ => not_wanted_above (by omega)⟩
    · have := (List.getElem?_eq_some_iff.1 hm).1
      simp only [nextKi, Bool.false_eq_true, if_false]; omega
    · simp only [nextKi, Bool.false_eq_true, if_false] at hj
      exact (lowerBy_spec hp.1 ka).2 j p (by omega) hp'
  | @skipFirst ka ub out n vi vs u w K v ho hk hu hv hw =>
    obtain ⟨h5, h6, h6', h7, h8, h9, h10, h11⟩ := h4
    dsimp only at h5 h6 h6'
    subst h5 h6 h6'
    obtain ⟨hp, hhi⟩ := h11 ho
    obtain ⟨hwl, _⟩ := h8.leaf w hu.1 hu.2
    have hwo := (h8.ok ho w hu.1 hu.2).1
    have hev := hs.entry_val hwl hwo.2.2.2 hv
    have hm := lowerBy_mem hp.1 hk
    refine ⟨h1, Nat.le_refl _, h3, by simp, ka, ⟨fun p hp => ?_, Or.inl (Nat.le_refl _)⟩, h7, h8, h9, by dsimp only; omega,
      fun _ => ⟨hp, by omega, ?_, fun j p hj hp' => ?_⟩⟩
    · refine Or.inr ⟨w, by omega, hu.2, fun v' hv' hn => ?_⟩
      by_cases hpk : p = ka
      · subst hpk
        rcases hn with hn | ⟨_, hn⟩
        · simp at hn
        · rw [hev.1] at hv'; cases hv'; rw [hw] at hn; cases hn
      · exact not_wanted_above (by omega) hn
    · have := (List.getElem?_eq_some_iff.1 hm).1
      simp only [nextKi, Bool.false_eq_true, if_false]; omega
    · simp only [nextKi, Bool.false_eq_true, if_false] at hj
      exact (lowerBy_spec hp.1 ka).2 j p (by omega) hp'
  | @noFirst ka ub out n vi vs u K ho hk =>
    obtain ⟨h5, h6, h6', h7, h8, h9, h10, h11⟩ := h4
    dsimp only at h5 h6 h6'
    subst h5 h6 h6'
    obtain ⟨hp, hhi⟩ := h11 ho
    obtain ⟨hul, hlo⟩ := h8.leaf u (Nat.le_refl _) h8.le
    have huo := (h8.ok ho u (Nat.le_refl _) h8.le).1
    have hle : lowerBy K ka ≤ K.length := List.countP_le_length
    refine ⟨h1, Nat.le_refl _, h3, by simp, ka, ⟨fun p hpk => ?_, Or.inl (Nat.le_refl _)⟩, h7, h8, h9, by dsimp only; omega,
      fun _ => ⟨hp, by omega, by simp only [Bool.false_eq_true, if_false]; omega, fun j p hj hp' => ?_⟩⟩
    · by_cases hpk' : p = ka
      · subst hpk'
        refine Cov.none h9 h8.le (hs.entry_none hul huo.2.2.2 (by omega) hhi ?_)
        by_contra hne
        exact hk ((hp.2 p).2 hne)
      · exact Or.inr ⟨a, Nat.le_refl _, h1.le, fun v' _ => not_wanted_above (by omega)⟩
    · simp only [Bool.false_eq_true, if_false] at hj
      exact (lowerBy_spec hp.1 ka).2 j p (by omega) hp'
  | againFirst n vi vs u K =>
    obtain ⟨h5, h6, h6', _⟩ := h4
    exact ⟨h1, h2, h3, h3', h5, h6, h6'⟩
  | @perm ka ub out n vi vs K ki hK =>
    obtain ⟨c, h5, h6, h7, h8⟩ := h4
    refine ⟨h1, h2, h3, h3', c, h5, h6, .refl h6.leaf, h1.le, h7, fun ho => ?_⟩
    obtain ⟨hp, rfl⟩ := hK ho
    have hle : lowerBy K ka ≤ K.length := List.countP_le_length
    refine ⟨hp, h8 ho, ?_, fun j p hj hp' => ?_⟩
    · simp only [lower, Bool.false_eq_true, if_false]
      split
      · omega
      · split
        · have := (List.getElem?_eq_some_iff.1 (lowerBy_mem hp.1 ‹ka ∈ K›)).1; omega
        · omega
    · have hj' := (List.getElem?_eq_some_iff.1 hp').1
      simp only [lower, Bool.false_eq_true, if_false] at hj
      have h5' := h5.2
      dsimp only at h5'
      split at hj
      · omega
      · have hck : c ≤ ka := by
          rcases h5' with h5' | h5'
          · exact h5'
          · exact absurd h5'.1 ‹_›
        have := (lowerBy_spec hp.1 ka).2 j p (by split at hj <;> omega) hp'
        omega
  | @skip ka ub out n vi vs u p K ki ho hk hd =>
    obtain ⟨c, h5, h6, h7, h8, h9, h10⟩ := h4
    refine ⟨h1, h2, h3, h3', c, h5, h6, h7, h8, h9, fun _ => ?_⟩
    obtain ⟨hp, hc, hki, hj⟩ := h10 ho
    obtain ⟨hki', hk⟩ := kp_some hk
    simp only [dup, Bool.false_eq_true, if_false, Bool.and_eq_true, decide_eq_true_eq, Bool.not_eq_true'] at hd
    refine ⟨hp, hc, by simp only [nextKi, Bool.false_eq_true, if_false]; omega, fun j q hjk hq => ?_⟩
    simp only [nextKi, Bool.false_eq_true, if_false] at hjk
    by_cases hjk' : ki < (j : Int)
    · exact hj j q hjk' hq
    · rw [show ki.toNat = j by omega, hq] at hk
      cases hk
      have h5' := h5.2
      dsimp only at h5'
      rcases h5' with h5' | h5'
      · omega
      · rw [hd.2] at h5'; cases h5'.1
  | @emit ka ub out n vi vs u w p K ki v ho hk hd hu hv =>
    obtain ⟨c, h5, h6, h7, h8, h9, h10⟩ := h4
    obtain ⟨hp, hc, hki, hj⟩ := h10 ho
    obtain ⟨hki', hk⟩ := kp_some hk
    obtain ⟨hwl, hwlo⟩ := h7.leaf w hu.1 hu.2
    have hwo := (h7.ok ho w hu.1 hu.2).1
    have hev := hs.entry_val hwl hwo.2.2.2 hv
    have hpk : p < ka ∨ ub = true := by
      simp only [dup, Bool.false_eq_true, if_false, Bool.and_eq_false_iff, decide_eq_false_iff_not, Bool.not_eq_false'] at hd
      rcases hd with hd | hd
      · exact Or.inl (by omega)
      · exact Or.inr hd
    dsimp only at h2 h3' h9
    have htop := hs.top w n hwl
    have hpb : p < b ∨ p = b ∧ ub = true := by
      rcases hpk with h11 | h11
      · omega
      · have := (h3' h11).2.1
        by_cases hpb : p = b
        · exact Or.inr ⟨hpb, h11⟩
        · exact Or.inl (by omega)
    obtain ⟨hul, hlo⟩ := h7.leaf u (Nat.le_refl _) h7.le
    have huo := (h7.ok ho u (Nat.le_refl _) h7.le).1
    have hpu : p / 16 < h.hi u n := by
      have := (hp.2 p).1 (List.mem_of_getElem? hk)
      obtain ⟨v', hv'⟩ := Option.ne_none_iff_exists'.1 this
      exact (hs.entry_val hul huo.2.2.2 hv').2.2
    have habove := Rev.above hs h5.1 h7 h8 ho hp hc hj (q := p + 1) (fun j q hjk hq => by
      by_cases hjk' : (j : Int) = ki
      · rw [show ki.toNat = j by omega, hq] at hk; cases hk; omega
      · have := sorted_getElem hp.1 hq hk (by omega); omega) (by omega)
    have hka := h1.ka
    refine ⟨h1.emit ?_ (fun q v' hq => ?_) (by omega) hu.2 hev.1, by dsimp only; omega, h3, by simp, p,
      ⟨fun q hq => ?_, Or.inl (Nat.le_refl _)⟩, h6, h7, h8, by dsimp only; omega,
      fun _ => ⟨hp, by omega, by simp only [nextKi, Bool.false_eq_true, if_false]; omega, fun j q hjk hq => ?_⟩⟩
    · rcases hpb with h11 | ⟨h11, h12⟩
      · exact Or.inl (by simpa using h11)
      · exact Or.inr ⟨h11, (h3' h12).2.2 v⟩
    · have := hka q v' hq
      simp only [Bool.false_eq_true, if_false] at this ⊢
      rcases hpk with h11 | h11
      · omega
      · rw [(h3' h11).1] at hq; cases hq
    · by_cases hqp : q = p
      · subst hqp; exact Or.inl ⟨v, by simp⟩
      · exact (habove q (by omega)).cons _
    · simp only [nextKi, Bool.false_eq_true, if_false] at hjk
      by_cases hjk' : (j : Int) = ki
      · rw [show ki.toNat = j by omega, hq] at hk; cases hk; exact Nat.le_refl _
      · exact Nat.le_of_lt (sorted_getElem hp.1 hk hq (by omega))
  | @exhausted ka ub out n vi vs u K ki ho hk =>
    obtain ⟨c, h5, h6, h7, h8, h9, h10⟩ := h4
    obtain ⟨hp, hc, hki, hj⟩ := h10 ho
    refine ⟨h1, h2, h3, h3', h6.leaf, h9, ?_⟩
    have hneg : ki < 0 := by
      by_contra hge
      unfold kp at hk
      rw [if_pos (by omega)] at hk
      have := List.getElem?_eq_none_iff.1 hk
      omega
    exact Rev.above hs h5.1 h7 h8 ho hp hc hj (fun j q hjk hq => by omega) (Nat.le_refl _)
  | changed n vi vs u K ki =>
    obtain ⟨c, h5, h6, h7, h8, h9, h10⟩ := h4
    exact ⟨h1, h2, h3, h3', c, h5, h6.leaf, h9⟩
  | forward n r hf => cases hf
  | forwardEnd n hf => cases hf
  | backward n r hf hn hl =>
    obtain ⟨h5, h6, h7⟩ := h4
    dsimp only at h2 h6
    refine ⟨⟨h1.le, h1.ord, fun p v hp => ?_, h1.val⟩, by dsimp only; omega, h3, h3', 16 * h.lo t n, ⟨h7, Or.inl (Nat.le_refl _)⟩, hn,
      by dsimp only; omega⟩
    have := h1.ka p v hp
    simp only [Bool.false_eq_true, if_false] at this ⊢
    omega
  | backwardEnd n hf hn =>
    obtain ⟨h5, h6, h7⟩ := h4
    rw [hn] at h7
    exact ⟨h1, h2, h3, by simp, fun p => h7 p (by omega)⟩
  | stable n hf => cases hf
  | stableR n hf hc =>
    obtain ⟨c, h5, h6, h7⟩ := h4
    exact ⟨h1, h2, h3, h3', c, h5, ⟨h6, Nat.le_refl _, Nat.le_refl _⟩, h7⟩
  | @stay ka ub out n vi vs d hn =>
    obtain ⟨c, h5, h6, h7⟩ := h4
    cases d with
    | true => exact ⟨h1, h2, h3, h3', c, h5⟩
    | false =>
      refine ⟨h1, h2, h3, h3', c, h5, h6, h7, fun _ => ?_⟩
      have h5' := h5.2
      dsimp only at h5' h2
      cases hnx : h.next t n with
      | none => rw [hs.last t n h6.leaf hnx]; omega
      | some r =>
        have := (hs.next t n r h6.leaf hnx).2
        have := hn r hnx
        omega
  | right n vi vs r d hn hk =>
    obtain ⟨c, h5, h6, h7⟩ := h4
    exact ⟨h1, h2, h3, h3', c, h5, (hs.next t n r h6.leaf hn).1, by dsimp only; omega⟩

theorem Rev.scan (hs : h.Sound) {s : St V} (hx : Scan h false b want a t s) : Rev h b want a t s := by
  induction hx with
  | begin hb => exact .begin hb
  | wait _ ih => exact ih.wait hs
  | step _ hn ih => exact ih.step hs hn

end Verif.Range
