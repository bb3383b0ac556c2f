import Verif.Pool.Inv

/-!
# Every step keeps the invariant of the pools
-/
namespace Verif.Pool

/-- The list of thread `t` for `n` lines is `l`. -/
def setL (L : Nat → Nat → List Nat) (t n : Nat) (l : List Nat) : Nat → Nat → List Nat :=
  fun t' n' => if t' = t ∧ n' = n then l else L t' n'

theorem setL_self (L : Nat → Nat → List Nat) (t n : Nat) (l : List Nat) : setL L t n l t n = l := if_pos ⟨rfl, rfl⟩

theorem setL_ne {L : Nat → Nat → List Nat} {t n t' n' : Nat} {l : List Nat} (h : ¬ (t' = t ∧ n' = n)) : setL L t n l t' n' = L t' n' :=
  if_neg h

theorem pop_blk {s : State} {L : Nat → Nat → List Nat} {t sz p : Nat} {l : List Nat} (hL : L t (lines sz) = p :: l)
    (hp : s.pool t (lines sz) = p) (h : Inv s L) (q m : Nat) : Blk (s.pop t sz) (setL L t (lines sz) l) q m ↔ Blk s L q m := by
  have hfree := h.free p t (lines sz) (by rw [hL]; simp)
  have hlive : (s.pop t sz).live = Function.update s.live p (some sz) := by simp [State.pop, hp]
  unfold Blk
  rw [hlive]
  by_cases hq : q = p
  · subst hq
    simp only [Function.update_self, Option.some.injEq]
    constructor
    · rintro (⟨t', ht⟩ | ⟨_, rfl, rfl⟩)
      · by_cases hc : t' = t ∧ m = lines sz
        · obtain ⟨rfl, rfl⟩ := hc
          exact Or.inl ⟨t', by rw [hL]; simp⟩
        · rw [setL_ne hc] at ht; exact Or.inl ⟨t', ht⟩
      · exact Or.inl ⟨t, by rw [hL]; simp⟩
    · rintro (⟨t', ht⟩ | ⟨sz', hs, _⟩)
      · have := h.one q t (lines sz) t' m (by rw [hL]; simp) ht
        exact Or.inr ⟨sz, rfl, this.2⟩
      · rw [hfree] at hs; cases hs
  · rw [Function.update_of_ne hq]
    refine or_congr ⟨?_, ?_⟩ Iff.rfl
    · rintro ⟨t', ht⟩
      by_cases hc : t' = t ∧ m = lines sz
      · obtain ⟨rfl, rfl⟩ := hc
        rw [setL_self] at ht
        exact ⟨t', by rw [hL]; simp [ht]⟩
      · rw [setL_ne hc] at ht; exact ⟨t', ht⟩
    · rintro ⟨t', ht⟩
      by_cases hc : t' = t ∧ m = lines sz
      · obtain ⟨rfl, rfl⟩ := hc
        rw [hL] at ht
        exact ⟨t', by rw [setL_self]; simpa [hq] using ht⟩
      · exact ⟨t', by rw [setL_ne hc]; exact ht⟩

theorem Inv.nonempty {s : State} {L : Nat → Nat → List Nat} (h : Inv s L) {t n : Nat} (hp : s.pool t n ≠ 0) :
    ∃ l, L t n = s.pool t n :: l := by
  have hc := h.chain t n
  cases hl : L t n with
  | nil => rw [hl] at hc; exact absurd hc hp
  | cons p l => rw [hl] at hc; exact ⟨l, by rw [hc.1]⟩

theorem Inv.empty {s : State} {L : Nat → Nat → List Nat} (h : Inv s L) {t n : Nat} (hp : s.pool t n = 0) : L t n = [] := by
  have hc := h.chain t n
  cases hl : L t n with
  | nil => rfl
  | cons p l => rw [hl] at hc; exact absurd (hc.1.symm.trans hp) hc.2.1

theorem inv_pop {s : State} {L : Nat → Nat → List Nat} {t sz : Nat} {l : List Nat} (h : Inv s L)
    (hL : L t (lines sz) = s.pool t (lines sz) :: l) : Inv (s.pop t sz) (setL L t (lines sz) l) := by
  have hb := pop_blk hL rfl h
  have hnd := h.nodup t (lines sz)
  rw [hL, List.nodup_cons] at hnd
  have hsub : ∀ q t' n', q ∈ setL L t (lines sz) l t' n' → q ∈ L t' n' ∧ q ≠ s.pool t (lines sz) := by
    intro q t' n' hq
    by_cases hc : t' = t ∧ n' = lines sz
    · obtain ⟨rfl, rfl⟩ := hc
      rw [setL_self] at hq
      exact ⟨by rw [hL]; simp [hq], fun hx => hnd.1 (hx ▸ hq)⟩
    · rw [setL_ne hc] at hq
      refine ⟨hq, fun hx => ?_⟩
      have := h.one _ t (lines sz) t' n' (by rw [hL]; exact List.mem_cons_self ..) (hx ▸ hq)
      exact hc ⟨this.1.symm, this.2.symm⟩
  constructor
  · intro t' n'
    by_cases hc : t' = t ∧ n' = lines sz
    · obtain ⟨rfl, rfl⟩ := hc
      have := h.chain t' (lines sz)
      rw [hL] at this
      rw [setL_self]
      show Chain s.mem (if t' = t' ∧ lines sz = lines sz then _ else _) l
      rw [if_pos ⟨rfl, rfl⟩]; exact this.2.2
    · rw [setL_ne hc]
      show Chain s.mem (if t' = t ∧ n' = lines sz then _ else _) _
      rw [if_neg hc]; exact h.chain t' n'
  · intro t' n'
    by_cases hc : t' = t ∧ n' = lines sz
    · obtain ⟨rfl, rfl⟩ := hc; rw [setL_self]; exact hnd.2
    · rw [setL_ne hc]; exact h.nodup t' n'
  · exact fun p t1 n1 t2 n2 h1 h2 => h.one p t1 n1 t2 n2 (hsub _ _ _ h1).1 (hsub _ _ _ h2).1
  · intro p t' n' hp
    obtain ⟨h1, h2⟩ := hsub _ _ _ hp
    show Function.update s.live (s.pool t (lines sz)) (some sz) p = none
    rw [Function.update_of_ne h2]; exact h.free p t' n' h1
  · exact fun p n hp => h.pos p n ((hb p n).1 hp)
  · exact fun p n q m hp hq => h.disj p n q m ((hb p n).1 hp) ((hb q m).1 hq)
  · exact fun p n hp => h.own p n ((hb p n).1 hp)
  · exact fun hu p n hp => h.align hu p n ((hb p n).1 hp)

/-- New blocks `l` of `nl` lines in a new area become the list of thread `t`. -/
theorem inv_area {s s' : State} {L : Nat → Nat → List Nat} {t nl a size : Nat} {l : List Nat} (h : Inv s L) (h0 : L t nl = [])
    (hn : 0 < nl) (ha : 0 < a) (hf : ∀ x, a ≤ x → x < a + size → ¬ s.owned x) (hnd : l.Nodup)
    (hl : ∀ p ∈ l, a ≤ p ∧ p + nl * line ≤ a + size) (hlu : s.pools = true → ∀ p ∈ l, line ∣ p)
    (hd : ∀ p ∈ l, ∀ q ∈ l, p ≠ q → p + nl * line ≤ q ∨ q + nl * line ≤ p)
    (hm : ∀ x, x ∉ l → s'.mem x = s.mem x) (hc : Chain s'.mem (s'.pool t nl) l) (hp : s'.pools = s.pools)
    (hpool : ∀ t' n', ¬ (t' = t ∧ n' = nl) → s'.pool t' n' = s.pool t' n')
    (ho : s'.owned = fun x => s.owned x ∨ a ≤ x ∧ x < a + size) (hlive : s'.live = s.live) : Inv s' (setL L t nl l) := by
  have hline : 0 < nl * line := Nat.mul_pos hn (by decide)
  have hold : ∀ p n, Blk s L p n → p ∉ l := by
    intro p n hb hp
    have := h.pos p n hb
    have h1 := hl p hp
    have hpos : 0 < n * line := Nat.mul_pos this.1 (by decide)
    exact hf p h1.1 (by omega) (h.own p n hb p (Nat.le_refl _) (by omega))
  have hb : ∀ p n, Blk s' (setL L t nl l) p n → Blk s L p n ∨ p ∈ l ∧ n = nl := by
    intro p n hx
    unfold Blk at hx
    rw [hlive] at hx
    rcases hx with ⟨t', ht⟩ | hx
    · by_cases hc : t' = t ∧ n = nl
      · obtain ⟨rfl, rfl⟩ := hc; rw [setL_self] at ht; exact Or.inr ⟨ht, rfl⟩
      · rw [setL_ne hc] at ht; exact Or.inl (Or.inl ⟨t', ht⟩)
    · exact Or.inl (Or.inr hx)
  have hfar : ∀ p n q, Blk s L p n → q ∈ l → p + n * line ≤ q ∨ q + nl * line ≤ p := by
    intro p n q hx hq
    by_contra hcon
    have h1 := hl q hq
    have h2 := h.pos p n hx
    have hpos : 0 < n * line := Nat.mul_pos h2.1 (by decide)
    have h3 : ∀ x, p ≤ x → x < p + n * line → ¬ (a ≤ x ∧ x < a + size) := fun x h4 h5 h6 =>
      hf x h6.1 h6.2 (h.own p n hx x h4 h5)
    by_cases hpq : p ≤ q
    · exact h3 q hpq (by omega) ⟨h1.1, by omega⟩
    · exact h3 p (Nat.le_refl _) (by omega) ⟨by omega, by omega⟩
  constructor
  · intro t' n'
    by_cases hc' : t' = t ∧ n' = nl
    · obtain ⟨rfl, rfl⟩ := hc'; rw [setL_self]; exact hc
    · rw [setL_ne hc', hpool t' n' hc']
      exact (h.chain t' n').frame fun p hp => hm p (hold p n' (Or.inl ⟨t', hp⟩))
  · intro t' n'
    by_cases hc' : t' = t ∧ n' = nl
    · obtain ⟨rfl, rfl⟩ := hc'; rw [setL_self]; exact hnd
    · rw [setL_ne hc']; exact h.nodup t' n'
  · intro p t1 n1 t2 n2 h1 h2
    by_cases hc1 : t1 = t ∧ n1 = nl <;> by_cases hc2 : t2 = t ∧ n2 = nl
    · rw [hc1.1, hc1.2, hc2.1, hc2.2]; exact ⟨rfl, rfl⟩
    · rw [hc1.1, hc1.2, setL_self] at h1
      rw [setL_ne hc2] at h2
      exact absurd h1 (hold p n2 (Or.inl ⟨t2, h2⟩))
    · rw [hc2.1, hc2.2, setL_self] at h2
      rw [setL_ne hc1] at h1
      exact absurd h2 (hold p n1 (Or.inl ⟨t1, h1⟩))
    · rw [setL_ne hc1] at h1
      rw [setL_ne hc2] at h2
      exact h.one p t1 n1 t2 n2 h1 h2
  · intro p t' n' hp
    rw [hlive]
    by_cases hc' : t' = t ∧ n' = nl
    · obtain ⟨rfl, rfl⟩ := hc'
      rw [setL_self] at hp
      cases hx : s.live p with
      | none => rfl
      | some sz => exact absurd hp (hold p (lines sz) (Or.inr ⟨sz, hx, rfl⟩))
    · rw [setL_ne hc'] at hp; exact h.free p t' n' hp
  · intro p n hx
    rcases hb p n hx with h1 | ⟨h1, rfl⟩
    · exact h.pos p n h1
    · exact ⟨hn, by have := hl p h1; omega⟩
  · intro p n q m hx hy hpq
    rcases hb p n hx with h1 | ⟨h1, rfl⟩ <;> rcases hb q m hy with h2 | ⟨h2, rfl⟩
    · exact h.disj p n q m h1 h2 hpq
    · exact hfar p n q h1 h2
    · exact (hfar q m p h2 h1).symm
    · exact hd p h1 q h2 hpq
  · intro p n hx x h3 h4
    rw [ho]
    rcases hb p n hx with h1 | ⟨h1, rfl⟩
    · exact Or.inl (h.own p n h1 x h3 h4)
    · have := hl p h1; exact Or.inr ⟨by omega, by omega⟩
  · intro hu p n hx
    rw [hp] at hu
    rcases hb p n hx with h1 | ⟨h1, rfl⟩
    · exact h.align hu p n h1
    · exact hlu hu p h1

theorem inv_refill {s : State} {L : Nat → Nat → List Nat} {t nl a size : Nat} (h : Inv s L) (h0 : s.pool t nl = 0)
    (hn : 0 < nl) (hf : Fresh s a size) (hs : nl * line ≤ size) :
    Inv (s.refill t nl a size) (setL L t nl (cut a size (nl * line) 0)) := by
  have hline : 0 < nl * line := Nat.mul_pos hn (by decide)
  obtain ⟨h1, h2⟩ := initPool_spec s.mem hline hf.pos hs
  refine inv_area (a := a) (size := size) h (h.empty h0) hn hf.pos hf.new (cut_nodup hline 0) ?_ ?_ ?_ h1 ?_ rfl ?_ rfl rfl
  · intro p hp
    obtain ⟨k, rfl, hk⟩ := (mem_cut hline 0).1 hp
    omega
  · intro _ p hp
    obtain ⟨k, rfl, hk⟩ := (mem_cut hline 0).1 hp
    rw [Nat.zero_add, ← Nat.mul_assoc]
    exact Nat.dvd_add hf.align (Nat.dvd_mul_left ..)
  · intro p hp q hq hpq
    obtain ⟨k, rfl, hk⟩ := (mem_cut hline 0).1 hp
    obtain ⟨j, rfl, hj⟩ := (mem_cut hline 0).1 hq
    rcases Nat.lt_trichotomy k j with h3 | h3 | h3
    · have := Nat.mul_le_mul_right (nl * line) h3
      rw [Nat.succ_mul] at this; omega
    · subst h3; exact absurd rfl hpq
    · have := Nat.mul_le_mul_right (nl * line) h3
      rw [Nat.succ_mul] at this; omega
  · show Chain _ (if t = t ∧ nl = nl then a else _) _
    rw [if_pos ⟨rfl, rfl⟩]; exact h2
  · intro t' n' hc; exact if_neg hc

theorem inv_refillOne {s : State} {L : Nat → Nat → List Nat} {t nl a : Nat} (h : Inv s L) (h0 : s.pool t nl = 0)
    (hn : 0 < nl) (hu : s.pools = false) (ha : 0 < a) (hf : ∀ x, a ≤ x → x < a + nl * line → ¬ s.owned x) :
    Inv (s.refillOne t nl a) (setL L t nl [a]) := by
  refine inv_area (a := a) (size := nl * line) h (h.empty h0) hn ha hf (by simp) ?_ ?_ ?_ ?_ ?_ rfl ?_ rfl rfl
  · intro p hp; rw [List.mem_singleton] at hp; subst hp; exact ⟨Nat.le_refl _, Nat.le_refl _⟩
  · intro hx; rw [hu] at hx; cases hx
  · intro p hp q hq hpq
    rw [List.mem_singleton] at hp hq
    exact absurd (hp.trans hq.symm) hpq
  · intro x hx; exact Function.update_of_ne (by simpa using hx) ..
  · show Chain (Function.update s.mem a 0) (if t = t ∧ nl = nl then a else _) _
    rw [if_pos ⟨rfl, rfl⟩]
    exact ⟨rfl, by omega, by simp [Chain]⟩
  · intro t' n' hc; exact if_neg hc

theorem inv_push {s : State} {L : Nat → Nat → List Nat} {t p sz : Nat} (h : Inv s L) (hl : s.live p = some sz) :
    Inv (s.push t (lines sz) p) (setL L t (lines sz) (p :: L t (lines sz))) ∧
    ∀ q m, Blk (s.push t (lines sz) p) (setL L t (lines sz) (p :: L t (lines sz))) q m ↔ Blk s L q m := by
  have hnot : ∀ t' n', p ∉ L t' n' := by
    intro t' n' hp
    have := h.free p t' n' hp
    rw [hl] at this; cases this
  have hblk : Blk s L p (lines sz) := Or.inr ⟨sz, hl, rfl⟩
  have hpos := h.pos p _ hblk
  have hlive : (s.push t (lines sz) p).live = Function.update s.live p none := rfl
  have hb : ∀ q m, Blk (s.push t (lines sz) p) (setL L t (lines sz) (p :: L t (lines sz))) q m ↔ Blk s L q m := by
    intro q m
    unfold Blk
    rw [hlive]
    constructor
    · rintro (⟨t', ht⟩ | ⟨sz', hs, he⟩)
      · by_cases hc : t' = t ∧ m = lines sz
        · obtain ⟨rfl, rfl⟩ := hc
          rw [setL_self, List.mem_cons] at ht
          rcases ht with rfl | ht
          · exact Or.inr ⟨sz, hl, rfl⟩
          · exact Or.inl ⟨t', ht⟩
        · rw [setL_ne hc] at ht; exact Or.inl ⟨t', ht⟩
      · by_cases hq : q = p
        · subst hq; rw [Function.update_self] at hs; cases hs
        · rw [Function.update_of_ne hq] at hs; exact Or.inr ⟨sz', hs, he⟩
    · rintro (⟨t', ht⟩ | ⟨sz', hs, he⟩)
      · refine Or.inl ⟨t', ?_⟩
        by_cases hc : t' = t ∧ m = lines sz
        · obtain ⟨rfl, rfl⟩ := hc; rw [setL_self]; simp [ht]
        · rw [setL_ne hc]; exact ht
      · by_cases hq : q = p
        · subst hq
          rw [hl] at hs
          cases hs; subst he
          exact Or.inl ⟨t, by rw [setL_self]; simp⟩
        · exact Or.inr ⟨sz', by rw [Function.update_of_ne hq]; exact hs, he⟩
  refine ⟨?_, hb⟩
  have hframe : ∀ t' n', Chain (Function.update s.mem p (s.pool t (lines sz))) (s.pool t' n') (L t' n') := fun t' n' =>
    (h.chain t' n').frame fun q hq => Function.update_of_ne (by rintro rfl; exact hnot t' n' hq) ..
  constructor
  · intro t' n'
    show Chain (Function.update s.mem p (s.pool t (lines sz))) (if t' = t ∧ n' = lines sz then p else _) _
    by_cases hc : t' = t ∧ n' = lines sz
    · obtain ⟨rfl, rfl⟩ := hc
      rw [setL_self, if_pos ⟨rfl, rfl⟩]
      refine ⟨rfl, by omega, ?_⟩
      rw [Function.update_self]; exact hframe _ _
    · rw [setL_ne hc, if_neg hc]; exact hframe t' n'
  · intro t' n'
    by_cases hc : t' = t ∧ n' = lines sz
    · obtain ⟨rfl, rfl⟩ := hc; rw [setL_self]; exact List.nodup_cons.2 ⟨hnot _ _, h.nodup _ _⟩
    · rw [setL_ne hc]; exact h.nodup t' n'
  · intro q t1 n1 t2 n2 h1 h2
    have hsub : ∀ t' n', q ∈ setL L t (lines sz) (p :: L t (lines sz)) t' n' → q ∈ L t' n' ∨ q = p ∧ t' = t ∧ n' = lines sz := by
      intro t' n' hq
      by_cases hc : t' = t ∧ n' = lines sz
      · obtain ⟨rfl, rfl⟩ := hc
        rw [setL_self, List.mem_cons] at hq
        exact hq.symm.imp id fun hx => ⟨hx, rfl, rfl⟩
      · rw [setL_ne hc] at hq; exact Or.inl hq
    rcases hsub _ _ h1 with h3 | ⟨rfl, rfl, rfl⟩ <;> rcases hsub _ _ h2 with h4 | ⟨h5, h6, h7⟩
    · exact h.one q t1 n1 t2 n2 h3 h4
    · subst h5; exact absurd h3 (hnot _ _)
    · exact absurd h4 (hnot _ _)
    · exact ⟨h6.symm, h7.symm⟩
  · intro q t' n' hq
    rw [hlive]
    by_cases hqp : q = p
    · subst hqp; exact Function.update_self ..
    · rw [Function.update_of_ne hqp]
      by_cases hc : t' = t ∧ n' = lines sz
      · obtain ⟨rfl, rfl⟩ := hc
        rw [setL_self, List.mem_cons] at hq
        exact h.free q t' _ (hq.resolve_left hqp)
      · rw [setL_ne hc] at hq; exact h.free q t' n' hq
  · exact fun p n hp => h.pos p n ((hb p n).1 hp)
  · exact fun p n q m hp hq => h.disj p n q m ((hb p n).1 hp) ((hb q m).1 hq)
  · exact fun p n hp => h.own p n ((hb p n).1 hp)
  · exact fun hu p n hp => h.align hu p n ((hb p n).1 hp)

theorem inv_freeOne {s : State} {L : Nat → Nat → List Nat} {p sz : Nat} (h : Inv s L) (hl : s.live p = some sz) :
    Inv
      { s with
        owned := fun x => s.owned x ∧ ¬ (p ≤ x ∧ x < p + lines sz * line)
        live := Function.update s.live p none } L := by
  have hblk : Blk s L p (lines sz) := Or.inr ⟨sz, hl, rfl⟩
  have hb : ∀ q m, Blk { s with
        owned := fun x => s.owned x ∧ ¬ (p ≤ x ∧ x < p + lines sz * line)
        live := Function.update s.live p none } L q m → Blk s L q m ∧ q ≠ p := by
    rintro q m (⟨t', ht⟩ | ⟨sz', hs, he⟩)
    · refine ⟨Or.inl ⟨t', ht⟩, ?_⟩
      rintro rfl
      have := h.free q t' m ht
      rw [hl] at this; cases this
    · by_cases hq : q = p
      · subst hq; rw [show ({ s with
          owned := fun x => s.owned x ∧ ¬ (q ≤ x ∧ x < q + lines sz * line)
          live := Function.update s.live q none } : State).live q = Function.update s.live q none q from rfl,
          Function.update_self] at hs; cases hs
      · exact ⟨Or.inr ⟨sz', by rw [← hs]; exact (Function.update_of_ne hq ..).symm, he⟩, hq⟩
  constructor
  · exact h.chain
  · exact h.nodup
  · exact h.one
  · intro q t' n' hq
    show Function.update s.live p none q = none
    by_cases hqp : q = p
    · subst hqp; exact Function.update_self ..
    · rw [Function.update_of_ne hqp]; exact h.free q t' n' hq
  · exact fun q n hq => h.pos q n (hb q n hq).1
  · exact fun q n q' m hq hq' => h.disj q n q' m (hb q n hq).1 (hb q' m hq').1
  · intro q n hq x h1 h2
    obtain ⟨h3, h4⟩ := hb q n hq
    refine ⟨h.own q n h3 x h1 h2, fun h5 => ?_⟩
    rcases h.disj q n p (lines sz) h3 hblk h4 with h6 | h6 <;> omega
  · exact fun hu q n hq => h.align hu q n (hb q n hq).1

theorem inv_write {s : State} {L : Nat → Nat → List Nat} {p sz a v : Nat} (h : Inv s L) (hl : s.live p = some sz) (ha : p ≤ a)
    (hb : a < p + lines sz * line) : Inv { s with mem := Function.update s.mem a v } L := by
  have hblk : Blk s L p (lines sz) := Or.inr ⟨sz, hl, rfl⟩
  refine { h with chain := fun t n => (h.chain t n).frame fun q hq => ?_ }
  refine Function.update_of_ne ?_ ..
  rintro rfl
  have hqb : Blk s L q n := Or.inl ⟨t, hq⟩
  have hqp : q ≠ p := by
    rintro rfl
    have := h.free q t n hq
    rw [hl] at this; cases this
  have := (h.pos q n hqb).1
  have hpos : 0 < n * line := Nat.mul_pos this (by decide)
  rcases h.disj q n p (lines sz) hqb hblk hqp with h6 | h6 <;> omega

/-- The number of lines that `free_rcu` finds is that of `pool_deallocate_rcu`. -/
theorem tag_lines {tag n : Nat} (ht : tag &&& poolMask = 0) (hn : n ≤ maxLines) : tag + n &&& poolMask = n := by
  have h1 : ∀ x, x &&& poolMask = x % 256 := fun x => Nat.and_two_pow_sub_one_eq_mod x 8
  rw [h1] at ht ⊢
  unfold maxLines at hn
  omega

theorem step_inv {s s' : State} {e : Ev} {L : Nat → Nat → List Nat} (h : Inv s L) (hs : Step s e s') : ∃ L', Inv s' L' := by
  have hle : ∀ {sz size}, lines sz ≤ maxLines → maxLines * line ≤ size → lines sz * line ≤ size := fun h1 h2 =>
    Nat.le_trans (Nat.mul_le_mul_right _ h1) h2
  cases hs with
  | alloc t sz h0 hm hp =>
    obtain ⟨l, hl⟩ := h.nonempty hp
    exact ⟨_, inv_pop h hl⟩
  | allocRefill t sz a size hu h0 hm hp hf hs =>
    have h1 := inv_refill h hp (lines_pos h0) hf (hle hm hs)
    obtain ⟨l, hl⟩ := h1.nonempty (t := t) (n := lines sz) (by
      show (if t = t ∧ lines sz = lines sz then a else _) ≠ 0
      rw [if_pos ⟨rfl, rfl⟩]; have := hf.pos; omega)
    exact ⟨_, inv_pop h1 hl⟩
  | allocOne t sz a hu h0 hm hp ha hf =>
    have h1 := inv_refillOne h hp (lines_pos h0) hu ha hf
    obtain ⟨l, hl⟩ := h1.nonempty (t := t) (n := lines sz) (by
      show (if t = t ∧ lines sz = lines sz then a else _) ≠ 0
      rw [if_pos ⟨rfl, rfl⟩]; omega)
    exact ⟨_, inv_pop h1 hl⟩
  | free t p sz sz' hu hl hs => rw [hs]; exact ⟨_, (inv_push h hl).1⟩
  | freeOne t p sz hu hl => exact ⟨_, inv_freeOne h hl⟩
  | freeRcu t p sz sz' tag hl hs hm ht => rw [tag_lines ht hm, hs]; exact ⟨_, (inv_push h hl).1⟩
  | write p sz a v hl ha hb => exact ⟨_, inv_write h hl ha hb⟩

theorem run_inv {s s' : State} {l : List Ev} {L : Nat → Nat → List Nat} (h : Inv s L) (hr : Run s l s') : ∃ L', Inv s' L' := by
  induction hr generalizing L with
  | nil => exact ⟨L, h⟩
  | cons hs _ ih =>
    obtain ⟨L', h'⟩ := step_inv h hs
    exact ih h'

/-- What a step to get a block does. -/
theorem alloc_effect {s s' : State} {L : Nat → Nat → List Nat} {t sz p : Nat} (h : Inv s L) (hs : Step s (.alloc t sz p) s') :
    s.live p = none ∧ s'.live = Function.update s.live p (some sz) ∧ 0 < sz ∧
    (∀ x, s.owned x → s'.owned x) ∧ (∀ q sz', s.live q = some sz' → ∀ x, q ≤ x → x < q + lines sz' * line → s'.mem x = s.mem x) ∧
    s'.pools = s.pools := by
  have hle : ∀ {sz size}, lines sz ≤ maxLines → maxLines * line ≤ size → lines sz * line ≤ size := fun h1 h2 =>
    Nat.le_trans (Nat.mul_le_mul_right _ h1) h2
  cases hs with
  | alloc t sz h0 hm hp =>
    obtain ⟨l, hl⟩ := h.nonempty hp
    exact ⟨h.free _ t (lines sz) (by rw [hl]; exact List.mem_cons_self ..), rfl, h0, fun _ hx => hx, fun _ _ _ _ _ _ => rfl, rfl⟩
  | allocRefill t sz a size hu h0 hm hp hf hs =>
    have hline : 0 < lines sz * line := Nat.mul_pos (lines_pos h0) (by decide)
    have h1 := inv_refill h hp (lines_pos h0) hf (hle hm hs)
    obtain ⟨l, hl⟩ := h1.nonempty (t := t) (n := lines sz) (by
      show (if t = t ∧ lines sz = lines sz then a else _) ≠ 0
      rw [if_pos ⟨rfl, rfl⟩]; have := hf.pos; omega)
    refine ⟨h1.free _ t (lines sz) (by rw [hl]; exact List.mem_cons_self ..), rfl, h0, fun _ hx => Or.inl hx, ?_, rfl⟩
    intro q sz' hq x hx1 hx2
    refine (initPool_spec s.mem hline hf.pos (hle hm hs)).1 x fun hx => ?_
    obtain ⟨k, rfl, hk⟩ := (mem_cut hline 0).1 hx
    exact hf.new _ (by omega) (by omega) (h.own q _ (Or.inr ⟨sz', hq, rfl⟩) _ hx1 hx2)
  | allocOne t sz a hu h0 hm hp ha hf =>
    have hline : 0 < lines sz * line := Nat.mul_pos (lines_pos h0) (by decide)
    have h1 := inv_refillOne h hp (lines_pos h0) hu ha hf
    obtain ⟨l, hl⟩ := h1.nonempty (t := t) (n := lines sz) (by
      show (if t = t ∧ lines sz = lines sz then a else _) ≠ 0
      rw [if_pos ⟨rfl, rfl⟩]; omega)
    refine ⟨h1.free _ t (lines sz) (by rw [hl]; exact List.mem_cons_self ..), rfl, h0, fun _ hx => Or.inl hx, ?_, rfl⟩
    intro q sz' hq x hx1 hx2
    refine Function.update_of_ne ?_ ..
    rintro rfl
    exact hf x (Nat.le_refl _) (by omega) (h.own q _ (Or.inr ⟨sz', hq, rfl⟩) _ hx1 hx2)

/-- What a step to free a block does. -/
theorem free_effect {s s' : State} {t p : Nat} (hs : Step s (.free t p) s') :
    s.live p ≠ none ∧ s'.live = Function.update s.live p none ∧ (∀ x, x ≠ p → s'.mem x = s.mem x) ∧ s'.pools = s.pools := by
  cases hs with
  | free t p sz sz' hu hl hs => exact ⟨by rw [hl]; exact Option.some_ne_none _, rfl, fun x hx => Function.update_of_ne hx .., rfl⟩
  | freeOne t p sz hu hl => exact ⟨by rw [hl]; exact Option.some_ne_none _, rfl, fun x hx => rfl, rfl⟩
  | freeRcu t p sz sz' tag hl hs hm ht =>
    exact ⟨by rw [hl]; exact Option.some_ne_none _, rfl, fun x hx => Function.update_of_ne hx .., rfl⟩

/-- The blocks of free lists, by following the links. -/
inductive Reach (mem : Nat → Nat) : Nat → Nat → Prop where
  | here {p : Nat} (h : p ≠ 0) : Reach mem p p
  | next {h p : Nat} (h0 : h ≠ 0) (hr : Reach mem (mem h) p) : Reach mem h p

theorem Chain.reach {mem : Nat → Nat} {l : List Nat} : ∀ {h : Nat}, Chain mem h l → ∀ p, Reach mem h p ↔ p ∈ l := by
  induction l with
  | nil =>
    intro h hc p
    cases hc
    refine ⟨fun hr => ?_, by simp⟩
    cases hr with
    | here h => exact absurd rfl h
    | next h _ => exact absurd rfl h
  | cons q l ih =>
    rintro h ⟨rfl, h0, hc⟩ p
    rw [List.mem_cons, ← ih hc p]
    constructor
    · intro hr
      cases hr with
      | here _ => exact Or.inl rfl
      | next _ hr => exact Or.inr hr
    · rintro (rfl | hr)
      · exact .here h0
      · exact .next h0 hr

/-- `p` is a free block of `n` lines. -/
def Free (s : State) (n p : Nat) : Prop := ∃ t, Reach s.mem (s.pool t n) p

theorem Inv.blk {s : State} {L : Nat → Nat → List Nat} (h : Inv s L) (p n : Nat) :
    Blk s L p n ↔ Free s n p ∨ ∃ sz, s.live p = some sz ∧ lines sz = n := by
  unfold Blk Free
  exact or_congr ⟨fun ⟨t, ht⟩ => ⟨t, ((h.chain t n).reach p).2 ht⟩, fun ⟨t, ht⟩ => ⟨t, ((h.chain t n).reach p).1 ht⟩⟩ Iff.rfl

end Verif.Pool
