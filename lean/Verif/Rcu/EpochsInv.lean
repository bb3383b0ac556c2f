import Verif.Rcu.Epochs

/-!
# The invariant of the epoch protocol
-/
namespace Verif.Rcu.Epochs
open Verif.Rcu
open Function (update)

theorem smaller_iff {te acc : Nat} (h1 : te < acc + 2 ^ 62) (h2 : acc < te + 2 ^ 62) :
    smaller te acc = true ↔ te < acc := by
  unfold smaller word
  rw [BitVec.msb_eq_decide]
  simp only [BitVec.toNat_sub, BitVec.toNat_ofNat, decide_eq_true_eq]
  omega

theorem safe_lt {b e : Nat} (h1 : e < b + 2 ^ 62) (h : safe (word b - 1) (word e) = true) : e < b := by
  have h0 : (1 : BitVec 64).toNat = 1 := rfl
  unfold safe word at h
  rw [BitVec.msb_eq_decide] at h
  simp only [BitVec.toNat_sub, BitVec.toNat_ofNat, Bool.not_eq_true', decide_eq_false_iff_not] at h
  omega

theorem safe_of_lt {b e : Nat} (h1 : b < e + 2 ^ 62) (h : e < b) : safe (word b - 1) (word e) = true := by
  have h0 : (1 : BitVec 64).toNat = 1 := rfl
  unfold safe word
  rw [BitVec.msb_eq_decide]
  simp only [BitVec.toNat_sub, BitVec.toNat_ofNat, Bool.not_eq_true', decide_eq_false_iff_not]
  omega

/-- Nothing retired in epoch `e` or later can be freed before thread `t` leaves its section. -/
structure Safe (s : State) (t e : Nat) : Prop where
  gc : ∃ g, s.gc t = some g ∧ g ≤ e
  ae : s.ae ≤ e
  bound : ∀ w b, s.bound w = some b → b ≤ e
  scan : ∀ h acc i, s.tick h = .scan acc i → t < i → acc ≤ e

/-- The invariant when stores are not delayed and calls of `epochinc` do not overlap. -/
structure Inv (c : Cfg) (s : State) : Prop where
  ae_le : s.ae ≤ s.ge
  lag : s.ge ≤ s.ae + maxStay + 1
  lag' : s.ge ≤ s.ae + maxStay ∨ ∃ h, s.tick h = .stored ∨ ∃ acc i, s.tick h = .scan acc i
  one : ∀ h h', s.tick h ≠ .idle → s.tick h' ≠ .idle → h = h'
  tickLoaded : ∀ h g, s.tick h = .loaded g → g = s.ge
  tickScan : ∀ h acc i, s.tick h = .scan acc i → acc ≤ s.ge ∧ s.ge ≤ acc + maxStay
  stay : ∀ t g, s.gc t = some g ∨ s.pc t = .loaded g → g ≤ s.ge ∧ s.ge ≤ g + maxStay
  inside : ∀ t, s.pc t = .inside → t < c.n ∧ ∃ g, s.gc t = some g
  loaded : ∀ t g, s.pc t = .loaded g → t < c.n
  bound : ∀ t b, s.bound t = some b → b ≤ s.ge ∧ s.pc t = .inside ∧ ∀ g, s.gc t = some g → g ≤ b + maxStay + 1
  buf : ∀ t, s.buf t = none
  retired : ∀ o w e, s.retired o = some (w, e) → e ≤ s.ge
  freed : ∀ o, s.freed o = true → s.retired o ≠ none ∧ ∀ t, s.since t o = false
  since : ∀ t o, s.since t o = true → s.pc t = .inside ∧ ∃ w e, s.retired o = some (w, e) ∧ Safe s t e

/-- What holds besides when nothing stays linked into the epoch after its retirement. -/
structure Strict (s : State) : Prop where
  linked : ∀ o w e, s.linked o = true → s.retired o = some (w, e) → e = s.ge
  holds : ∀ t o, s.holds t o = true → s.pc t = .inside ∧ s.freed o = false ∧
    ∀ w e, s.retired o = some (w, e) → Safe s t e
  freed : ∀ o, s.freed o = true → s.linked o = false

theorem init_inv (c : Cfg) (l : Nat → Bool) : Inv c (State.init l) := by
  constructor <;> simp [State.init]

theorem init_strict (l : Nat → Bool) : Strict (State.init l) := by
  constructor <;> simp [State.init]

theorem upd_eq {α : Type} {f : Nat → α} {i : Nat} {x : α} : update f i x i = x := by simp

theorem upd_ne {α : Type} {f : Nat → α} {i j : Nat} {x : α} (h : j ≠ i) : update f i x j = f j := by simp [h]

/-- `Safe` survives every step but the end of the thread's section. -/
theorem Safe.step {c : Cfg} {s s' : State} (h : Step c s s') (hi : Inv c s) (hc : c.tso = false) {t e : Nat}
    (hs : Safe s t e) (hin : s.pc t = .inside) (hout : s'.pc t = .inside) : Safe s' t e := by
  obtain ⟨⟨g, hg, hge⟩, hae, hb, hsc⟩ := hs
  cases h with
  | load u ht hp =>
    have hne : t ≠ u := by rintro rfl; simp at hout
    refine ⟨⟨g, hg, hge⟩, hae, fun w b hw => ?_, hsc⟩
    by_cases hwu : w = u
    · subst hwu; simp at hw
    · simp only [upd_ne hwu] at hw; exact hb w b hw
  | store u g' hp _ =>
    have hne : t ≠ u := by rintro rfl; rw [hp] at hin; simp at hin
    exact ⟨⟨g, by simp only [upd_ne hne]; exact hg, hge⟩, hae, hb, hsc⟩
  | buffer u g' hp h' => rw [hc] at h'; simp at h'
  | flush u g' hb' => rw [hi.buf u] at hb'; simp at hb'
  | stop u hp =>
    have hne : t ≠ u := by rintro rfl; simp at hout
    refine ⟨⟨g, by simp only [upd_ne hne]; exact hg, hge⟩, hae, fun w b hw => ?_, hsc⟩
    by_cases hwu : w = u
    · subst hwu; simp at hw
    · simp only [upd_ne hwu] at hw; exact hb w b hw
  | acquire => exact ⟨⟨g, hg, hge⟩, hae, hb, hsc⟩
  | link => exact ⟨⟨g, hg, hge⟩, hae, hb, hsc⟩
  | unlink => exact ⟨⟨g, hg, hge⟩, hae, hb, hsc⟩
  | retire => exact ⟨⟨g, hg, hge⟩, hae, hb, hsc⟩
  | bound u hp =>
    refine ⟨⟨g, hg, hge⟩, hae, fun w b hw => ?_, hsc⟩
    by_cases hwu : w = u
    · subst hwu; simp only [upd_eq, Option.some.injEq] at hw; omega
    · simp only [upd_ne hwu] at hw; exact hb w b hw
  | free => exact ⟨⟨g, hg, hge⟩, hae, hb, hsc⟩
  | tickLoad k _ _ =>
    refine ⟨⟨g, hg, hge⟩, hae, hb, fun h acc i hk => ?_⟩
    by_cases hkk : h = k
    · subst hkk; simp at hk
    · simp only [upd_ne hkk] at hk; exact hsc h acc i hk
  | tickStore k g' _ _ _ =>
    refine ⟨⟨g, hg, hge⟩, hae, hb, fun h acc i hk => ?_⟩
    by_cases hkk : h = k
    · subst hkk; simp at hk
    · simp only [upd_ne hkk] at hk; exact hsc h acc i hk
  | scanStart k _ =>
    refine ⟨⟨g, hg, hge⟩, hae, hb, fun h acc i hk hti => ?_⟩
    by_cases hkk : h = k
    · subst hkk; simp only [upd_eq, Tick.scan.injEq] at hk; omega
    · simp only [upd_ne hkk] at hk; exact hsc h acc i hk hti
  | scan k acc0 i0 hl hlt =>
    refine ⟨⟨g, hg, hge⟩, hae, hb, fun h acc i hk hti => ?_⟩
    by_cases hkk : h = k
    · subst hkk
      simp only [upd_eq, Tick.scan.injEq] at hk
      obtain ⟨hacc, rfl⟩ := hk
      have hb0 := hi.tickScan h acc0 i0 hl
      rcases Nat.lt_or_eq_of_le (Nat.lt_succ_iff.1 hti) with hlt' | rfl
      · have hle := hsc h acc0 i0 hl hlt'
        rw [← hacc]
        cases hgi : s.gc i0 with
        | none => exact hle
        | some g0 =>
          simp only [pick]
          split
          · rename_i hsm
            have hb1 := hi.stay i0 g0 (.inl hgi)
            have := (smaller_iff (te := g0) (acc := acc0) (by unfold maxStay at *; omega) (by unfold maxStay at *; omega)).1 hsm
            omega
          · exact hle
      · rw [← hacc, hg]
        simp only [pick]
        have hb1 := hi.stay t g (.inl hg)
        have hsm := smaller_iff (te := g) (acc := acc0) (by unfold maxStay at *; omega) (by unfold maxStay at *; omega)
        split
        · exact hge
        · rename_i hn
          have : ¬ g < acc0 := fun h => hn (hsm.2 h)
          omega
    · simp only [upd_ne hkk] at hk; exact hsc h acc i hk hti
  | tickDone k acc0 hl =>
    refine ⟨⟨g, hg, hge⟩, hsc k acc0 _ hl (hi.inside t hin).1, hb, fun h acc i hk hti => ?_⟩
    by_cases hkk : h = k
    · subst hkk; simp at hk
    · simp only [upd_ne hkk] at hk; exact hsc h acc i hk hti

/-- What the test of `clean_until` says in a reachable state. -/
theorem Inv.tested {c : Cfg} {s : State} (hi : Inv c s) {t o b e : Nat} (hp : s.pc t = .inside)
    (hb : s.bound t = some b) (hr : s.retired o = some (t, e)) (hs : safe (word b - 1) (word e) = true) :
    e < b ∧ b ≤ s.ge := by
  obtain ⟨_, g, hg⟩ := hi.inside t hp
  have h1 := hi.bound t b hb
  have h2 := h1.2.2 g hg
  have h3 := hi.stay t g (.inl hg)
  have h4 := hi.retired o t e hr
  exact ⟨safe_lt (by unfold maxStay at *; omega) hs, h1.1⟩

/-- A section is left only by the thread itself. -/
theorem pc_stays {c : Cfg} {s s' : State} (h : Step c s s') {t o : Nat} (hin : s.pc t = .inside) :
    s'.pc t = .inside ∨ (s'.since t o = false ∧ s'.holds t o = false) := by
  cases h with
  | load u ht hp =>
    by_cases h : t = u
    · subst h; right; simp
    · left; simp [h, hin]
  | store u => left; by_cases h : t = u <;> simp [h, hin]
  | buffer u => left; by_cases h : t = u <;> simp [h, hin]
  | stop u =>
    by_cases h : t = u
    · subst h; right; simp
    · left; simp [h, hin]
  | _ => left; exact hin

theorem step_inv {c : Cfg} {s s' : State} (h : Step c s s') (hi : Inv c s) (hc : c.tso = false)
    (hov : c.overlap = false) : Inv c s' := by
  have hsince : ∀ t o, s.since t o = true → s'.pc t = .inside → ∃ w e, s.retired o = some (w, e) ∧ Safe s' t e := by
    intro t o hs hp
    obtain ⟨h1, w, e, h2, h3⟩ := hi.since t o hs
    exact ⟨w, e, h2, h3.step h hi hc h1 hp⟩
  have hcopy := h
  cases h with
  | load u ht hp =>
    refine ⟨hi.ae_le, hi.lag, hi.lag', hi.one, hi.tickLoaded, hi.tickScan, ?_, ?_, ?_, ?_, hi.buf, hi.retired, ?_, ?_⟩
    · intro t g hg
      by_cases htu : t = u
      · subst htu
        rcases hg with hg | hg
        · exact hi.stay t g (.inl hg)
        · simp only [upd_eq, Pc.loaded.injEq] at hg
          show g ≤ s.ge ∧ s.ge ≤ _
          omega
      · simp only [upd_ne htu] at hg; exact hi.stay t g hg
    · intro t hp'
      by_cases htu : t = u
      · subst htu; simp at hp'
      · simp only [upd_ne htu] at hp'; exact hi.inside t hp'
    · intro t g hp'
      by_cases htu : t = u
      · subst htu; exact ht
      · simp only [upd_ne htu] at hp'; exact hi.loaded t g hp'
    · intro t b hb
      by_cases htu : t = u
      · subst htu; simp at hb
      · simp only [upd_ne htu] at hb
        show _ ∧ update s.pc u (.loaded s.ge) t = .inside ∧ _
        simp only [upd_ne htu]; exact hi.bound t b hb
    · intro o ho
      refine ⟨(hi.freed o ho).1, fun t => ?_⟩
      by_cases htu : t = u
      · subst htu; simp
      · simp only [upd_ne htu]; exact (hi.freed o ho).2 t
    · intro t o hs
      by_cases htu : t = u
      · subst htu; simp at hs
      · simp only [upd_ne htu] at hs
        have h1 : update s.pc u (.loaded s.ge) t = .inside := by simp only [upd_ne htu]; exact (hi.since t o hs).1
        exact ⟨h1, hsince t o hs h1⟩
  | store u g hp _ =>
    refine ⟨hi.ae_le, hi.lag, hi.lag', hi.one, hi.tickLoaded, hi.tickScan, ?_, ?_, ?_, ?_, hi.buf, hi.retired, hi.freed, ?_⟩
    · intro t g' hg
      by_cases htu : t = u
      · subst htu
        rcases hg with hg | hg
        · simp only [upd_eq, Option.some.injEq] at hg
          subst hg; exact hi.stay t g (.inr hp)
        · simp at hg
      · simp only [upd_ne htu, upd_ne htu] at hg; exact hi.stay t g' hg
    · intro t hp'
      by_cases htu : t = u
      · subst htu; exact ⟨hi.loaded t g hp, g, by simp⟩
      · simp only [upd_ne htu] at hp'
        show _ ∧ ∃ g', update s.gc u (some g) t = some g'
        simp only [upd_ne htu]; exact hi.inside t hp'
    · intro t g' hp'
      by_cases htu : t = u
      · subst htu; exact hi.loaded t g hp
      · simp only [upd_ne htu] at hp'; exact hi.loaded t g' hp'
    · intro t b hb
      have hb' := hi.bound t b hb
      have htu : t ≠ u := by rintro rfl; rw [hp] at hb'; simp at hb'
      show _ ∧ update s.pc u .inside t = .inside ∧ ∀ g', update s.gc u (some g) t = some g' → _
      simp only [upd_ne htu]; exact hb'
    · intro t o hs
      have h1 : update s.pc u .inside t = .inside := by
        by_cases htu : t = u
        · subst htu; simp
        · simp only [upd_ne htu]; exact (hi.since t o hs).1
      exact ⟨h1, hsince t o hs h1⟩
  | buffer u g hp h' => rw [hc] at h'; simp at h'
  | flush u g hb => rw [hi.buf u] at hb; simp at hb
  | stop u hp =>
    refine ⟨hi.ae_le, hi.lag, hi.lag', hi.one, hi.tickLoaded, hi.tickScan, ?_, ?_, ?_, ?_, ?_, hi.retired, ?_, ?_⟩
    · intro t g' hg
      by_cases htu : t = u
      · subst htu; simp at hg
      · simp only [upd_ne htu, upd_ne htu] at hg; exact hi.stay t g' hg
    · intro t hp'
      by_cases htu : t = u
      · subst htu; simp at hp'
      · simp only [upd_ne htu] at hp'
        show _ ∧ ∃ g', update s.gc u none t = some g'
        simp only [upd_ne htu]; exact hi.inside t hp'
    · intro t g' hp'
      by_cases htu : t = u
      · subst htu; simp at hp'
      · simp only [upd_ne htu] at hp'; exact hi.loaded t g' hp'
    · intro t b hb
      by_cases htu : t = u
      · subst htu; simp at hb
      · simp only [upd_ne htu] at hb
        show _ ∧ update s.pc u .idle t = .inside ∧ ∀ g', update s.gc u none t = some g' → _
        simp only [upd_ne htu]; exact hi.bound t b hb
    · intro t
      by_cases htu : t = u
      · subst htu; simp
      · show update s.buf u none t = none
        simp only [upd_ne htu]; exact hi.buf t
    · intro o ho
      refine ⟨(hi.freed o ho).1, fun t => ?_⟩
      by_cases htu : t = u
      · subst htu; simp
      · simp only [upd_ne htu]; exact (hi.freed o ho).2 t
    · intro t o hs
      by_cases htu : t = u
      · subst htu; simp at hs
      · simp only [upd_ne htu] at hs
        have h1 : update s.pc u .idle t = .inside := by simp only [upd_ne htu]; exact (hi.since t o hs).1
        exact ⟨h1, hsince t o hs h1⟩
  | acquire => exact ⟨hi.ae_le, hi.lag, hi.lag', hi.one, hi.tickLoaded, hi.tickScan, hi.stay, hi.inside, hi.loaded, hi.bound,
      hi.buf, hi.retired, hi.freed, fun t o hs => ⟨(hi.since t o hs).1, hsince t o hs (hi.since t o hs).1⟩⟩
  | link => exact ⟨hi.ae_le, hi.lag, hi.lag', hi.one, hi.tickLoaded, hi.tickScan, hi.stay, hi.inside, hi.loaded, hi.bound,
      hi.buf, hi.retired, hi.freed, fun t o hs => ⟨(hi.since t o hs).1, hsince t o hs (hi.since t o hs).1⟩⟩
  | unlink => exact ⟨hi.ae_le, hi.lag, hi.lag', hi.one, hi.tickLoaded, hi.tickScan, hi.stay, hi.inside, hi.loaded, hi.bound,
      hi.buf, hi.retired, hi.freed, fun t o hs => ⟨(hi.since t o hs).1, hsince t o hs (hi.since t o hs).1⟩⟩
  | retire u x hp hr =>
    refine ⟨hi.ae_le, hi.lag, hi.lag', hi.one, hi.tickLoaded, hi.tickScan, hi.stay, hi.inside, hi.loaded, hi.bound,
      hi.buf, ?_, ?_, ?_⟩
    · intro o w e ho
      by_cases hox : o = x
      · subst hox
        simp only [upd_eq, Option.some.injEq, Prod.mk.injEq] at ho
        show e ≤ s.ge
        omega
      · simp only [upd_ne hox] at ho; exact hi.retired o w e ho
    · intro o ho
      have hox : o ≠ x := by rintro rfl; exact (hi.freed o ho).1 hr
      refine ⟨by simp only [upd_ne hox]; exact (hi.freed o ho).1, fun t => ?_⟩
      show (if o = x then _ else s.since t o) = false
      rw [if_neg hox]; exact (hi.freed o ho).2 t
    · intro t o hs
      by_cases hox : o = x
      · subst hox
        simp only [if_true, decide_eq_true_eq] at hs
        refine ⟨hs, u, s.ge, by simp, ?_, hi.ae_le, fun w b hb => (hi.bound w b hb).1, fun h acc i hk _ => (hi.tickScan h acc i hk).1⟩
        obtain ⟨_, g, hg⟩ := hi.inside t hs
        exact ⟨g, hg, (hi.stay t g (.inl hg)).1⟩
      · dsimp only at hs
        rw [if_neg hox] at hs
        obtain ⟨w, e, h2, h3⟩ := hsince t o hs (hi.since t o hs).1
        exact ⟨(hi.since t o hs).1, w, e, by simp only [upd_ne hox]; exact h2, h3⟩
  | bound u hp =>
    refine ⟨hi.ae_le, hi.lag, hi.lag', hi.one, hi.tickLoaded, hi.tickScan, hi.stay, hi.inside, hi.loaded, ?_,
      hi.buf, hi.retired, hi.freed, fun t o hs => ⟨(hi.since t o hs).1, hsince t o hs (hi.since t o hs).1⟩⟩
    intro t b hb
    by_cases htu : t = u
    · subst htu
      simp only [upd_eq, Option.some.injEq] at hb
      subst hb
      refine ⟨hi.ae_le, hp, fun g hg => ?_⟩
      have h1 := hi.stay t g (.inl hg)
      have h2 := hi.lag
      show g ≤ s.ae + maxStay + 1
      omega
    · simp only [upd_ne htu] at hb; exact hi.bound t b hb
  | free u x b e hp hb hr hf hs =>
    refine ⟨hi.ae_le, hi.lag, hi.lag', hi.one, hi.tickLoaded, hi.tickScan, hi.stay, hi.inside, hi.loaded, hi.bound,
      hi.buf, hi.retired, ?_, fun t o hs => ⟨(hi.since t o hs).1, hsince t o hs (hi.since t o hs).1⟩⟩
    intro o ho
    by_cases hox : o = x
    · subst hox
      refine ⟨by show s.retired o ≠ none; rw [hr]; simp, fun t => ?_⟩
      cases hst : s.since t o with
      | false => rfl
      | true =>
        exfalso
        obtain ⟨_, w, e', h2, h3⟩ := hi.since t o hst
        rw [hr, Option.some.injEq, Prod.mk.injEq] at h2
        have h4 := hi.tested hp hb hr hs
        have h5 := h3.bound u b hb
        omega
    · simp only [upd_ne hox] at ho; exact hi.freed o ho
  | tickLoad k hidle hall =>
    have hall := hall hov
    refine ⟨hi.ae_le, hi.lag, ?_, ?_, ?_, ?_, hi.stay, hi.inside, hi.loaded, hi.bound,
      hi.buf, hi.retired, hi.freed, fun t o hs => ⟨(hi.since t o hs).1, hsince t o hs (hi.since t o hs).1⟩⟩
    · rcases hi.lag' with h | ⟨h, hh⟩
      · exact .inl h
      · rw [hall h] at hh; simp at hh
    · intro h h' h1 h2
      by_cases e1 : h = k
      · by_cases e2 : h' = k
        · rw [e1, e2]
        · simp only [upd_ne e2] at h2; exact absurd (hall h') h2
      · simp only [upd_ne e1] at h1; exact absurd (hall h) h1
    · intro h g hg
      by_cases e1 : h = k
      · subst e1; simp only [upd_eq, Tick.loaded.injEq] at hg; exact hg.symm
      · simp only [upd_ne e1, hall h] at hg <;> simp at hg
    · intro h acc i hg
      by_cases e1 : h = k
      · subst e1; simp at hg
      · simp only [upd_ne e1, hall h] at hg <;> simp at hg
  | tickStore k g hl hstay hlate =>
    have hg : g = s.ge := hi.tickLoaded k g hl
    subst hg
    have hone : ∀ h, h ≠ k → s.tick h = .idle := by
      intro h hne
      by_contra hc'
      exact hne (hi.one h k hc' (by rw [hl]; simp))
    have hlag : s.ge ≤ s.ae + maxStay := by
      rcases hi.lag' with h | ⟨h, hh⟩
      · exact h
      · exfalso
        by_cases e1 : h = k
        · subst e1; rw [hl] at hh; simp at hh
        · rw [hone h e1] at hh <;> simp at hh
    refine ⟨?_, ?_, .inr ⟨k, .inl (by simp)⟩, ?_, ?_, ?_, ?_, hi.inside, hi.loaded, ?_,
      hi.buf, ?_, hi.freed, fun t o hs => ⟨(hi.since t o hs).1, hsince t o hs (hi.since t o hs).1⟩⟩
    · have := hi.ae_le; show s.ae ≤ s.ge + 1; omega
    · show s.ge + 1 ≤ s.ae + maxStay + 1; omega
    · intro h h' h1 h2
      by_cases e1 : h = k
      · by_cases e2 : h' = k
        · rw [e1, e2]
        · simp only [upd_ne e2] at h2; exact absurd (hone h' e2) h2
      · simp only [upd_ne e1] at h1; exact absurd (hone h e1) h1
    · intro h g hg
      by_cases e1 : h = k
      · subst e1; simp at hg
      · simp only [upd_ne e1, hone h e1] at hg <;> simp at hg
    · intro h acc i hg
      by_cases e1 : h = k
      · subst e1; simp at hg
      · simp only [upd_ne e1, hone h e1] at hg <;> simp at hg
    · intro t g hg
      have h1 := hi.stay t g hg
      have h2 := hstay t g hg
      show g ≤ s.ge + 1 ∧ s.ge + 1 ≤ g + maxStay
      omega
    · intro t b hb
      have := hi.bound t b hb
      exact ⟨by show b ≤ s.ge + 1; omega, this.2⟩
    · intro o w e ho
      have := hi.retired o w e ho
      show e ≤ s.ge + 1
      omega
  | scanStart k hl =>
    have hone : ∀ h, h ≠ k → s.tick h = .idle := by
      intro h hne
      by_contra hc'
      exact hne (hi.one h k hc' (by rw [hl]; simp))
    refine ⟨hi.ae_le, hi.lag, .inr ⟨k, .inr ⟨s.ge, 0, by simp⟩⟩, ?_, ?_, ?_, hi.stay, hi.inside, hi.loaded, hi.bound,
      hi.buf, hi.retired, hi.freed, fun t o hs => ⟨(hi.since t o hs).1, hsince t o hs (hi.since t o hs).1⟩⟩
    · intro h h' h1 h2
      by_cases e1 : h = k
      · by_cases e2 : h' = k
        · rw [e1, e2]
        · simp only [upd_ne e2] at h2; exact absurd (hone h' e2) h2
      · simp only [upd_ne e1] at h1; exact absurd (hone h e1) h1
    · intro h g hg
      by_cases e1 : h = k
      · subst e1; simp at hg
      · simp only [upd_ne e1, hone h e1] at hg <;> simp at hg
    · intro h acc i hg
      by_cases e1 : h = k
      · subst e1
        simp only [upd_eq, Tick.scan.injEq] at hg
        show acc ≤ s.ge ∧ s.ge ≤ acc + maxStay
        omega
      · simp only [upd_ne e1, hone h e1] at hg <;> simp at hg
  | scan k acc0 i0 hl hlt =>
    have hone : ∀ h, h ≠ k → s.tick h = .idle := by
      intro h hne
      by_contra hc'
      exact hne (hi.one h k hc' (by rw [hl]; simp))
    refine ⟨hi.ae_le, hi.lag, .inr ⟨k, .inr ⟨_, _, upd_eq⟩⟩, ?_, ?_, ?_, hi.stay, hi.inside, hi.loaded, hi.bound,
      hi.buf, hi.retired, hi.freed, fun t o hs => ⟨(hi.since t o hs).1, hsince t o hs (hi.since t o hs).1⟩⟩
    · intro h h' h1 h2
      by_cases e1 : h = k
      · by_cases e2 : h' = k
        · rw [e1, e2]
        · simp only [upd_ne e2] at h2; exact absurd (hone h' e2) h2
      · simp only [upd_ne e1] at h1; exact absurd (hone h e1) h1
    · intro h g hg
      by_cases e1 : h = k
      · subst e1; simp at hg
      · simp only [upd_ne e1, hone h e1] at hg <;> simp at hg
    · intro h acc i hg
      by_cases e1 : h = k
      · subst e1
        simp only [upd_eq, Tick.scan.injEq] at hg
        have h0 := hi.tickScan h acc0 i0 hl
        rw [← hg.1]
        show _ ≤ s.ge ∧ s.ge ≤ _
        cases hgi : s.gc i0 with
        | none => exact h0
        | some g0 =>
          simp only [pick]
          split
          · exact hi.stay i0 g0 (.inl hgi)
          · exact h0
      · simp only [upd_ne e1, hone h e1] at hg <;> simp at hg
  | tickDone k acc0 hl =>
    have hone : ∀ h, h ≠ k → s.tick h = .idle := by
      intro h hne
      by_contra hc'
      exact hne (hi.one h k hc' (by rw [hl]; simp))
    have h0 := hi.tickScan k acc0 _ hl
    refine ⟨h0.1, ?_, .inl h0.2, ?_, ?_, ?_, hi.stay, hi.inside, hi.loaded, hi.bound,
      hi.buf, hi.retired, hi.freed, fun t o hs => ⟨(hi.since t o hs).1, hsince t o hs (hi.since t o hs).1⟩⟩
    · show s.ge ≤ acc0 + maxStay + 1; omega
    · intro h h' h1 h2
      by_cases e1 : h = k
      · subst e1; simp at h1
      · simp only [upd_ne e1] at h1; exact absurd (hone h e1) h1
    · intro h g hg
      by_cases e1 : h = k
      · subst e1; simp at hg
      · simp only [upd_ne e1, hone h e1] at hg <;> simp at hg
    · intro h acc i hg
      by_cases e1 : h = k
      · subst e1; simp at hg
      · simp only [upd_ne e1, hone h e1] at hg <;> simp at hg

theorem step_strict {c : Cfg} {s s' : State} (h : Step c s s') (hi : Inv c s) (hs : Strict s) (hc : c.tso = false)
    (hla : c.late = false) : Strict s' := by
  have hkeep : ∀ t o, s.holds t o = true → s'.pc t = .inside → ∀ w e, s.retired o = some (w, e) → Safe s' t e := by
    intro t o hh hp w e hr
    obtain ⟨h1, _, h3⟩ := hs.holds t o hh
    exact (h3 w e hr).step h hi hc h1 hp
  have hpc : ∀ t o, s.holds t o = true → s.pc t = .inside := fun t o hh => (hs.holds t o hh).1
  cases h with
  | load u ht hp =>
    refine ⟨hs.linked, fun t o hh => ?_, hs.freed⟩
    by_cases htu : t = u
    · subst htu; simp at hh
    · simp only [upd_ne htu] at hh
      have h1 : update s.pc u (.loaded s.ge) t = .inside := by simp only [upd_ne htu]; exact hpc t o hh
      exact ⟨h1, (hs.holds t o hh).2.1, hkeep t o hh h1⟩
  | store u g hp _ =>
    refine ⟨hs.linked, fun t o hh => ?_, hs.freed⟩
    have h1 : update s.pc u .inside t = .inside := by
      by_cases htu : t = u
      · subst htu; simp
      · simp only [upd_ne htu]; exact hpc t o hh
    exact ⟨h1, (hs.holds t o hh).2.1, hkeep t o hh h1⟩
  | buffer u g hp h' => rw [hc] at h'; simp at h'
  | flush u g hb => rw [hi.buf u] at hb; simp at hb
  | stop u hp =>
    refine ⟨hs.linked, fun t o hh => ?_, hs.freed⟩
    by_cases htu : t = u
    · subst htu; simp at hh
    · simp only [upd_ne htu] at hh
      have h1 : update s.pc u .idle t = .inside := by simp only [upd_ne htu]; exact hpc t o hh
      exact ⟨h1, (hs.holds t o hh).2.1, hkeep t o hh h1⟩
  | acquire u x hp hl =>
    refine ⟨hs.linked, fun t o hh => ?_, hs.freed⟩
    by_cases hc' : t = u ∧ o = x
    · obtain ⟨rfl, rfl⟩ := hc'
      refine ⟨hp, ?_, fun w e hr => ?_⟩
      · show s.freed o = false
        cases hf : s.freed o with
        | false => rfl
        | true => rw [hs.freed o hf] at hl; simp at hl
      · have he := hs.linked o w e hl hr
        subst he
        obtain ⟨_, g, hg⟩ := hi.inside t hp
        exact ⟨⟨g, hg, (hi.stay t g (.inl hg)).1⟩, hi.ae_le, fun w b hb => (hi.bound w b hb).1,
          fun h acc i hk _ => (hi.tickScan h acc i hk).1⟩
    · have hh' : s.holds t o = true := by
        by_cases htu : t = u
        · subst htu
          have hox : o ≠ x := fun h => hc' ⟨rfl, h⟩
          simpa [hox] using hh
        · simpa [htu] using hh
      exact ⟨hpc t o hh', (hs.holds t o hh').2.1, hkeep t o hh' (hpc t o hh')⟩
  | link u x hp hr =>
    refine ⟨fun o w e hl ho => ?_, fun t o hh => ⟨hpc t o hh, (hs.holds t o hh).2.1, hkeep t o hh (hpc t o hh)⟩,
      fun o ho => ?_⟩
    · have hox : o ≠ x := by rintro rfl; rw [hr] at ho; simp at ho
      simp only [upd_ne hox] at hl; exact hs.linked o w e hl ho
    · have hox : o ≠ x := by rintro rfl; exact (hi.freed o ho).1 hr
      simp only [upd_ne hox]; exact hs.freed o ho
  | unlink u x hp =>
    refine ⟨fun o w e hl ho => ?_, fun t o hh => ⟨hpc t o hh, (hs.holds t o hh).2.1, hkeep t o hh (hpc t o hh)⟩,
      fun o ho => ?_⟩
    · by_cases hox : o = x
      · subst hox; simp at hl
      · simp only [upd_ne hox] at hl; exact hs.linked o w e hl ho
    · by_cases hox : o = x
      · subst hox; simp
      · simp only [upd_ne hox]; exact hs.freed o ho
  | retire u x hp hr =>
    refine ⟨fun o w e hl ho => ?_, fun t o hh => ⟨hpc t o hh, (hs.holds t o hh).2.1, fun w e ho => ?_⟩, hs.freed⟩
    · by_cases hox : o = x
      · subst hox
        simp only [upd_eq, Option.some.injEq, Prod.mk.injEq] at ho
        exact ho.2.symm
      · simp only [upd_ne hox] at ho; exact hs.linked o w e hl ho
    · by_cases hox : o = x
      · subst hox
        simp only [upd_eq, Option.some.injEq, Prod.mk.injEq] at ho
        obtain ⟨_, rfl⟩ := ho
        obtain ⟨_, g, hg⟩ := hi.inside t (hpc t o hh)
        exact ⟨⟨g, hg, (hi.stay t g (.inl hg)).1⟩, hi.ae_le, fun w b hb => (hi.bound w b hb).1,
          fun h acc i hk _ => (hi.tickScan h acc i hk).1⟩
      · simp only [upd_ne hox] at ho
        exact hkeep t o hh (hpc t o hh) w e ho
  | free u x b e hp hb hr hf ht =>
    have h4 := hi.tested hp hb hr ht
    refine ⟨hs.linked, fun t o hh => ⟨hpc t o hh, ?_, hkeep t o hh (hpc t o hh)⟩, fun o ho => ?_⟩
    · by_cases hox : o = x
      · subst hox
        have := ((hs.holds t o hh).2.2 u e hr).bound u b hb
        omega
      · simp only [upd_ne hox]; exact (hs.holds t o hh).2.1
    · by_cases hox : o = x
      · subst hox
        show s.linked o = false
        cases hl : s.linked o with
        | false => rfl
        | true => have := hs.linked o u e hl hr; omega
      · simp only [upd_ne hox] at ho; exact hs.freed o ho
  | tickStore k g hl hstay hlate =>
    refine ⟨fun o w e hl ho => ?_, fun t o hh => ⟨hpc t o hh, (hs.holds t o hh).2.1, hkeep t o hh (hpc t o hh)⟩, hs.freed⟩
    have : s.retired o = none := hlate hla o hl
    rw [show s.retired o = some (w, e) from ho] at this; simp at this
  | bound => exact ⟨hs.linked, fun t o hh => ⟨hpc t o hh, (hs.holds t o hh).2.1, hkeep t o hh (hpc t o hh)⟩, hs.freed⟩
  | tickLoad => exact ⟨hs.linked, fun t o hh => ⟨hpc t o hh, (hs.holds t o hh).2.1, hkeep t o hh (hpc t o hh)⟩, hs.freed⟩
  | scanStart => exact ⟨hs.linked, fun t o hh => ⟨hpc t o hh, (hs.holds t o hh).2.1, hkeep t o hh (hpc t o hh)⟩, hs.freed⟩
  | scan => exact ⟨hs.linked, fun t o hh => ⟨hpc t o hh, (hs.holds t o hh).2.1, hkeep t o hh (hpc t o hh)⟩, hs.freed⟩
  | tickDone => exact ⟨hs.linked, fun t o hh => ⟨hpc t o hh, (hs.holds t o hh).2.1, hkeep t o hh (hpc t o hh)⟩, hs.freed⟩

theorem reachable_inv {c : Cfg} {s : State} (hc : c.tso = false) (hov : c.overlap = false) (h : Reachable c s) :
    Inv c s := by
  induction h with
  | init l => exact init_inv c l
  | step _ h' ih => exact step_inv h' ih hc hov

theorem reachable_strict {c : Cfg} {s : State} (hc : c.tso = false) (hov : c.overlap = false) (hla : c.late = false)
    (h : Reachable c s) : Strict s := by
  induction h with
  | init l => exact init_strict l
  | step h h' ih => exact step_strict h' (reachable_inv hc hov h) ih hc hla

end Verif.Rcu.Epochs
