import Verif.Tso.Model

/-!
# What a thread sees reaches memory
-/
namespace Verif.Tso

variable {S : Type} {k : Kind S}

/-- A step changes what a thread sees of an object it claims only if it is a store of that thread. -/
theorem Inv.own {s s' : State S} (h : Inv k s) (hs : Step k s s') {t o : Nat} (hc : s.Claims t o) :
    s'.view t o = s.view t o ∨ ∃ f, s'.buf t = s.buf t ++ [(o, f)] ∧ s'.view t o = f (s.view t o) := by
  cases hs with
  | acquire t1 o1 x hb ha =>
    left
    have hne : o ≠ o1 := fun e => h.lock t o hc (e ▸ (k.acq_free ha).1)
    simp only [State.view, Function.update_of_ne hne]
  | store t1 o1 f hh hw hf =>
    by_cases ht : t = t1
    · subst ht
      by_cases ho : o = o1
      · subst ho
        right
        refine ⟨f, by simp, ?_⟩
        simp [State.view, proj_append, apply_append, proj, apply]
      · left
        simp [State.view, proj_append, proj, Ne.symm ho]
    · left; simp [State.view, Function.update_of_ne ht]
  | release t1 o1 f hh hw hf =>
    by_cases ht : t = t1
    · subst ht
      by_cases ho : o = o1
      · subst ho
        right
        refine ⟨f, by simp, ?_⟩
        simp [State.view, proj_append, apply_append, proj, apply]
      · left
        simp [State.view, proj_append, proj, Ne.symm ho]
    · left; simp [State.view, Function.update_of_ne ht]
  | commit t1 o1 f l hb =>
    left
    by_cases ht : t = t1
    · subst ht
      by_cases ho : o = o1
      · subst ho; simp [State.view, hb, proj, apply]
      · simp [State.view, hb, proj, Ne.symm ho, Function.update_of_ne ho]
    · have hne : o ≠ o1 := by
        rintro rfl
        exact ht (h.one _ _ _ hc (.inr (by rw [hb]; simp [proj])))
      simp [State.view, Function.update_of_ne ht, Function.update_of_ne hne]

/-- Part of the buffered stores of a thread to an object leads from memory to `x`. -/
def Leads (s : State S) (t o : Nat) (x : S) : Prop :=
  ∃ l l', proj o (s.buf t) = l ++ l' ∧ apply l (s.mem o) = x

theorem Inv.leads {s s' : State S} (h : Inv k s) (hs : Step k s s') {t o : Nat} {x : S} (hl : Leads s t o x) :
    s.mem o = x ∨ Leads s' t o x := by
  obtain ⟨l, l', e, hx⟩ := hl
  match l, e, hx with
  | [], _, hx => exact .inl hx
  | g :: l, e, hx =>
    right
    have hc : s.Claims t o := .inr (by rw [e]; simp)
    cases hs with
    | acquire t1 o1 y hb ha =>
      have hne : o ≠ o1 := fun e => h.lock t o hc (e ▸ (k.acq_free ha).1)
      exact ⟨g :: l, l', e, by simpa only [Function.update_of_ne hne] using hx⟩
    | store t1 o1 f hh hw hf =>
      by_cases ht : t = t1
      · subst ht
        exact ⟨g :: l, l' ++ proj o [(o1, f)], by simp [proj_append, e], hx⟩
      · exact ⟨g :: l, l', by simpa [Function.update_of_ne ht] using e, hx⟩
    | release t1 o1 f hh hw hf =>
      by_cases ht : t = t1
      · subst ht
        exact ⟨g :: l, l' ++ proj o [(o1, f)], by simp [proj_append, e], hx⟩
      · exact ⟨g :: l, l', by simpa [Function.update_of_ne ht] using e, hx⟩
    | commit t1 o1 f m hb =>
      by_cases ht : t = t1
      · subst ht
        by_cases ho : o = o1
        · subst ho
          rw [hb] at e
          simp only [proj, if_true, List.cons_append, List.cons.injEq] at e
          refine ⟨l, l', by simp [e.2], ?_⟩
          simp only [Function.update_self]
          rw [e.1]; exact hx
        · rw [hb] at e
          simp only [proj, Ne.symm ho, if_false] at e
          exact ⟨g :: l, l', by simp [e], by simpa only [Function.update_of_ne ho] using hx⟩
      · have hne : o ≠ o1 := by
          rintro rfl
          exact ht (h.one _ _ _ hc (.inr (by rw [hb]; simp [proj])))
        exact ⟨g :: l, l', by simpa [Function.update_of_ne ht] using e,
          by simpa only [Function.update_of_ne hne] using hx⟩

theorem Run.leads (r : Run k) {t o n : Nat} : ∀ d, (∃ m, n ≤ m ∧ m < n + d ∧ (r.at_ m).mem o = (r.at_ n).view t o) ∨
    Leads (r.at_ (n + d)) t o ((r.at_ n).view t o)
  | 0 => .inr ⟨proj o ((r.at_ n).buf t), [], by simp, rfl⟩
  | d + 1 => by
    rcases Run.leads r (t := t) (o := o) (n := n) d with ⟨m, h1, h2, h3⟩ | hl
    · exact .inl ⟨m, h1, by omega, h3⟩
    · rcases r.step (n + d) with e | hs
      · right; show Leads (r.at_ (n + d + 1)) _ _ _; rw [e]; exact hl
      · rcases (r.inv (n + d)).leads hs hl with h1 | h1
        · exact .inl ⟨n + d, by omega, by omega, h1⟩
        · exact .inr h1

/-- Part of the buffer of a thread leads the object `o` to `x`, and `o'` through states without `Q`. -/
def Before (s : State S) (t o o' : Nat) (x : S) (Q : S → Prop) : Prop :=
  ∃ l l', s.buf t = l ++ l' ∧ apply (proj o l) (s.mem o) = x ∧ ∀ p, p <+: proj o' l → ¬ Q (apply p (s.mem o'))

theorem Inv.before {s s' : State S} (h : Inv k s) (hs : Step k s s') {t o o' : Nat} {x : S} {Q : S → Prop}
    (hc' : s.Claims t o') (hl : Before s t o o' x Q) : s.mem o = x ∨ Before s' t o o' x Q := by
  obtain ⟨l, l', e, hx, hq⟩ := hl
  by_cases hn : proj o l = []
  · left; rw [hn] at hx; exact hx
  right
  have hc : s.Claims t o := .inr (by rw [e, proj_append]; simp [hn])
  cases hs with
  | acquire t1 o1 y hb ha =>
    have hne : o ≠ o1 := fun e => h.lock t o hc (e ▸ (k.acq_free ha).1)
    have hne' : o' ≠ o1 := fun e => h.lock t o' hc' (e ▸ (k.acq_free ha).1)
    exact ⟨l, l', e, by simpa only [Function.update_of_ne hne] using hx,
      by simpa only [Function.update_of_ne hne'] using hq⟩
  | store t1 o1 f hh hw hf =>
    by_cases ht : t = t1
    · subst ht
      exact ⟨l, l' ++ [(o1, f)], by simp [e], hx, hq⟩
    · exact ⟨l, l', by simpa [Function.update_of_ne ht] using e, hx, hq⟩
  | release t1 o1 f hh hw hf =>
    by_cases ht : t = t1
    · subst ht
      exact ⟨l, l' ++ [(o1, f)], by simp [e], hx, hq⟩
    · exact ⟨l, l', by simpa [Function.update_of_ne ht] using e, hx, hq⟩
  | commit t1 o1 f m hb =>
    by_cases ht : t = t1
    · subst ht
      match l, e, hx, hq, hn with
      | [], _, _, _, hn => exact absurd rfl hn
      | g :: l, e, hx, hq, _ =>
        rw [hb, List.cons_append, List.cons.injEq] at e
        obtain ⟨rfl, rfl⟩ := e
        refine ⟨l, l', by simp, ?_, ?_⟩
        · by_cases ho : o = o1
          · subst ho
            simp only [proj, if_true] at hx
            simp only [Function.update_self]; exact hx
          · simp only [proj, Ne.symm ho, if_false] at hx
            simpa only [Function.update_of_ne ho] using hx
        · intro p hp
          by_cases ho : o' = o1
          · subst ho
            simp only [proj, if_true] at hq
            simp only [Function.update_self]; exact hq (f :: p) (List.prefix_cons_inj f |>.mpr hp)
          · simp only [proj, Ne.symm ho, if_false] at hq
            simpa only [Function.update_of_ne ho] using hq p hp
    · have hne : o ≠ o1 := by
        rintro rfl
        exact ht (h.one _ _ _ hc (.inr (by rw [hb]; simp [proj])))
      have hne' : o' ≠ o1 := by
        rintro rfl
        exact ht (h.one _ _ _ hc' (.inr (by rw [hb]; simp [proj])))
      exact ⟨l, l', by simpa [Function.update_of_ne ht] using e,
        by simpa only [Function.update_of_ne hne] using hx, by simpa only [Function.update_of_ne hne'] using hq⟩

theorem Run.before (r : Run k) {t o o' n : Nat} {Q : S → Prop}
    (hq : ∀ p, p <+: proj o' ((r.at_ n).buf t) → ¬ Q (apply p ((r.at_ n).mem o'))) :
    ∀ d, (∀ m, n ≤ m → m < n + d → (r.at_ m).Claims t o') →
    (∃ m, n ≤ m ∧ m < n + d ∧ (r.at_ m).mem o = (r.at_ n).view t o) ∨
    Before (r.at_ (n + d)) t o o' ((r.at_ n).view t o) Q
  | 0, _ => .inr ⟨(r.at_ n).buf t, [], by simp, rfl, hq⟩
  | d + 1, hc => by
    rcases Run.before r (o := o) hq d (fun m h1 h2 => hc m h1 (by omega)) with ⟨m, h1, h2, h3⟩ | hl
    · exact .inl ⟨m, h1, by omega, h3⟩
    · rcases r.step (n + d) with e | hs
      · right; show Before (r.at_ (n + d + 1)) _ _ _ _ _; rw [e]; exact hl
      · rcases (r.inv (n + d)).before hs (hc _ (by omega) (by omega)) hl with h1 | h1
        · exact .inl ⟨n + d, by omega, by omega, h1⟩
        · exact .inr h1

/-- The states that can be reached. -/
inductive Reach (k : Kind S) (s : State S) : State S → Prop where
  | refl : Reach k s s
  | tail {s1 s2 : State S} : Reach k s s1 → Step k s1 s2 → Reach k s s2

/-- Every reachable state is on a run, which may stop there. -/
theorem Reach.run {s s' : State S} (h : Reach k s s') (hi : Init k s) :
    ∃ (r : Run k) (n : Nat), r.at_ 0 = s ∧ ∀ m, n ≤ m → r.at_ m = s' := by
  induction h with
  | refl => exact ⟨⟨fun _ => s, hi, fun _ => .inl rfl⟩, 0, rfl, fun _ _ => rfl⟩
  | @tail s1 s2 h hs ih =>
    obtain ⟨r, n, h0, hn⟩ := ih
    refine ⟨⟨fun m => if m ≤ n then r.at_ m else s2, ?_, ?_⟩, n + 1, ?_, ?_⟩
    · simpa using r.init
    · intro m
      by_cases h1 : m + 1 ≤ n
      · simp only [h1, if_true, show m ≤ n by omega]; exact r.step m
      · by_cases h2 : m ≤ n
        · have : m = n := by omega
          subst this
          simp only [Nat.le_refl, if_true, show ¬ m + 1 ≤ m by omega, if_false]
          right; rw [hn m (Nat.le_refl m)]; exact hs
        · simp only [h1, h2, if_false]; left; trivial
    · simpa using h0
    · intro m hm
      simp only [show ¬ m ≤ n by omega, if_false]

theorem Reach.trans {s s1 s2 : State S} (h : Reach k s s1) (h' : Reach k s1 s2) : Reach k s s2 := by
  induction h' with
  | refl => exact h
  | tail _ hs ih => exact .tail ih hs

/-- The same with a state on the way. -/
theorem Reach.run_through {s s1 s2 : State S} (h : Reach k s s1) (h' : Reach k s1 s2) (hi : Init k s) :
    ∃ (r : Run k) (n m : Nat), n ≤ m ∧ r.at_ 0 = s ∧ r.at_ n = s1 ∧ ∀ i, m ≤ i → r.at_ i = s2 := by
  induction h' with
  | refl =>
    obtain ⟨r, n, h0, hn⟩ := h.run hi
    exact ⟨r, n, n, Nat.le_refl n, h0, hn n (Nat.le_refl n), hn⟩
  | @tail s2 s3 h' hs ih =>
    obtain ⟨r, n, m, hnm, h0, h1, hm⟩ := ih
    refine ⟨⟨fun i => if i ≤ m then r.at_ i else s3, ?_, ?_⟩, n, m + 1, by omega, ?_, ?_, ?_⟩
    · simpa using r.init
    · intro i
      by_cases g1 : i + 1 ≤ m
      · simp only [g1, if_true, show i ≤ m by omega]; exact r.step i
      · by_cases g2 : i ≤ m
        · have : i = m := by omega
          subst this
          simp only [Nat.le_refl, if_true, show ¬ i + 1 ≤ i by omega, if_false]
          right; rw [hm i (Nat.le_refl i)]; exact hs
        · simp only [g1, g2, if_false]; left; trivial
    · simpa using h0
    · simpa [hnm] using h1
    · intro i hi'
      simp only [show ¬ i ≤ m by omega, if_false]

/-- A thread makes stores that all keep the lock. -/
theorem reach_stores {t o : Nat} : ∀ (fs : List (S → S)) (s : State S), s.holds t o → Path k (s.view t o) fs →
    (∀ p, p <+: fs → ¬ k.free (apply p (s.view t o))) →
    Reach k s { s with buf := Function.update s.buf t (s.buf t ++ fs.map (o, ·)) }
  | [], s, _, _, _ => by
    have : ({ s with buf := Function.update s.buf t (s.buf t ++ ([] : List (S → S)).map (o, ·)) } : State S) = s := by
      simp
    rw [this]; exact .refl
  | f :: fs, s, hh, ⟨hw, hp⟩, hf => by
    let s1 : State S := { s with buf := Function.update s.buf t (s.buf t ++ [(o, f)]) }
    have hv : s1.view t o = f (s.view t o) := by
      simp [s1, State.view, proj_append, apply_append, proj, apply]
    have h1 : Step k s s1 := .store t o f hh hw (hf [f] (by simp))
    have h2 : Reach k s1 { s1 with buf := Function.update s1.buf t (s1.buf t ++ fs.map (o, ·)) } := by
      refine reach_stores fs s1 hh (by rw [hv]; exact hp) fun p hp => ?_
      rw [hv]
      exact hf (f :: p) (List.prefix_cons_inj f |>.mpr hp)
    have e : ({ s1 with buf := Function.update s1.buf t (s1.buf t ++ fs.map (o, ·)) } : State S) =
        { s with buf := Function.update s.buf t (s.buf t ++ (f :: fs).map (o, ·)) } := by
      simp [s1]
    rw [e] at h2
    exact (Reach.tail .refl h1).trans h2

/-- A buffer drains: then memory is what the thread saw. -/
theorem reach_drain {t : Nat} : ∀ (b : List (Nat × (S → S))) (s : State S), s.buf t = b →
    ∃ s', Reach k s s' ∧ s'.buf t = [] ∧ (∀ t', t' ≠ t → s'.buf t' = s.buf t') ∧ (∀ o, s'.mem o = s.view t o) ∧
      s'.holds = s.holds
  | [], s, hb => ⟨s, .refl, hb, fun _ _ => rfl, fun o => by simp [State.view, hb, proj, apply], rfl⟩
  | (o, f) :: l, s, hb => by
    let s1 : State S := { s with mem := Function.update s.mem o (f (s.mem o)), buf := Function.update s.buf t l }
    obtain ⟨s', h1, h2, h3, h4, h5⟩ := reach_drain (t := t) l s1 (by simp [s1])
    refine ⟨s', (Reach.tail .refl (Step.commit t o f l hb)).trans h1, h2, ?_, ?_, h5⟩
    · intro t' ht; rw [h3 t' ht]; simp [s1, Function.update_of_ne ht]
    · intro o'
      rw [h4 o']
      by_cases ho : o' = o
      · subst ho; simp [State.view, s1, hb, proj, apply]
      · simp [State.view, s1, hb, proj, Ne.symm ho, Function.update_of_ne ho]

end Verif.Tso
