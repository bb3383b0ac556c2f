import Verif.Tso.Program

/-!
# Disciplined programs do not notice the buffers

The machine without buffers follows the one with buffers; a thread with stores in its buffer is behind there, before its oldest store.
-/
namespace Verif.Tso

variable {S L : Type} {P : Prog S L}

structure ScInv (P : Prog S L) (s : Sc S L) : Prop where
  held : ∀ t o, s.holds t o → ¬ P.free (s.mem o)
  one : ∀ t t' o, s.holds t o → s.holds t' o → t = t'

theorem ScInv.step {s0 s s' : Sc S L} (hd : Disciplined P s0) (hr : ScReach P s0 s) (h : ScInv P s) (hs : ScStep P s s') :
    ScInv P s' := by
  cases hs with
  | load t o k hn => exact ⟨h.held, h.one⟩
  | store t o f l hn =>
    have hh := hd.store hr hn
    have hsub : ∀ t' o', Function.update s.holds t (after P.free (s.holds t) o (f (s.mem o))) t' o' → s.holds t' o' := by
      intro t' o' g
      by_cases ht : t' = t
      · subst ht; rw [Function.update_self] at g; exact g.1
      · rwa [Function.update_of_ne ht] at g
    refine ⟨fun t' o' g => ?_, fun t1 t2 o' g1 g2 => h.one t1 t2 o' (hsub _ _ g1) (hsub _ _ g2)⟩
    show ¬ P.free (Function.update s.mem o (f (s.mem o)) o')
    by_cases ho : o' = o
    · subst ho
      have : t' = t := h.one _ _ _ (hsub _ _ g) hh
      subst this
      rw [Function.update_self]
      have g' : after P.free (s.holds t') o' (f (s.mem o')) o' := by
        have := g; simp only [Function.update_self] at this; exact this
      exact g'.2 rfl
    · rw [Function.update_of_ne ho]; exact h.held t' o' (hsub _ _ g)
  | got t o g k x hn hg =>
    obtain ⟨c1, c2⟩ := hd.cas hr hn hg
    have hno : ∀ t', ¬ s.holds t' o := fun t' hh => h.held t' o hh c1
    have hsub : ∀ t' o', Function.update s.holds t (fun o' => o' = o ∨ s.holds t o') t' o' →
        (t' = t ∧ o' = o) ∨ s.holds t' o' := by
      intro t' o' g
      by_cases ht : t' = t
      · subst ht; rw [Function.update_self] at g
        rcases g with e | g
        · exact .inl ⟨rfl, e⟩
        · exact .inr g
      · rw [Function.update_of_ne ht] at g; exact .inr g
    refine ⟨fun t' o' g => ?_, fun t1 t2 o' g1 g2 => ?_⟩
    · show ¬ P.free (Function.update s.mem o x o')
      by_cases ho : o' = o
      · subst ho; rw [Function.update_self]; exact c2
      · rw [Function.update_of_ne ho]
        rcases hsub _ _ g with ⟨_, e⟩ | g
        · exact absurd e ho
        · exact h.held t' o' g
    · rcases hsub _ _ g1 with ⟨e1, e2⟩ | k1 <;> rcases hsub _ _ g2 with ⟨e3, e4⟩ | k2
      · rw [e1, e3]
      · subst e2; exact absurd k2 (hno _)
      · subst e4; exact absurd k1 (hno _)
      · exact h.one _ _ _ k1 k2
  | missed t o g k hn hg => exact ⟨h.held, h.one⟩
  | fence t l hn => exact ⟨h.held, h.one⟩

theorem Disciplined.inv {s0 s : Sc S L} (hd : Disciplined P s0) (hr : ScReach P s0 s) : ScInv P s := by
  induction hr with
  | refl => exact ⟨hd.start.held, hd.start.one⟩
  | tail hr hs ih => exact ih.step hd hr hs

/-! ### A thread by itself -/

/-- Thread `t`, with the locks `h`, gets from one place to another by loads of what it has locked. -/
inductive Loads (P : Prog S L) (t : Nat) (m : Nat → S) (h : Nat → Prop) (l : L) : L → Prop where
  | refl : Loads P t m h l l
  | tail {l1 : L} {o : Nat} {k : S → L} : Loads P t m h l l1 → P.next t l1 (.load o k) → h o → Loads P t m h l (k (m o))

/-- Thread `t` gets from one place to another by the stores in the list, each followed by such loads. -/
def Solo (P : Prog S L) (t : Nat) : (Nat → S) → (Nat → Prop) → L → List (Nat × (S → S)) → L → Prop
  | _, _, l, [], l' => l = l'
  | m, h, l, (o, f) :: b, l' => ∃ l1 l2, P.next t l (.store o f l1) ∧ h o ∧
      Loads P t (Function.update m o (f (m o))) (after P.free h o (f (m o))) l1 l2 ∧
      Solo P t (Function.update m o (f (m o))) (after P.free h o (f (m o))) l2 b l'

/-- Memory and locks after the stores. -/
def memAfter : (Nat → S) → List (Nat × (S → S)) → (Nat → S)
  | m, [] => m
  | m, (o, f) :: b => memAfter (Function.update m o (f (m o))) b

def holdsAfter (free : S → Prop) : (Nat → S) → (Nat → Prop) → List (Nat × (S → S)) → (Nat → Prop)
  | _, h, [] => h
  | m, h, (o, f) :: b => holdsAfter free (Function.update m o (f (m o))) (after free h o (f (m o))) b

theorem memAfter_eq : ∀ (b : List (Nat × (S → S))) (m : Nat → S) (o : Nat), memAfter m b o = apply (proj o b) (m o)
  | [], _, _ => rfl
  | (o', f) :: b, m, o => by
    rw [memAfter, memAfter_eq b]
    by_cases ho : o = o'
    · subst ho; simp [proj, apply]
    · simp [proj, Ne.symm ho, Function.update_of_ne ho]

theorem memAfter_append : ∀ (b b' : List (Nat × (S → S))) (m : Nat → S), memAfter m (b ++ b') = memAfter (memAfter m b) b'
  | [], _, _ => rfl
  | (_, _) :: b, b', _ => memAfter_append b b' _

theorem Loads.congr {t : Nat} {m m' : Nat → S} {h : Nat → Prop} {l l' : L} (he : ∀ o, h o → m o = m' o)
    (hl : Loads P t m h l l') : Loads P t m' h l l' := by
  induction hl with
  | refl => exact .refl
  | tail _ hn ho ih => rw [he _ ho]; exact .tail ih hn ho

theorem Loads.trans {t : Nat} {m : Nat → S} {h : Nat → Prop} {l l' l'' : L} (h1 : Loads P t m h l l')
    (h2 : Loads P t m h l' l'') : Loads P t m h l l'' := by
  induction h2 with
  | refl => exact h1
  | tail _ hn ho ih => exact .tail ih hn ho

/-- A thread by itself depends only on what it has locked. -/
theorem Solo.congr {t : Nat} : ∀ {b : List (Nat × (S → S))} {m m' : Nat → S} {h : Nat → Prop} {l l' : L},
    (∀ o, h o → m o = m' o) → Solo P t m h l b l' → Solo P t m' h l b l'
  | [], _, _, _, _, _, _, hs => hs
  | (o, f) :: b, m, m', h, l, l', he, ⟨l1, l2, hn, ho, hl, hs⟩ => by
    have e : m o = m' o := he o ho
    have he' : ∀ o', after P.free h o (f (m o)) o' →
        Function.update m o (f (m o)) o' = Function.update m' o (f (m' o)) o' := by
      intro o' g
      by_cases hoo : o' = o
      · subst hoo; simp [e]
      · rw [Function.update_of_ne hoo, Function.update_of_ne hoo]; exact he o' g.1
    refine ⟨l1, l2, hn, ho, ?_, ?_⟩
    · rw [← e] at he' ⊢; exact hl.congr he'
    · rw [← e] at he' ⊢; exact Solo.congr he' hs

/-- One more store. -/
theorem Solo.store {t : Nat} : ∀ {b : List (Nat × (S → S))} {m : Nat → S} {h : Nat → Prop} {l l1 l2 : L} {o : Nat} {f : S → S},
    Solo P t m h l b l1 → P.next t l1 (.store o f l2) → holdsAfter P.free m h b o → Solo P t m h l (b ++ [(o, f)]) l2
  | [], _, _, _, _, l2, _, _, hs, hn, ho => by
    cases hs
    exact ⟨l2, l2, hn, ho, .refl, rfl⟩
  | (_, _) :: _, _, _, _, _, _, _, _, ⟨l3, l4, h1, h2, h3, h4⟩, hn, ho => ⟨l3, l4, h1, h2, h3, h4.store hn ho⟩

/-- One more load, after a store. -/
theorem Solo.load {t : Nat} : ∀ {b : List (Nat × (S → S))} {m : Nat → S} {h : Nat → Prop} {l l1 : L} {o : Nat} {k : S → L},
    b ≠ [] → Solo P t m h l b l1 → P.next t l1 (.load o k) → holdsAfter P.free m h b o →
    Solo P t m h l b (k (memAfter m b o))
  | [], _, _, _, _, _, _, hb, _, _, _ => absurd rfl hb
  | [(_, _)], _, _, _, _, _, _, _, ⟨l3, l4, h1, h2, h3, h4⟩, hn, ho => by
    cases h4
    exact ⟨l3, _, h1, h2, .tail h3 hn ho, rfl⟩
  | (_, _) :: c :: b, _, _, _, _, _, _, _, ⟨l3, l4, h1, h2, h3, h4⟩, hn, ho =>
    ⟨l3, l4, h1, h2, h3, h4.load (by simp) hn ho⟩

theorem ScReach.trans {s s1 s2 : Sc S L} (h : ScReach P s s1) (h' : ScReach P s1 s2) : ScReach P s s2 := by
  induction h' with
  | refl => exact h
  | tail _ hs ih => exact .tail ih hs

theorem Loads.reach {t : Nat} {s : Sc S L} {l' : L} (h : Loads P t s.mem (s.holds t) (s.loc t) l') :
    ScReach P s { s with loc := Function.update s.loc t l' } := by
  induction h with
  | refl =>
    have : ({ s with loc := Function.update s.loc t (s.loc t) } : Sc S L) = s := by simp
    rw [this]; exact .refl
  | @tail l1 o k _ hn _ ih =>
    have := ScStep.load (P := P) (s := { s with loc := Function.update s.loc t l1 }) t o k (by simpa using hn)
    simp only [Function.update_idem] at this
    exact .tail ih this

/-- A store of a thread and the loads after it. -/
theorem Solo.first {t o : Nat} {f : S → S} {b : List (Nat × (S → S))} {s : Sc S L} {l' : L}
    (h : Solo P t s.mem (s.holds t) (s.loc t) ((o, f) :: b) l') :
    ∃ s', ScReach P s s' ∧ s.holds t o ∧ s'.mem = Function.update s.mem o (f (s.mem o)) ∧
      (∀ t', t' ≠ t → s'.loc t' = s.loc t') ∧
      s'.holds = Function.update s.holds t (after P.free (s.holds t) o (f (s.mem o))) ∧ s'.dirty = Function.update s.dirty t True ∧
      Solo P t s'.mem (s'.holds t) (s'.loc t) b l' := by
  obtain ⟨l1, l2, hn, ho, hl, hs⟩ := h
  have h1 := ScStep.store (P := P) (s := s) t o f l1 hn
  generalize hs1 : (⟨Function.update s.mem o (f (s.mem o)), Function.update s.loc t l1,
        Function.update s.holds t (after P.free (s.holds t) o (f (s.mem o))), Function.update s.dirty t True⟩ : Sc S L) = s1 at h1
  have e1 : s1.mem = Function.update s.mem o (f (s.mem o)) := by rw [← hs1]
  have e2 : s1.holds t = after P.free (s.holds t) o (f (s.mem o)) := by rw [← hs1]; simp
  have e3 : s1.loc t = l1 := by rw [← hs1]; simp
  have h2 := Loads.reach (s := s1) (t := t) (l' := l2) (by rw [e1, e2, e3]; exact hl)
  refine ⟨_, (ScReach.tail .refl h1).trans h2, ho, e1, ?_, by rw [← hs1], by rw [← hs1], ?_⟩
  · intro t' ht
    show Function.update s1.loc t l2 t' = _
    rw [Function.update_of_ne ht, ← hs1]; exact Function.update_of_ne ht ..
  · show Solo P t s1.mem (s1.holds t) (Function.update s1.loc t l2 t) b l'
    rw [e1, e2, Function.update_self]; exact hs

/-- A thread by itself runs to the end. -/
theorem Solo.reach {t : Nat} : ∀ {b : List (Nat × (S → S))} {s : Sc S L} {l' : L},
    Solo P t s.mem (s.holds t) (s.loc t) b l' →
    ∃ s', ScReach P s s' ∧ s'.loc t = l' ∧ s'.mem = memAfter s.mem b ∧ s'.holds t = holdsAfter P.free s.mem (s.holds t) b ∧
      (s.dirty t ∨ b ≠ [] → s'.dirty t)
  | [], s, _, h => ⟨s, .refl, h, rfl, rfl, fun h => h.resolve_right (by simp)⟩
  | (o, f) :: b, s, l', h => by
    obtain ⟨s1, r1, _, e1, _, e2, e3, h1⟩ := h.first
    obtain ⟨s2, r2, g1, g2, g3, g4⟩ := Solo.reach h1
    have e2' : s1.holds t = after P.free (s.holds t) o (f (s.mem o)) := by rw [e2]; simp
    exact ⟨s2, r1.trans r2, g1, by rw [g2, e1]; rfl, by rw [g3, e1, e2']; rfl, fun _ => g4 (.inl (by rw [e3]; simp))⟩

/-! ### Both machines -/

/-- The machine without buffers is in `s` when the one with buffers is in `b`. -/
structure Follows (P : Prog S L) (s : Sc S L) (b : Buffered S L) : Prop where
  mem : s.mem = b.mem
  solo : ∀ t, Solo P t s.mem (s.holds t) (s.loc t) (b.buf t) (b.loc t)

theorem Follows.at_end {s0 s : Sc S L} {b : Buffered S L} (hr : ScReach P s0 s) (h : Follows P s b) (t : Nat) :
    ∃ s', ScReach P s0 s' ∧ s'.loc t = b.loc t ∧ (∀ o, s'.mem o = b.view t o) ∧
      s'.holds t = holdsAfter P.free s.mem (s.holds t) (b.buf t) ∧ (b.buf t ≠ [] → s'.dirty t) := by
  obtain ⟨s', r, g1, g2, g3, g4⟩ := (h.solo t).reach
  refine ⟨s', hr.trans r, g1, fun o => ?_, g3, fun hb => g4 (.inr hb)⟩
  rw [g2, memAfter_eq, h.mem]; rfl

/-- Other threads do not notice a change of an object that a thread has locked or nobody has. -/
theorem Follows.others {s : Sc S L} {b : Buffered S L} (h : Follows P s b) {t o : Nat} {x : S}
    (hno : ∀ t', t' ≠ t → ¬ s.holds t' o) {t' : Nat} (ht : t' ≠ t) :
    Solo P t' (Function.update s.mem o x) (s.holds t') (s.loc t') (b.buf t') (b.loc t') := by
  refine (h.solo t').congr fun o' ho => ?_
  have : o' ≠ o := fun e => hno t' ht (e ▸ ho)
  rw [Function.update_of_ne this]

theorem Follows.step {s0 s : Sc S L} {b b' : Buffered S L} (hd : Disciplined P s0) (hr : ScReach P s0 s) (h : Follows P s b)
    (hs : BStep P b b') : ∃ s', ScReach P s0 s' ∧ Follows P s' b' := by
  have hinv := hd.inv hr
  cases hs with
  | load t o k hn =>
    by_cases hb : b.buf t = []
    · have hl : s.loc t = b.loc t := by have := h.solo t; rw [hb] at this; exact this
      have hv : b.view t o = s.mem o := by simp [Buffered.view, hb, proj, apply, h.mem]
      refine ⟨_, hr.tail (.load t o k (by rw [hl]; exact hn)), h.mem, fun t' => ?_⟩
      by_cases ht : t' = t
      · subst ht
        simp only [Function.update_self, hb, hv]; rfl
      · simp only [Function.update_of_ne ht]; exact h.solo t'
    · obtain ⟨s1, r1, g1, g2, g3, g4⟩ := h.at_end hr t
      have ho := hd.load r1 (t := t) (o := o) (k := k) (by rw [g1]; exact hn) (g4 hb)
      rw [g3] at ho
      refine ⟨s, hr, h.mem, fun t' => ?_⟩
      by_cases ht : t' = t
      · subst ht
        simp only [Function.update_self]
        have := (h.solo t').load hb hn ho
        rw [memAfter_eq, h.mem] at this
        rw [h.mem]
        exact this
      · simp only [Function.update_of_ne ht]; exact h.solo t'
  | store t o f l hn =>
    obtain ⟨s1, r1, g1, g2, g3, g4⟩ := h.at_end hr t
    have ho := hd.store r1 (t := t) (o := o) (f := f) (l := l) (by rw [g1]; exact hn)
    rw [g3] at ho
    refine ⟨s, hr, h.mem, fun t' => ?_⟩
    by_cases ht : t' = t
    · subst ht
      simp only [Function.update_self]
      exact (h.solo t').store hn ho
    · simp only [Function.update_of_ne ht]; exact h.solo t'
  | got t o g k x hn hb hg =>
    have hl : s.loc t = b.loc t := by have := h.solo t; rw [hb] at this; exact this
    rw [← h.mem] at hg
    have hn' : P.next t (s.loc t) (.cas o g k) := by rw [hl]; exact hn
    obtain ⟨c1, _⟩ := hd.cas hr hn' hg
    have hno : ∀ t', ¬ s.holds t' o := fun t' hh => hinv.held t' o hh c1
    refine ⟨_, hr.tail (.got t o g k x hn' hg), by simp only [h.mem], fun t' => ?_⟩
    by_cases ht : t' = t
    · subst ht
      simp only [Function.update_self, hb, h.mem]; rfl
    · simp only [Function.update_of_ne ht]
      exact h.others (t := t) (fun t' _ => hno t') ht
  | missed t o g k hn hb hg =>
    have hl : s.loc t = b.loc t := by have := h.solo t; rw [hb] at this; exact this
    rw [← h.mem] at hg
    refine ⟨_, hr.tail (.missed t o g k (by rw [hl]; exact hn) hg), h.mem, fun t' => ?_⟩
    by_cases ht : t' = t
    · subst ht
      simp only [Function.update_self, hb, h.mem]; rfl
    · simp only [Function.update_of_ne ht]; exact h.solo t'
  | fence t l hn hb =>
    have hl : s.loc t = b.loc t := by have := h.solo t; rw [hb] at this; exact this
    refine ⟨_, hr.tail (.fence t l (by rw [hl]; exact hn)), h.mem, fun t' => ?_⟩
    by_cases ht : t' = t
    · subst ht
      simp only [Function.update_self, hb]; rfl
    · simp only [Function.update_of_ne ht]; exact h.solo t'
  | commit t o f c hb =>
    have hsolo := h.solo t
    rw [hb] at hsolo
    obtain ⟨s1, r1, ho, e1, e2, e3, _, h1⟩ := hsolo.first
    refine ⟨s1, hr.trans r1, by rw [e1]; simp only [h.mem], fun t' => ?_⟩
    by_cases ht : t' = t
    · subst ht
      simp only [Function.update_self]; exact h1
    · simp only [Function.update_of_ne ht]
      rw [e1, e2 t' ht, e3, Function.update_of_ne ht]
      exact h.others (t := t) (fun t'' ht' hh => ht' (hinv.one _ _ _ hh ho)) ht

theorem follows {s0 : Sc S L} (hd : Disciplined P s0) {b : Buffered S L} (hr : BReach P s0.buffered b) :
    ∃ s, ScReach P s0 s ∧ Follows P s b := by
  induction hr with
  | refl => exact ⟨s0, .refl, rfl, fun _ => rfl⟩
  | tail _ hs ih =>
    obtain ⟨s, r, h⟩ := ih
    exact h.step hd r hs

/-! ### All buffers drain -/

theorem BReach.trans {s s1 s2 : Buffered S L} (h : BReach P s s1) (h' : BReach P s1 s2) : BReach P s s2 := by
  induction h' with
  | refl => exact h
  | tail _ hs ih => exact .tail ih hs

theorem drain_one {t : Nat} : ∀ (c : List (Nat × (S → S))) (b : Buffered S L), b.buf t = c →
    ∃ b', BReach P b b' ∧ b'.loc = b.loc ∧ b'.buf t = [] ∧ ∀ t', t' ≠ t → b'.buf t' = b.buf t'
  | [], b, hb => ⟨b, .refl, rfl, hb, fun _ _ => rfl⟩
  | (o, f) :: c, b, hb => by
    obtain ⟨b', h1, h2, h3, h4⟩ := drain_one (t := t) c
      { b with mem := Function.update b.mem o (f (b.mem o)), buf := Function.update b.buf t c } (by simp)
    refine ⟨b', (BReach.tail .refl (.commit t o f c hb)).trans h1, h2, h3, fun t' ht => ?_⟩
    rw [h4 t' ht]; exact Function.update_of_ne ht ..

/-- Only finitely many threads have done anything. -/
theorem BReach.few {s0 : Sc S L} {b : Buffered S L} (hr : BReach P s0.buffered b) : ∃ n, ∀ t, n ≤ t → b.buf t = [] := by
  induction hr with
  | refl => exact ⟨0, fun _ _ => rfl⟩
  | @tail b b' _ hs ih =>
    obtain ⟨n, hn⟩ := ih
    cases hs with
    | load => exact ⟨n, hn⟩
    | store t o f l _ =>
      refine ⟨max n (t + 1), fun t' ht => ?_⟩
      have : t' ≠ t := by omega
      simp only [Function.update_of_ne this]; exact hn t' (by omega)
    | got => exact ⟨n, hn⟩
    | missed => exact ⟨n, hn⟩
    | fence => exact ⟨n, hn⟩
    | commit t o f c hb =>
      refine ⟨max n (t + 1), fun t' ht => ?_⟩
      have : t' ≠ t := by omega
      simp only [Function.update_of_ne this]; exact hn t' (by omega)

theorem drain_all : ∀ (n : Nat) (b : Buffered S L), (∀ t, n ≤ t → b.buf t = []) →
    ∃ b', BReach P b b' ∧ b'.loc = b.loc ∧ ∀ t, b'.buf t = []
  | 0, b, h => ⟨b, .refl, rfl, fun t => h t (Nat.zero_le t)⟩
  | n + 1, b, h => by
    obtain ⟨b1, h1, h2, h3, h4⟩ := drain_one (P := P) (t := n) _ b rfl
    obtain ⟨b2, g1, g2, g3⟩ := drain_all n b1 (fun t ht => by
      by_cases e : t = n
      · subst e; exact h3
      · rw [h4 t e]; exact h t (by omega))
    exact ⟨b2, h1.trans g1, g2.trans h2, g3⟩

end Verif.Tso
