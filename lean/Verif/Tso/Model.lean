import Mathlib.Logic.Function.Basic
import Mathlib.Data.List.Basic
import Mathlib.Tactic.ByContra

/-!
# Locked objects on a machine with store buffers

x86 processors hold their stores back in a buffer, from which the stores reach memory later, in order; a processor reads its own
buffered stores (x86-TSO).  Locks are taken with a locked compare-and-exchange (`bool_cmpxchg`, /repo/nodeversion.hh:94-127), which
waits for the buffer to be empty; everything else, in particular the unlocking (/repo/nodeversion.hh:132-141), is a plain store.  The
fences of the code (/repo/compiler.hh:81-93) only keep the compiler from reordering.

Objects are nodes with all their fields.  What a store does to an object is a function of the object.
-/
namespace Verif.Tso

/-- A kind of objects: `free` is that the lock bit is not set, `acq` what the compare-and-exchange does, `work` what one store of a
thread that has the lock may do, including the one that unlocks. -/
structure Kind (S : Type) where
  free : S → Prop
  acq : S → S → Prop
  work : S → S → Prop
  acq_free : ∀ {s s'}, acq s s' → free s ∧ ¬ free s'
  work_held : ∀ {s s'}, work s s' → ¬ free s

/-- Memory, the buffer of each thread with the oldest store first, and for each thread the objects it has locked and not yet unlocked,
as far as the thread has come. -/
structure State (S : Type) where
  mem : Nat → S
  buf : Nat → List (Nat × (S → S))
  holds : Nat → Nat → Prop

variable {S : Type}

/-- The stores to one object. -/
def proj (o : Nat) : List (Nat × (S → S)) → List (S → S)
  | [] => []
  | (o', f) :: l => if o' = o then f :: proj o l else proj o l

/-- The stores reach the object one after the other. -/
def apply : List (S → S) → S → S
  | [], s => s
  | f :: l, s => apply l (f s)

/-- What a thread reads: memory with the stores in its own buffer. -/
def State.view (s : State S) (t o : Nat) : S := apply (proj o (s.buf t)) (s.mem o)

inductive Step (k : Kind S) : State S → State S → Prop where
  /-- The compare-and-exchange: only when the buffer is empty. -/
  | acquire {s : State S} (t o : Nat) (x : S) (hb : s.buf t = []) (ha : k.acq (s.mem o) x) :
      Step k s { s with mem := Function.update s.mem o x, holds := fun t' o' => (t' = t ∧ o' = o) ∨ s.holds t' o' }
  /-- A store to an object that the thread has locked. -/
  | store {s : State S} (t o : Nat) (f : S → S) (hh : s.holds t o) (hw : k.work (s.view t o) (f (s.view t o)))
      (hf : ¬ k.free (f (s.view t o))) :
      Step k s { s with buf := Function.update s.buf t (s.buf t ++ [(o, f)]) }
  /-- The store that unlocks. -/
  | release {s : State S} (t o : Nat) (f : S → S) (hh : s.holds t o) (hw : k.work (s.view t o) (f (s.view t o)))
      (hf : k.free (f (s.view t o))) :
      Step k s { s with
        buf := Function.update s.buf t (s.buf t ++ [(o, f)])
        holds := fun t' o' => s.holds t' o' ∧ ¬ (t' = t ∧ o' = o) }
  /-- The oldest store of a buffer reaches memory. -/
  | commit {s : State S} (t o : Nat) (f : S → S) (l : List (Nat × (S → S))) (hb : s.buf t = (o, f) :: l) :
      Step k s { s with mem := Function.update s.mem o (f (s.mem o)), buf := Function.update s.buf t l }

/-- Empty buffers; an object is free, or one thread has it locked (objects that are not yet part of the tree are locked by the thread
that makes them: a new leaf gets the version of the locked leaf that splits, /repo/masstree_split.hh:197-198). -/
structure Init (k : Kind S) (s : State S) : Prop where
  empty : ∀ t, s.buf t = []
  held : ∀ t o, s.holds t o → ¬ k.free (s.mem o)
  one : ∀ t t' o, s.holds t o → s.holds t' o → t = t'
  kept : ∀ o, ¬ k.free (s.mem o) → ∃ t, s.holds t o

/-- States at successive times. -/
structure Run (k : Kind S) where
  at_ : Nat → State S
  init : Init k (at_ 0)
  step : ∀ n, at_ (n + 1) = at_ n ∨ Step k (at_ n) (at_ (n + 1))

/-! ### Lemmas -/

theorem proj_append (o : Nat) : ∀ (l l' : List (Nat × (S → S))), proj o (l ++ l') = proj o l ++ proj o l'
  | [], _ => rfl
  | (o', f) :: l, l' => by
    simp only [List.cons_append, proj, proj_append o l l']
    split <;> rfl

theorem apply_append : ∀ (l l' : List (S → S)) (s : S), apply (l ++ l') s = apply l' (apply l s)
  | [], _, _ => rfl
  | f :: l, l', s => apply_append l l' (f s)

/-- The stores are, one after the other, what a thread with the lock may do. -/
def Path (k : Kind S) : S → List (S → S) → Prop
  | _, [] => True
  | s, f :: l => k.work s (f s) ∧ Path k (f s) l

theorem path_snoc {k : Kind S} : ∀ {l : List (S → S)} {s : S} {f : S → S}, Path k s l → k.work (apply l s) (f (apply l s)) →
    Path k s (l ++ [f])
  | [], _, _, _, h => ⟨h, trivial⟩
  | _ :: _, _, _, ⟨h1, h2⟩, h => ⟨h1, path_snoc h2 h⟩

/-- The thread has the object locked, or stores to it in its buffer. -/
def State.Claims (s : State S) (t o : Nat) : Prop := s.holds t o ∨ proj o (s.buf t) ≠ []

structure Inv (k : Kind S) (s : State S) : Prop where
  one : ∀ t t' o, s.Claims t o → s.Claims t' o → t = t'
  lock : ∀ t o, s.Claims t o → ¬ k.free (s.mem o)
  held : ∀ t o, s.holds t o → ¬ k.free (s.view t o)
  last : ∀ t o, ¬ s.holds t o → proj o (s.buf t) ≠ [] → k.free (s.view t o)
  path : ∀ t o, Path k (s.mem o) (proj o (s.buf t))
  kept : ∀ o, ¬ k.free (s.mem o) → ∃ t, s.Claims t o

theorem Init.inv {k : Kind S} {s : State S} (h : Init k s) : Inv k s := by
  have hp : ∀ t o, proj o (s.buf t) = [] := fun t o => by rw [h.empty t]; rfl
  have hc : ∀ t o, s.Claims t o ↔ s.holds t o := fun t o => by simp [State.Claims, hp]
  have hv : ∀ t o, s.view t o = s.mem o := fun t o => by simp [State.view, hp, apply]
  refine ⟨?_, ?_, ?_, ?_, ?_, ?_⟩
  · intro t t' o h1 h2; exact h.one t t' o ((hc _ _).mp h1) ((hc _ _).mp h2)
  · intro t o h1; exact h.held t o ((hc _ _).mp h1)
  · intro t o h1; rw [hv]; exact h.held t o h1
  · intro t o _ h2; exact absurd (hp t o) h2
  · intro t o; rw [hp]; trivial
  · intro o ho; obtain ⟨t, ht⟩ := h.kept o ho; exact ⟨t, (hc _ _).mpr ht⟩

/-- What a step does to the memory of each object, and to what each thread reads. -/
structure Effect (k : Kind S) (s s' : State S) : Prop where
  mem : ∀ o, s'.mem o = s.mem o ∨ k.acq (s.mem o) (s'.mem o) ∨ k.work (s.mem o) (s'.mem o)
  view : ∀ t o, s'.view t o = s.view t o ∨ k.acq (s.view t o) (s'.view t o) ∨ k.work (s.view t o) (s'.view t o)

theorem Inv.acquire {k : Kind S} {s : State S} (h : Inv k s) {t o : Nat} {x : S} (hb : s.buf t = []) (ha : k.acq (s.mem o) x) :
    let s' : State S := { s with mem := Function.update s.mem o x, holds := fun t' o' => (t' = t ∧ o' = o) ∨ s.holds t' o' }
    Inv k s' ∧ Effect k s s' := by
  intro s'
  obtain ⟨a1, a2⟩ := k.acq_free ha
  have hno : ∀ t', ¬ s.Claims t' o := fun t' hc => h.lock t' o hc a1
  have hcl : ∀ t' o', s'.Claims t' o' ↔ (t' = t ∧ o' = o) ∨ s.Claims t' o' := by
    intro t' o'; simp only [State.Claims, s']; tauto
  have hpo : ∀ t', proj o (s.buf t') = [] := by
    intro t'
    by_contra hne
    exact hno t' (.inr hne)
  have hmo : s'.mem o = x := Function.update_self ..
  have hmne : ∀ o', o' ≠ o → s'.mem o' = s.mem o' := fun o' ho => Function.update_of_ne ho ..
  have hvo : ∀ t', s'.view t' o = x := by
    intro t'
    show apply (proj o (s.buf t')) (s'.mem o) = x
    rw [hpo, hmo]; rfl
  have hv : ∀ t', s.view t' o = s.mem o := by
    intro t'; show apply (proj o (s.buf t')) (s.mem o) = s.mem o; rw [hpo]; rfl
  have hvne : ∀ t' o', o' ≠ o → s'.view t' o' = s.view t' o' := by
    intro t' o' ho
    show apply (proj o' (s.buf t')) (s'.mem o') = _
    rw [hmne o' ho]; rfl
  refine ⟨⟨?_, ?_, ?_, ?_, ?_, ?_⟩, ?_, ?_⟩
  · intro t1 t2 o' h1 h2
    rw [hcl] at h1 h2
    rcases h1 with ⟨rfl, rfl⟩ | h1 <;> rcases h2 with ⟨rfl, e⟩ | h2
    · rfl
    · exact absurd h2 (hno _)
    · subst e; exact absurd h1 (hno _)
    · exact h.one _ _ _ h1 h2
  · intro t1 o' h1
    by_cases ho : o' = o
    · subst ho; rw [hmo]; exact a2
    · rw [hmne o' ho]
      rcases (hcl t1 o').mp h1 with ⟨_, e⟩ | h1
      · exact absurd e ho
      · exact h.lock t1 o' h1
  · intro t1 o' h1
    by_cases ho : o' = o
    · subst ho; rw [hvo]; exact a2
    · rw [hvne t1 o' ho]
      rcases h1 with ⟨_, e⟩ | h1
      · exact absurd e ho
      · exact h.held t1 o' h1
  · intro t1 o' h1 h2
    by_cases ho : o' = o
    · subst ho; exact absurd (hpo t1) h2
    · rw [hvne t1 o' ho]
      exact h.last t1 o' (fun hh => h1 (.inr hh)) h2
  · intro t1 o'
    by_cases ho : o' = o
    · subst ho; show Path k (s'.mem o') (proj o' (s.buf t1)); rw [hpo]; trivial
    · rw [hmne o' ho]; exact h.path t1 o'
  · intro o' h1
    by_cases ho : o' = o
    · subst ho; exact ⟨t, (hcl _ _).mpr (.inl ⟨rfl, rfl⟩)⟩
    · rw [hmne o' ho] at h1
      obtain ⟨t1, ht⟩ := h.kept o' h1
      exact ⟨t1, (hcl _ _).mpr (.inr ht)⟩
  · intro o'
    by_cases ho : o' = o
    · subst ho; right; left; rw [hmo]; exact ha
    · left; exact hmne o' ho
  · intro t1 o'
    by_cases ho : o' = o
    · subst ho; right; left; rw [hvo, hv]; exact ha
    · left; exact hvne t1 o' ho

/-- A store goes to the buffer, with or without unlocking. -/
theorem Inv.push {k : Kind S} {s : State S} (h : Inv k s) {t o : Nat} {f : S → S} (hh : s.holds t o)
    (hw : k.work (s.view t o) (f (s.view t o))) {hs : Nat → Nat → Prop}
    (h1 : ∀ t' o', ¬ (t' = t ∧ o' = o) → (hs t' o' ↔ s.holds t' o'))
    (h2 : (hs t o ∧ ¬ k.free (f (s.view t o))) ∨ (¬ hs t o ∧ k.free (f (s.view t o)))) :
    let s' : State S := { s with buf := Function.update s.buf t (s.buf t ++ [(o, f)]), holds := hs }
    Inv k s' ∧ Effect k s s' := by
  intro s'
  have hpo : proj o (s'.buf t) = proj o (s.buf t) ++ [f] := by
    show proj o (Function.update s.buf t (s.buf t ++ [(o, f)]) t) = _
    rw [Function.update_self, proj_append]; simp [proj]
  have hpne : ∀ t' o', ¬ (t' = t ∧ o' = o) → proj o' (s'.buf t') = proj o' (s.buf t') := by
    intro t' o' hne
    show proj o' (Function.update s.buf t (s.buf t ++ [(o, f)]) t') = _
    by_cases ht : t' = t
    · subst ht
      have : o ≠ o' := fun e => hne ⟨rfl, e.symm⟩
      rw [Function.update_self, proj_append]; simp [proj, this]
    · rw [Function.update_of_ne ht]
  have hvo : s'.view t o = f (s.view t o) := by
    show apply (proj o (s'.buf t)) (s.mem o) = _
    rw [hpo, apply_append]; rfl
  have hvne : ∀ t' o', ¬ (t' = t ∧ o' = o) → s'.view t' o' = s.view t' o' := by
    intro t' o' hne
    show apply (proj o' (s'.buf t')) (s.mem o') = _
    rw [hpne t' o' hne]; rfl
  have hcl : ∀ t' o', s'.Claims t' o' ↔ s.Claims t' o' := by
    intro t' o'
    by_cases hne : t' = t ∧ o' = o
    · obtain ⟨rfl, rfl⟩ := hne
      refine ⟨fun _ => .inl hh, fun _ => .inr ?_⟩
      rw [hpo]; simp
    · have e1 := h1 t' o' hne
      have e2 := hpne t' o' hne
      unfold State.Claims
      rw [e2]
      exact or_congr e1 Iff.rfl
  refine ⟨⟨?_, ?_, ?_, ?_, ?_, ?_⟩, fun o' => .inl rfl, ?_⟩
  · intro t1 t2 o' g1 g2
    exact h.one _ _ _ ((hcl _ _).mp g1) ((hcl _ _).mp g2)
  · intro t1 o' g1
    exact h.lock _ _ ((hcl _ _).mp g1)
  · intro t1 o' g1
    by_cases hne : t1 = t ∧ o' = o
    · obtain ⟨rfl, rfl⟩ := hne
      rw [hvo]
      rcases h2 with h2 | h2
      · exact h2.2
      · exact absurd g1 h2.1
    · rw [hvne t1 o' hne]
      exact h.held t1 o' ((h1 t1 o' hne).mp g1)
  · intro t1 o' g1 g2
    by_cases hne : t1 = t ∧ o' = o
    · obtain ⟨rfl, rfl⟩ := hne
      rw [hvo]
      rcases h2 with h2 | h2
      · exact absurd h2.1 g1
      · exact h2.2
    · rw [hvne t1 o' hne]
      rw [hpne t1 o' hne] at g2
      exact h.last t1 o' (fun hh => g1 ((h1 t1 o' hne).mpr hh)) g2
  · intro t1 o'
    by_cases hne : t1 = t ∧ o' = o
    · obtain ⟨rfl, rfl⟩ := hne
      rw [hpo]
      exact path_snoc (h.path t1 o') hw
    · rw [hpne t1 o' hne]
      exact h.path t1 o'
  · intro o' g
    obtain ⟨t1, ht⟩ := h.kept o' g
    exact ⟨t1, (hcl _ _).mpr ht⟩
  · intro t1 o'
    by_cases hne : t1 = t ∧ o' = o
    · obtain ⟨rfl, rfl⟩ := hne
      right; right; rw [hvo]; exact hw
    · left; exact hvne t1 o' hne

theorem Inv.commit {k : Kind S} {s : State S} (h : Inv k s) {t o : Nat} {f : S → S} {l : List (Nat × (S → S))}
    (hb : s.buf t = (o, f) :: l) :
    let s' : State S := { s with mem := Function.update s.mem o (f (s.mem o)), buf := Function.update s.buf t l }
    Inv k s' ∧ Effect k s s' ∧ k.work (s.mem o) (f (s.mem o)) := by
  intro s'
  have hpt : proj o (s.buf t) = f :: proj o l := by rw [hb]; simp [proj]
  have hclaim : s.Claims t o := .inr (by rw [hpt]; simp)
  have hp' : proj o (s'.buf t) = proj o l := by
    show proj o (Function.update s.buf t l t) = _
    rw [Function.update_self]
  have hpne : ∀ t' o', ¬ (t' = t ∧ o' = o) → proj o' (s'.buf t') = proj o' (s.buf t') := by
    intro t' o' hne
    show proj o' (Function.update s.buf t l t') = _
    by_cases ht : t' = t
    · subst ht
      have : o ≠ o' := fun e => hne ⟨rfl, e.symm⟩
      rw [Function.update_self, hb]; simp [proj, this]
    · rw [Function.update_of_ne ht]
  have hother : ∀ t', t' ≠ t → ¬ s.Claims t' o := fun t' hne hc => hne (h.one _ _ _ hc hclaim)
  have hpo : ∀ t', t' ≠ t → proj o (s.buf t') = [] := by
    intro t' hne
    by_contra hh
    exact hother t' hne (.inr hh)
  have hmo : s'.mem o = f (s.mem o) := Function.update_self ..
  have hmne : ∀ o', o' ≠ o → s'.mem o' = s.mem o' := fun o' ho => Function.update_of_ne ho ..
  have hpath := h.path t o
  rw [hpt] at hpath
  obtain ⟨hw, hpath⟩ := hpath
  have hvt : ∀ o', s'.view t o' = s.view t o' := by
    intro o'
    show apply (proj o' (s'.buf t)) (s'.mem o') = apply (proj o' (s.buf t)) (s.mem o')
    by_cases ho : o' = o
    · subst ho; rw [hp', hmo, hpt]; rfl
    · rw [hpne t o' (fun hh => ho hh.2), hmne o' ho]
  have hvne : ∀ t' o', o' ≠ o → s'.view t' o' = s.view t' o' := by
    intro t' o' ho
    show apply (proj o' (s'.buf t')) (s'.mem o') = apply (proj o' (s.buf t')) (s.mem o')
    rw [hpne t' o' (fun hh => ho hh.2), hmne o' ho]
  have hvo : ∀ t', t' ≠ t → s.view t' o = s.mem o ∧ s'.view t' o = f (s.mem o) := by
    intro t' hne
    refine ⟨?_, ?_⟩
    · show apply (proj o (s.buf t')) (s.mem o) = _
      rw [hpo t' hne]; rfl
    · show apply (proj o (s'.buf t')) (s'.mem o) = _
      rw [hpne t' o (fun hh => hne hh.1), hpo t' hne, hmo]; rfl
  have hcl : ∀ t' o', s'.Claims t' o' → s.Claims t' o' := by
    intro t' o' hc
    by_cases hne : t' = t ∧ o' = o
    · obtain ⟨rfl, rfl⟩ := hne; exact hclaim
    · unfold State.Claims at hc ⊢
      rw [hpne t' o' hne] at hc; exact hc
  have hcl' : ∀ t' o', o' ≠ o → s.Claims t' o' → s'.Claims t' o' := by
    intro t' o' ho hc
    unfold State.Claims at hc ⊢
    rw [hpne t' o' (fun hh => ho hh.2)]; exact hc
  refine ⟨⟨?_, ?_, ?_, ?_, ?_, ?_⟩, ⟨?_, ?_⟩, hw⟩
  · intro t1 t2 o' g1 g2
    exact h.one _ _ _ (hcl _ _ g1) (hcl _ _ g2)
  · intro t1 o' g
    by_cases ho : o' = o
    · subst ho
      rw [hmo]
      have ht1 : t1 = t := h.one _ _ _ (hcl _ _ g) hclaim
      subst ht1
      unfold State.Claims at g
      rw [hp'] at g
      match hl : proj o' l, g, hpath with
      | [], g, _ =>
        have hho : s.holds t1 o' := g.resolve_right (by simp)
        have := h.held t1 o' hho
        rwa [← hvt o', show s'.view t1 o' = f (s.mem o') by
          show apply (proj o' (s'.buf t1)) (s'.mem o') = _
          rw [hp', hl, hmo]; rfl] at this
      | _ :: _, _, hpath => exact k.work_held hpath.1
    · rw [hmne o' ho]; exact h.lock t1 o' (hcl _ _ g)
  · intro t1 o' g
    by_cases ht : t1 = t
    · subst ht; rw [hvt]; exact h.held _ _ g
    · by_cases ho : o' = o
      · subst ho; exact absurd (.inl g) (hother t1 ht)
      · rw [hvne t1 o' ho]; exact h.held _ _ g
  · intro t1 o' g1 g2
    by_cases ht : t1 = t
    · subst ht
      rw [hvt]
      by_cases ho : o' = o
      · subst ho; exact h.last _ _ g1 (by rw [hpt]; simp)
      · rw [hpne t1 o' (fun hh => ho hh.2)] at g2
        exact h.last _ _ g1 g2
    · rw [hpne t1 o' (fun hh => ht hh.1)] at g2
      by_cases ho : o' = o
      · subst ho; exact absurd (hpo t1 ht) g2
      · rw [hvne t1 o' ho]; exact h.last _ _ g1 g2
  · intro t1 o'
    by_cases ho : o' = o
    · subst ho
      by_cases ht : t1 = t
      · subst ht; rw [hp', hmo]; exact hpath
      · rw [hpne t1 o' (fun hh => ht hh.1), hpo t1 ht]; trivial
    · rw [hpne t1 o' (fun hh => ho hh.2), hmne o' ho]; exact h.path t1 o'
  · intro o' g
    by_cases ho : o' = o
    · subst ho
      refine ⟨t, ?_⟩
      by_contra hno
      unfold State.Claims at hno
      rw [hp'] at hno
      have hno' := not_or.mp hno
      have hnil : proj o' l = [] := by_contra fun hh => hno'.2 hh
      have := h.last t o' hno'.1 (by rw [hpt]; simp)
      rw [← hvt o', show s'.view t o' = f (s.mem o') by
          show apply (proj o' (s'.buf t)) (s'.mem o') = _
          rw [hp', hnil, hmo]; rfl] at this
      rw [hmo] at g
      exact g this
    · rw [hmne o' ho] at g
      obtain ⟨t1, ht⟩ := h.kept o' g
      exact ⟨t1, hcl' _ _ ho ht⟩
  · intro o'
    by_cases ho : o' = o
    · subst ho; right; right; rw [hmo]; exact hw
    · left; exact hmne o' ho
  · intro t1 o'
    by_cases ht : t1 = t
    · subst ht; left; exact hvt o'
    · by_cases ho : o' = o
      · subst ho
        obtain ⟨e1, e2⟩ := hvo t1 ht
        right; right; rw [e1, e2]; exact hw
      · left; exact hvne t1 o' ho

theorem Inv.step {k : Kind S} {s s' : State S} (h : Inv k s) (hs : Step k s s') : Inv k s' ∧ Effect k s s' := by
  cases hs with
  | acquire t o x hb ha => exact h.acquire hb ha
  | store t o f hh hw hf =>
    exact h.push hh hw (hs := s.holds) (fun _ _ _ => Iff.rfl) (.inl ⟨hh, hf⟩)
  | release t o f hh hw hf =>
    exact h.push hh hw (hs := fun t' o' => s.holds t' o' ∧ ¬ (t' = t ∧ o' = o))
      (fun t' o' hne => ⟨fun hh => hh.1, fun hh => ⟨hh, hne⟩⟩) (.inr ⟨fun hh => hh.2 ⟨rfl, rfl⟩, hf⟩)
  | commit t o f l hb => exact ⟨(h.commit hb).1, (h.commit hb).2.1⟩

theorem Run.inv {k : Kind S} (r : Run k) (n : Nat) : Inv k (r.at_ n) := by
  induction n with
  | zero => exact r.init.inv
  | succ n ih =>
    rcases r.step n with e | hs
    · rw [e]; exact ih
    · exact (ih.step hs).1

theorem Run.effect {k : Kind S} (r : Run k) (n : Nat) : Effect k (r.at_ n) (r.at_ (n + 1)) := by
  rcases r.step n with e | hs
  · rw [e]; exact ⟨fun _ => .inl rfl, fun _ _ => .inl rfl⟩
  · exact ((r.inv n).step hs).2

end Verif.Tso
