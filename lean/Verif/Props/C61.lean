import Verif.Tso.Robust

/-!
# C61: a fence after each update would hide the store buffers

A condition on programs, to be checked on the machine without buffers, under which the machine with buffers does nothing else: store
only to what is locked, take locks with compare-and-exchange, and after a store do not read what is not locked until a fence or
compare-and-exchange.  Updates of the tree are like that but for their end (and for reads that are only guesses, which are checked after
the next lock is taken: `locked_parent`, /repo/masstree_struct.hh:552-570): `unlock` (/repo/nodeversion.hh:132-141) is followed by no fence.
-/
namespace Verif.Props.C61

open Verif.Tso

variable {S L : Type} {P : Prog S L} {s0 : Sc S L}

/-- Wherever the threads of a disciplined program get to, together, with buffers, they can get without.  If the buffers are empty, with
the same memory. -/
theorem places (hd : Disciplined P s0) {b : Buffered S L} (hr : BReach P s0.buffered b) :
    ∃ s, ScReach P s0 s ∧ s.loc = b.loc ∧ ((∀ t, b.buf t = []) → s.mem = b.mem) := by
  by_cases he : ∀ t, b.buf t = []
  · obtain ⟨s, r, h⟩ := follows hd hr
    refine ⟨s, r, funext fun t => ?_, fun _ => h.mem⟩
    have := h.solo t
    rw [he t] at this
    exact this
  · obtain ⟨n, hn⟩ := hr.few
    obtain ⟨b', r', e, hb⟩ := drain_all (P := P) n b hn
    obtain ⟨s, r, h⟩ := follows hd (hr.trans r')
    refine ⟨s, r, funext fun t => ?_, fun h => absurd h he⟩
    have := h.solo t
    rw [hb t] at this
    rw [← e]
    exact this

/-- So what is always true of the places of the threads (which may contain all that they have read) without buffers is true with. -/
theorem safe (hd : Disciplined P s0) {I : (Nat → L) → Prop} (hI : ∀ s, ScReach P s0 s → I s.loc) {b : Buffered S L}
    (hr : BReach P s0.buffered b) : I b.loc := by
  obtain ⟨s, r, e, _⟩ := places hd hr
  rw [← e]; exact hI s r

/-- What is always true of memory without buffers is true with. -/
theorem memory (hd : Disciplined P s0) {I : (Nat → S) → Prop} (hI : ∀ s, ScReach P s0 s → I s.mem) {b : Buffered S L}
    (hr : BReach P s0.buffered b) : I b.mem := by
  obtain ⟨s, r, h⟩ := follows hd hr
  rw [← h.mem]; exact hI s r

/-- What is always true of a thread's place and of memory without buffers is true with buffers of its place and what it would read. -/
theorem seen (hd : Disciplined P s0) {t : Nat} {I : L → (Nat → S) → Prop} (hI : ∀ s, ScReach P s0 s → I (s.loc t) s.mem)
    {b : Buffered S L} (hr : BReach P s0.buffered b) : I (b.loc t) (b.view t) := by
  obtain ⟨s, r, h⟩ := follows hd hr
  obtain ⟨s', r', e1, e2, _⟩ := h.at_end r t
  rw [← e1, ← funext e2]; exact hI s' r'

/-! ### Two threads that put and get -/

/-- Places in the program. -/
inductive Pc where
  | start | locked | stored | unlocked | fenced
  | done (n : Nat)
deriving DecidableEq

/-- Objects have a lock bit and a value.  Threads 0 and 1 lock object 0 and 1, store 1 in it, unlock it, and read the other's; between,
a fence if `withFence`. -/
inductive Next (withFence : Bool) : Nat → Pc → Act (Bool × Nat) Pc → Prop where
  | lock {t : Nat} (ht : t < 2) : Next withFence t .start
      (.cas t (fun s => if s.1 then none else some (true, s.2)) (fun s => if s.1 then .start else .locked))
  | put {t : Nat} : Next withFence t .locked (.store t (fun s => (s.1, 1)) .stored)
  | unlock {t : Nat} : Next withFence t .stored (.store t (fun s => (false, s.2)) .unlocked)
  | fence {t : Nat} (hf : withFence = true) : Next withFence t .unlocked (.fence .fenced)
  | go {t : Nat} (hf : withFence = false) : Next withFence t .unlocked (.load (1 - t) (fun s => .done s.2))
  | get {t : Nat} : Next withFence t .fenced (.load (1 - t) (fun s => .done s.2))

def prog (withFence : Bool) : Prog (Bool × Nat) Pc := ⟨fun s => s.1 = false, Next withFence⟩

def start : Sc (Bool × Nat) Pc := ⟨fun _ => (false, 0), fun _ => .start, fun _ _ => False, fun _ => False⟩

/-- Has stored. -/
def Pc.past : Pc → Bool
  | .start | .locked => false
  | _ => true

/-- Has the lock. -/
def Pc.inside : Pc → Bool
  | .locked | .stored => true
  | _ => false

/-- Has stored and not fenced. -/
def Pc.late : Pc → Bool
  | .stored | .unlocked => true
  | _ => false

structure Good (w : Bool) (s : Sc (Bool × Nat) Pc) : Prop where
  low : ∀ t, s.loc t ≠ .start → t < 2
  val : ∀ t, (s.loc t).past = true → (s.mem t).2 = 1
  bit : ∀ t, (s.loc t).inside = true → (s.mem t).1 = true
  holds : ∀ t o, s.holds t o ↔ o = t ∧ (s.loc t).inside = true
  dirty : w = true → ∀ t, s.dirty t → (s.loc t).late = true
  both : ¬ (s.loc 0 = .done 0 ∧ s.loc 1 = .done 0)

theorem start_good (w : Bool) : Good w start := by
  refine ⟨fun _ h => absurd rfl h, fun _ h => ?_, fun _ h => ?_, fun _ _ => ⟨fun h => h.elim, fun h => ?_⟩, fun _ _ h => h.elim,
    fun h => ?_⟩
  · cases h
  · cases h
  · cases h.2
  · cases h.1

/-- A thread changes its own object and goes on. -/
theorem good_move {w : Bool} {s : Sc (Bool × Nat) Pc} (h : Good w s) {t : Nat} {pc : Pc} {x : Bool × Nat} {hs : Nat → Prop}
    {d : Prop} (ht : t < 2) (h1 : pc.past = true → x.2 = 1) (h2 : pc.inside = true → x.1 = true)
    (h3 : ∀ o, hs o ↔ o = t ∧ pc.inside = true) (h4 : w = true → d → pc.late = true)
    (h5 : pc = .done 0 → s.loc (1 - t) ≠ .done 0) :
    Good w ⟨Function.update s.mem t x, Function.update s.loc t pc, Function.update s.holds t hs, Function.update s.dirty t d⟩ := by
  refine ⟨fun t' => ?_, fun t' => ?_, fun t' => ?_, fun t' o => ?_, fun hw t' => ?_, ?_⟩
  · by_cases e : t' = t
    · subst e; exact fun _ => ht
    · simpa only [Function.update_of_ne e] using h.low t'
  · by_cases e : t' = t
    · subst e; simpa only [Function.update_self] using h1
    · simpa only [Function.update_of_ne e] using h.val t'
  · by_cases e : t' = t
    · subst e; simpa only [Function.update_self] using h2
    · simpa only [Function.update_of_ne e] using h.bit t'
  · by_cases e : t' = t
    · subst e; simpa only [Function.update_self] using h3 o
    · simpa only [Function.update_of_ne e] using h.holds t' o
  · by_cases e : t' = t
    · subst e; simpa only [Function.update_self] using h4 hw
    · simpa only [Function.update_of_ne e] using h.dirty hw t'
  · rintro ⟨g0, g1⟩
    have : t = 0 ∨ t = 1 := by omega
    rcases this with rfl | rfl
    · exact h5 (by simpa using g0) (by simpa using g1)
    · exact h5 (by simpa using g1) (by simpa using g0)

theorem good_step {w : Bool} {s s' : Sc (Bool × Nat) Pc} (h : Good w s) (hs : ScStep (prog w) s s') : Good w s' := by
  have load : ∀ {t : Nat}, (s.loc t = .unlocked ∧ w = false ∨ s.loc t = .fenced) →
      Good w { s with loc := Function.update s.loc t (.done (s.mem (1 - t)).2) } := by
    intro t ht
    have hlt : t < 2 := h.low t (by rcases ht with ht | ht <;> simp [ht])
    have hv : (s.mem t).2 = 1 := h.val t (by rcases ht with ht | ht <;> simp [ht, Pc.past])
    have := good_move h (pc := .done (s.mem (1 - t)).2) (x := s.mem t) (hs := s.holds t) (d := s.dirty t) hlt (fun _ => hv)
      (fun g => by cases g) (fun o => ?_) (fun hw g => ?_) (fun e g => ?_)
    · simpa only [Function.update_eq_self] using this
    · rw [h.holds]; rcases ht with ht | ht <;> simp [ht, Pc.inside]
    · have := h.dirty hw t g
      rcases ht with ht | ht
      · rw [ht.2] at hw; cases hw
      · rw [ht] at this; cases this
    · have := h.val (1 - t) (by rw [g]; rfl)
      rw [this] at e
      cases e
  cases hs with
  | load t o k hn =>
    generalize hl : s.loc t = l at hn
    cases hn with
    | go hf => exact load (.inl ⟨hl, hf⟩)
    | get => exact load (.inr hl)
  | store t o f l hn =>
    generalize hl : s.loc t = l at hn
    cases hn with
    | put =>
      have hb := h.bit t (by rw [hl]; rfl)
      refine good_move h (h.low t (by rw [hl]; simp)) (fun _ => rfl) (fun _ => hb) (fun o => ?_) (fun _ _ => rfl)
        (fun e => by cases e)
      simp only [after, h.holds, hl, prog, hb]
      simp [Pc.inside]
    | unlock =>
      have hv := h.val t (by rw [hl]; rfl)
      refine good_move h (h.low t (by rw [hl]; simp)) (fun _ => hv) (fun e => by cases e) (fun o => ?_) (fun _ _ => rfl)
        (fun e => by cases e)
      simp only [after, h.holds, hl, prog]
      simp [Pc.inside]
  | got t o g k x hn hg =>
    generalize hl : s.loc t = l at hn
    cases hn with
    | lock ht =>
      have hf : (s.mem t).1 = false := by
        by_contra hne
        simp [hne] at hg
      simp only [hf] at hg ⊢
      cases hg
      refine good_move h ht (fun e => by cases e) (fun _ => rfl) (fun o => ?_) (fun _ e => e.elim) (fun e => by cases e)
      simp only [h.holds, hl]
      simp [Pc.inside]
  | missed t o g k hn hg =>
    generalize hl : s.loc t = l at hn
    cases hn with
    | lock ht =>
      have hf : (s.mem t).1 = true := by
        by_contra hne
        simp [hne] at hg
      simp only [hf, if_true]
      have := good_move h (pc := .start) (x := s.mem t) (hs := s.holds t) (d := False) ht (fun e => by cases e)
        (fun e => by cases e) (fun o => by rw [h.holds, hl]) (fun _ e => e.elim) (fun e => by cases e)
      simpa only [Function.update_eq_self] using this
  | fence t l hn =>
    generalize hl : s.loc t = l at hn
    cases hn with
    | fence hf =>
      have := good_move h (pc := .fenced) (x := s.mem t) (hs := s.holds t) (d := False) (h.low t (by rw [hl]; simp))
        (fun _ => h.val t (by rw [hl]; rfl)) (fun e => by cases e) (fun o => by rw [h.holds, hl]; rfl) (fun _ e => e.elim)
        (fun e => by cases e)
      simpa only [Function.update_eq_self] using this

theorem good {w : Bool} {s : Sc (Bool × Nat) Pc} (hr : ScReach (prog w) start s) : Good w s := by
  induction hr with
  | refl => exact start_good w
  | tail _ hs ih => exact good_step ih hs

/-- Without buffers one of the threads reads the other's value, fence or not. -/
theorem one_reads (w : Bool) {s : Sc (Bool × Nat) Pc} (hr : ScReach (prog w) start s) :
    ¬ (s.loc 0 = .done 0 ∧ s.loc 1 = .done 0) := (good hr).both

/-- With the fence the program is disciplined. -/
theorem disciplined : Disciplined (prog true) start := by
  refine ⟨⟨fun _ _ h => h.elim, fun _ _ _ h => h.elim, fun _ h => h⟩, ?_, ?_, ?_⟩
  · intro s hr t o k hn hd
    have hl := (good hr).dirty rfl t hd
    generalize s.loc t = l at hn hl
    cases hn with
    | go hf => cases hf
    | get => cases hl
  · intro s hr t o f l hn
    rw [(good hr).holds]
    generalize s.loc t = l at hn
    cases hn <;> exact ⟨rfl, rfl⟩
  · intro s hr t o g k x hn hg
    generalize s.loc t = l at hn
    cases hn with
    | lock ht =>
      have hf : (s.mem t).1 = false := by
        by_contra hne
        simp [hne] at hg
      simp only [hf] at hg
      cases hg
      exact ⟨hf, by simp [prog]⟩

/-- So one of them reads the other's value with buffers, too. -/
theorem fence_helps {b : Buffered (Bool × Nat) Pc} (hr : BReach (prog true) start.buffered b) :
    ¬ (b.loc 0 = .done 0 ∧ b.loc 1 = .done 0) :=
  safe disciplined (I := fun l => ¬ (l 0 = .done 0 ∧ l 1 = .done 0)) (fun _ hr => one_reads true hr) hr

/-- One thread's way without a fence, nothing leaving the buffer. -/
theorem way {b : Buffered (Bool × Nat) Pc} {t : Nat} (ht : t < 2) (hl : b.loc t = .start) (hb : b.buf t = [])
    (hm : b.mem t = (false, 0)) (hv : (b.mem (1 - t)).2 = 0) :
    ∃ b', BReach (prog false) b b' ∧ b'.loc = Function.update b.loc t (.done 0) ∧
      b'.mem = Function.update b.mem t (true, 0) ∧ ∀ t', t' ≠ t → b'.buf t' = b.buf t' := by
  have h1 := BStep.got (P := prog false) (s := b) t t _ _ (true, 0) (by rw [hl]; exact .lock ht) hb (by simp [hm])
  generalize e1 : ({ b with mem := Function.update b.mem t (true, 0), loc := Function.update b.loc t _ } :
    Buffered (Bool × Nat) Pc) = b1 at h1
  have l1 : b1.loc t = .locked := by rw [← e1]; simp [hm]
  have h2 := BStep.store (P := prog false) (s := b1) t t _ _ (by rw [l1]; exact .put)
  generalize e2 : ({ b1 with loc := Function.update b1.loc t _, buf := Function.update b1.buf t _ } :
    Buffered (Bool × Nat) Pc) = b2 at h2
  have l2 : b2.loc t = .stored := by rw [← e2]; simp
  have h3 := BStep.store (P := prog false) (s := b2) t t _ _ (by rw [l2]; exact .unlock)
  generalize e3 : ({ b2 with loc := Function.update b2.loc t _, buf := Function.update b2.buf t _ } :
    Buffered (Bool × Nat) Pc) = b3 at h3
  have l3 : b3.loc t = .unlocked := by rw [← e3]; simp
  have h4 := BStep.load (P := prog false) (s := b3) t (1 - t) _ (by rw [l3]; exact .go rfl)
  have hne : 1 - t ≠ t := by omega
  have hv3 : (b3.view t (1 - t)).2 = 0 := by
    rw [← e3, ← e2, ← e1]
    simp [Buffered.view, hb, proj, apply, Ne.symm hne, Function.update_of_ne hne, hv]
  refine ⟨_, .tail (.tail (.tail (.tail .refl h1) h2) h3) h4, ?_, ?_, ?_⟩
  · rw [hv3, ← e3, ← e2, ← e1]; simp
  · rw [← e3, ← e2, ← e1]
  · intro t' ht'
    rw [← e3, ← e2, ← e1]; simp [Function.update_of_ne ht']

/-- Without the fence neither may read the other's value, which is impossible without buffers; so the condition on loads is needed. -/
theorem without_fence : ∃ b, BReach (prog false) start.buffered b ∧ (b.loc 0 = .done 0 ∧ b.loc 1 = .done 0) ∧
    ¬ ∃ s, ScReach (prog false) start s ∧ s.loc = b.loc := by
  obtain ⟨b1, r1, l1, m1, u1⟩ := way (b := start.buffered) (t := 0) (by decide) rfl rfl rfl rfl
  obtain ⟨b2, r2, l2, _, _⟩ := way (b := b1) (t := 1) (by decide) (by rw [l1]; rfl) (u1 1 (by decide)) (by rw [m1]; rfl) (by rw [m1]; rfl)
  have h0 : b2.loc 0 = .done 0 := by rw [l2, l1]; rfl
  have h1 : b2.loc 1 = .done 0 := by rw [l2]; rfl
  refine ⟨b2, r1.trans r2, ⟨h0, h1⟩, ?_⟩
  rintro ⟨s, hr, e⟩
  exact one_reads false hr (by rw [e]; exact ⟨h0, h1⟩)

/-! ### Cases -/

/-- Thread 0 has unlocked its object; both stores are in its buffer. -/
theorem pending : ∃ b, BReach (prog true) start.buffered b ∧ (b.buf 0).length = 2 ∧ b.loc 0 = .unlocked ∧ b.mem 0 = (true, 0) ∧
    b.view 0 0 = (false, 1) := by
  let b1 : Buffered (Bool × Nat) Pc :=
    { start.buffered with mem := Function.update start.mem 0 (true, 0), loc := Function.update start.loc 0 .locked }
  let b2 : Buffered (Bool × Nat) Pc :=
    { b1 with loc := Function.update b1.loc 0 .stored, buf := Function.update b1.buf 0 [(0, fun s => (s.1, 1))] }
  have h1 : BStep (prog true) start.buffered b1 := BStep.got (P := prog true) (s := start.buffered) 0 0
    (fun s => if s.1 then none else some (true, s.2)) (fun s => if s.1 then Pc.start else .locked) (true, 0)
    (Next.lock (by decide)) rfl rfl
  have h2 : BStep (prog true) b1 b2 := BStep.store (P := prog true) (s := b1) 0 0 (fun s => (s.1, 1)) Pc.stored Next.put
  have h3 := BStep.store (P := prog true) (s := b2) 0 0 (fun s => (false, s.2)) Pc.unlocked Next.unlock
  exact ⟨_, .tail (.tail (.tail .refl h1) h2) h3, rfl, rfl, rfl, rfl⟩

/-- Without buffers thread 0 can have come as far; memory is that of an earlier moment, and what it sees that of a later one. -/
example : ∃ b, BReach (prog true) start.buffered b ∧ (b.buf 0).length = 2 ∧ (∃ s, ScReach (prog true) start s ∧ s.loc = b.loc) ∧
    (b.view 0 0).2 = 1 := by
  obtain ⟨b, hr, hb, hl, _⟩ := pending
  obtain ⟨s, r, e, _⟩ := places disciplined hr
  refine ⟨b, hr, hb, ⟨s, r, e⟩, ?_⟩
  exact seen disciplined (t := 0) (I := fun l m => l.past = true → (m 0).2 = 1) (fun s hs => (good hs).val 0) hr (by rw [hl]; rfl)

/-- While the stores are under way, too, the conclusion holds. -/
example : ∃ b, BReach (prog true) start.buffered b ∧ b.mem 0 = (true, 0) ∧ ¬ (b.loc 0 = .done 0 ∧ b.loc 1 = .done 0) := by
  obtain ⟨b, hr, _, _, hm, _⟩ := pending
  exact ⟨b, hr, hm, fence_helps hr⟩

end Verif.Props.C61
