import Verif.Accum.Local
/-
What programs with accumulators mean: each accumulator is a list of bytes (`none` for a byte that was made part of the text without
being written), and so is each string taken.  The model of the code refines this.
-/
namespace Verif.Accum

/-- The meaning of a state. -/
structure AState where
  accs : List (Option Bytes)
  strs : List Bytes

def AState.acc (A : AState) (i : Nat) : Option Bytes := (A.accs[i]?).join

def AState.init : AState := ⟨[], []⟩

/-- Change one accumulator; no text may get longer than `lim`. -/
def AState.on (A : AState) (i : Nat) (f : Bytes → Option Bytes) : Option AState := do
  let v ← A.acc i
  let v ← f v
  some { A with accs := A.accs.set i (some v) }

/-- `x` when `p` holds. -/
def guard (p : Prop) [Decidable p] {α : Type} (x : α) : Option α := if p then some x else none

/-- The meaning of an operation; `none` when the program may not do it: there is no such accumulator, more is removed than there is, a
part is taken that does not exist, more is printed than was announced, or something gets longer than `lim`. -/
def astep (A : AState) : Op → Option AState
  | .new => some { A with accs := A.accs ++ [some []] }
  | .newCap n => guard (n ≤ lim) { A with accs := A.accs ++ [some []] }
  | .copyNew j => do
    let x ← A.acc j
    guard (x.length ≤ lim) { A with accs := A.accs ++ [some x] }
  | .moveNew j => do
    let x ← A.acc j
    some { A with accs := A.accs.set j (some []) ++ [some x] }
  | .destroy i => do
    let _ ← A.acc i
    some { A with accs := A.accs.set i none }
  | .assign i j => do
    let x ← A.acc j
    A.on i fun _ => guard (x.length ≤ lim) x
  | .swap i j => do
    let x ← A.acc i
    let y ← A.acc j
    some { A with accs := (A.accs.set j (some x)).set i (some y) }
  | .clear i => A.on i fun _ => some []
  | .resize i n => A.on i fun v => guard (n ≤ lim) (v.take n ++ List.replicate (n - v.length) none)
  | .popBack i n => A.on i fun v => guard (n ≤ v.length) (v.take (v.length - n))
  | .char i c => A.on i fun v => guard (v.length ≤ lim) (v ++ [some c])
  | .bytes i l => A.on i fun v => guard (v.length + l.length ≤ lim) (v ++ l.map some)
  | .part i j off n => do
    let x ← A.acc j
    A.on i fun v => guard (off + n ≤ x.length ∧ v.length + n ≤ lim) (v ++ (x.drop off).take n)
  | .fill i c n => A.on i fun v => guard (v.length + n ≤ lim) (v ++ List.replicate n (some c))
  | .num i n out => A.on i fun v => guard (out.length < n ∧ v.length + n ≤ lim) (v ++ out.map some)
  | .printf i n out => A.on i fun v => guard (out.length ≤ n ∧ v.length + (n + 1) ≤ lim) (v ++ out.map some)
  | .extend i a b => A.on i fun v => guard (v.length + a + b ≤ lim) (v ++ List.replicate a none)
  | .cstr i => A.on i fun v => guard (v.length ≤ lim) v
  | .take i => do
    let x ← A.acc i
    some { accs := A.accs.set i (some []), strs := A.strs ++ [x] }

def arun (A : AState) : List Op → Option AState
  | [] => some A
  | o :: os => (astep A o).bind fun A => arun A os

/-! ### The relation between states -/

/-- The owners of blocks: accumulators and strings. -/
abbrev Slot := Nat ⊕ Nat

def State.slot (s : State) : Slot → Option Rep
  | .inl i => s.acc i
  | .inr k => s.strs[k]?

def AState.slot (A : AState) : Slot → Option Bytes
  | .inl i => A.acc i
  | .inr k => A.strs[k]?

/-- The block of an owner. -/
def State.blk (s : State) (p : Slot) : Option Nat := (s.slot p).bind Rep.blk

inductive ORel (m : Mem) : Option Rep → Option Bytes → Prop
  | none : ORel m none none
  | some {r : Rep} {v : Bytes} (h : Holds m r v) : ORel m (some r) (some v)

structure Inv (s : State) (A : AState) : Prop where
  fresh : Fresh s.mem
  len : s.accs.length = A.accs.length
  slen : s.strs.length = A.strs.length
  rel : ∀ p, ORel s.mem (s.slot p) (A.slot p)
  uniq : ∀ p q b, s.blk p = some b → s.blk q = some b → p = q
  alive : ∀ b, (s.mem.heap b).isSome → ∃ p, s.blk p = some b

theorem Inv.init : Inv State.init AState.init :=
  ⟨fun _ _ => rfl, rfl, rfl, fun p => by cases p <;> exact .none, fun p q b h => by cases p <;> simp [State.blk, State.slot, State.init, State.acc] at h,
    fun b h => by simp [State.init] at h⟩

theorem Inv.acc {s : State} {A : AState} (h : Inv s A) {i : Nat} {v : Bytes} (hv : A.acc i = some v) :
    ∃ r, s.acc i = some r ∧ Holds s.mem r v := by
  have := h.rel (.inl i)
  simp only [State.slot, AState.slot, hv] at this
  generalize s.acc i = x at this
  cases this with
  | some h => exact ⟨_, rfl, h⟩

/-- Replacing one owner's record, or adding one: `r` is the record before. -/
theorem Inv.put {s s' : State} {A A' : AState} (h : Inv s A) (i : Slot) {r : Rep} (hr : s.slot i = some r ∨ (s.slot i = none ∧ r = Rep.empty))
    {r' : Rep} (hu : Upd s.mem r s'.mem r')
    (hl : s'.accs.length = A'.accs.length) (hsl : s'.strs.length = A'.strs.length)
    (ho : ∀ p, p ≠ i → s'.slot p = s.slot p) (hao : ∀ p, p ≠ i → A'.slot p = A.slot p)
    (hi : (s'.slot i).bind Rep.blk = r'.blk) (hri : ORel s'.mem (s'.slot i) (A'.slot i)) : Inv s' A' := by
  have hrb : s.blk i = r.blk := by
    rcases hr with hr | ⟨hr, rfl⟩ <;> simp [State.blk, hr, Rep.empty]
  have hlt : ∀ p b, s.blk p = some b → b < s.mem.next := by
    intro p b hb
    have := h.rel p
    simp only [State.blk] at hb
    generalize s.slot p = x at this hb
    generalize A.slot p = y at this
    cases this with
    | none => simp at hb
    | some hh => exact hh.lt h.fresh hb
  have hbo : ∀ p, p ≠ i → s'.blk p = s.blk p := fun p hp => by simp only [State.blk, ho p hp]
  have hbi : s'.blk i = r'.blk := hi
  have hne : ∀ p b, p ≠ i → s.blk p = some b → r.blk ≠ some b := by
    intro p b hp hb hc
    exact hp (h.uniq p i b hb (hrb.trans hc))
  refine ⟨hu.fresh, hl, hsl, ?_, ?_, ?_⟩
  · intro p
    by_cases hp : p = i
    · rw [hp]; exact hri
    · rw [ho p hp, hao p hp]
      have h1 := h.rel p
      have h2 : ∀ b, s.blk p = some b → s'.mem.heap b = s.mem.heap b := fun b hb => hu.frame b (hlt p b hb) (hne p b hp hb)
      simp only [State.blk] at h2
      generalize s.slot p = x at h1 h2
      generalize A.slot p = y at h1
      cases h1 with
      | none => exact .none
      | some hh => exact .some (hh.frame h2)
  · have key : ∀ p b, p ≠ i → s'.blk p = some b → s'.blk i ≠ some b := by
      intro p b hp hb hc
      rw [hbo p hp] at hb
      rw [hbi] at hc
      rcases hu.mine b hc with h' | h'
      · exact hne p b hp hb h'
      · have := hlt p b hb; omega
    intro p q b hp hq
    by_cases h1 : p = i
    · by_cases h2 : q = i
      · rw [h1, h2]
      · rw [h1] at hp; exact absurd hp (key q b h2 hq)
    · by_cases h2 : q = i
      · rw [h2] at hq; exact absurd hq (key p b h1 hp)
      · rw [hbo p h1] at hp
        rw [hbo q h2] at hq
        exact h.uniq p q b hp hq
  · intro b hb
    by_cases h1 : b < s.mem.next
    · by_cases h2 : r.blk = some b
      · by_cases h3 : r'.blk = some b
        · exact ⟨i, hbi.trans h3⟩
        · rw [hu.freed b h2 h3] at hb; simp at hb
      · rw [hu.frame b h1 h2] at hb
        obtain ⟨p, hp⟩ := h.alive b hb
        have hpi : p ≠ i := by
          rintro rfl
          exact h2 (hrb ▸ hp)
        exact ⟨p, (hbo p hpi).trans hp⟩
    · exact ⟨i, hbi.trans (hu.leak b (by omega) hb)⟩

/-- Moving records between owners. -/
theorem Inv.move {s s' : State} {A A' : AState} (h : Inv s A) (hm : s'.mem = s.mem)
    (hl : s'.accs.length = A'.accs.length) (hsl : s'.strs.length = A'.strs.length)
    (hrel : ∀ p, ORel s.mem (s'.slot p) (A'.slot p)) (σ : Slot → Slot)
    (hσ : ∀ p b, s'.blk p = some b → s.blk (σ p) = some b)
    (hinj : ∀ p q b, s'.blk p = some b → s'.blk q = some b → σ p = σ q → p = q)
    (hsur : ∀ p b, s.blk p = some b → ∃ q, s'.blk q = some b) : Inv s' A' := by
  refine ⟨hm ▸ h.fresh, hl, hsl, fun p => hm ▸ hrel p, ?_, ?_⟩
  · intro p q b hp hq
    exact hinj p q b hp hq (h.uniq _ _ b (hσ p b hp) (hσ q b hq))
  · intro b hb
    rw [hm] at hb
    obtain ⟨p, hp⟩ := h.alive b hb
    exact hsur p b hp

theorem acc_set {α : Type} (l : List (Option α)) (i j : Nat) (x : Option α) :
    ((l.set i x)[j]?).join = if i = j ∧ i < l.length then x else (l[j]?).join := by
  rw [List.getElem?_set]
  by_cases h : i = j
  · subst h
    by_cases h2 : i < l.length
    · simp [h2]
    · simp [h2]
  · simp [h]

theorem acc_app {α : Type} (l : List (Option α)) (j : Nat) (x : Option α) :
    ((l ++ [x])[j]?).join = if j = l.length then x else (l[j]?).join := by
  by_cases h : j = l.length
  · subst h; simp
  · rw [if_neg h]
    by_cases h2 : j < l.length
    · rw [List.getElem?_append_left h2]
    · rw [List.getElem?_eq_none (by simp; omega), List.getElem?_eq_none (by omega)]

theorem str_app {α : Type} (l : List α) (j : Nat) (x : α) : (l ++ [x])[j]? = if j = l.length then some x else l[j]? := by
  by_cases h : j = l.length
  · subst h; simp
  · rw [if_neg h]
    by_cases h2 : j < l.length
    · rw [List.getElem?_append_left h2]
    · rw [List.getElem?_eq_none (by simp; omega), List.getElem?_eq_none (by omega)]

theorem ite_inj {α : Type} [DecidableEq α] {p q a c : α} (hp : p ≠ c) (hq : q ≠ c)
    (h : (if p = a then c else p) = (if q = a then c else q)) : p = q := by
  by_cases h1 : p = a
  · by_cases h2 : q = a
    · rw [h1, h2]
    · rw [if_pos h1, if_neg h2] at h; exact absurd h.symm hq
  · by_cases h2 : q = a
    · rw [if_neg h1, if_pos h2] at h; exact absurd h hp
    · rw [if_neg h1, if_neg h2] at h; exact h

theorem acc_lt {α : Type} {l : List (Option α)} {i : Nat} {x : α} (h : (l[i]?).join = some x) : i < l.length := by
  by_contra hc
  rw [List.getElem?_eq_none (by omega)] at h
  simp at h

/-- An operation on one accumulator. -/
theorem Inv.on {s : State} {A : AState} (h : Inv s A) {i : Nat} {r : Rep} {v : Bytes} (hr : s.acc i = some r) (hv : A.acc i = some v)
    {f : Mem → Rep → Option (Mem × Rep)} {v' : Bytes} (hd : Does s.mem r (f s.mem r) v') :
    ∃ s', s.on i f = some s' ∧ Inv s' { A with accs := A.accs.set i (some v') } := by
  obtain ⟨m', r', e1, e2, e3⟩ := hd
  have hi := acc_lt hr
  refine ⟨{ s with mem := m', accs := s.accs.set i (some r') }, by simp [State.on, hr, e1], ?_⟩
  refine h.put (.inl i) (.inl hr) e3 (by simp [h.len]) h.slen ?_ ?_ ?_ ?_
  · intro p hp
    cases p with
    | inl j => simp only [State.slot, State.acc, acc_set]; rw [if_neg (by rintro ⟨rfl, _⟩; exact hp rfl)]
    | inr k => rfl
  · intro p hp
    cases p with
    | inl j => simp only [AState.slot, AState.acc, acc_set]; rw [if_neg (by rintro ⟨rfl, _⟩; exact hp rfl)]
    | inr k => rfl
  · simp only [State.slot, State.acc, acc_set]; rw [if_pos ⟨trivial, hi⟩]; rfl
  · simp only [State.slot, State.acc, AState.slot, AState.acc, acc_set]
    rw [if_pos ⟨trivial, hi⟩, if_pos ⟨trivial, h.len ▸ hi⟩]
    exact .some e2

/-- An operation that makes an accumulator. -/
theorem Inv.add {s : State} {A : AState} (h : Inv s A) {f : Mem → Rep → Option (Mem × Rep)} {v' : Bytes}
    (hd : Does s.mem Rep.empty (f s.mem Rep.empty) v') :
    ∃ s', s.add f = some s' ∧ Inv s' { A with accs := A.accs ++ [some v'] } := by
  obtain ⟨m', r', e1, e2, e3⟩ := hd
  refine ⟨{ s with mem := m', accs := s.accs ++ [some r'] }, by simp [State.add, e1], ?_⟩
  refine h.put (.inl s.accs.length) (.inr ⟨by simp [State.slot, State.acc], rfl⟩) e3 (by simp [h.len]) h.slen ?_ ?_ ?_ ?_
  · intro p hp
    cases p with
    | inl j => simp only [State.slot, State.acc, acc_app]; rw [if_neg (by rintro rfl; exact hp rfl)]
    | inr k => rfl
  · intro p hp
    cases p with
    | inl j => simp only [AState.slot, AState.acc, acc_app]; rw [if_neg (by rw [← h.len]; rintro rfl; exact hp rfl)]
    | inr k => rfl
  · simp only [State.slot, State.acc, acc_app]; rfl
  · simp only [State.slot, State.acc, AState.slot, AState.acc, acc_app]
    rw [if_pos trivial, if_pos h.len]
    exact .some e2

/-- Different accumulators have different blocks. -/
theorem Inv.other {s : State} {A : AState} (h : Inv s A) {i j : Nat} (hij : i ≠ j) {x r : Rep} (hr : s.acc i = some r)
    (hx : s.acc j = some x) : ∀ b, x.blk = some b → r.blk ≠ some b := by
  intro b hb hc
  have := h.uniq (.inl j) (.inl i) b (by simp [State.blk, State.slot, hx, hb]) (by simp [State.blk, State.slot, hr, hc])
  exact hij (by cases this; rfl)

theorem step_inv {s : State} {A A' : AState} (h : Inv s A) {o : Op} (ho : astep A o = some A') :
    ∃ s', step s o = some s' ∧ Inv s' A' := by
  have on1 : ∀ {i : Nat} {g : Bytes → Option Bytes}, A.on i g = some A' →
      ∃ v v', A.acc i = some v ∧ g v = some v' ∧ A' = { A with accs := A.accs.set i (some v') } := by
    intro i g hg
    simp only [AState.on, Option.bind_eq_bind, Option.bind_eq_some_iff] at hg
    obtain ⟨v, h1, v', h2, h3⟩ := hg
    exact ⟨v, v', h1, h2, by simpa using h3.symm⟩
  have gd : ∀ {α : Type} {p : Prop} [Decidable p] {x y : α}, guard p x = some y → p ∧ x = y := by
    intro α p _ x y hg
    unfold guard at hg
    split at hg
    · exact ⟨by assumption, by simpa using hg⟩
    · simp at hg
  -- operations on one accumulator
  have loc : ∀ {i : Nat} {g : Bytes → Option Bytes} (f : Mem → Rep → Option (Mem × Rep)), A.on i g = some A' →
      (∀ r v v', s.acc i = some r → A.acc i = some v → Holds s.mem r v → g v = some v' → Does s.mem r (f s.mem r) v') →
      ∃ s', s.on i f = some s' ∧ Inv s' A' := by
    intro i g f hg hf
    obtain ⟨v, v', h1, h2, rfl⟩ := on1 hg
    obtain ⟨r, hr, hh⟩ := h.acc h1
    exact h.on hr h1 (hf r v v' hr h1 hh h2)
  cases o with
  | new =>
    simp only [astep, Option.some.injEq] at ho
    subst ho
    exact h.add (f := fun m r => some (m, r)) ⟨_, _, rfl, Holds.empty _, Upd.refl h.fresh rfl⟩
  | newCap n =>
    obtain ⟨h1, rfl⟩ := gd ho
    exact h.add (f := fun m r => grow m r n) (newCap_does h.fresh h1)
  | copyNew j =>
    simp only [astep, Option.bind_eq_bind, Option.bind_eq_some_iff] at ho
    obtain ⟨x, hx, ho⟩ := ho
    obtain ⟨h1, rfl⟩ := gd ho
    obtain ⟨r, hr, hh⟩ := h.acc hx
    simp only [step, hr, Option.bind_eq_bind, Option.bind_some]
    refine h.add ?_
    have := append_does h.fresh (Holds.empty s.mem) (s := .at r.blk 0 r.len) (u := x)
      ⟨r, x, hh, rfl, by omega, by rw [List.drop_zero, List.take_of_length_le (by rw [hh.1]; exact Nat.le_refl _)], .inr (by simp [Rep.empty])⟩
      (by simp only [Rep.empty, Src.len, hh.1]; omega)
    simpa using this
  | moveNew j =>
    simp only [astep, Option.bind_eq_bind, Option.bind_eq_some_iff] at ho
    obtain ⟨x, hx, ho⟩ := ho
    obtain ⟨r, hr, hh⟩ := h.acc hx
    simp only [Option.some.injEq] at ho
    subst ho
    have hj := acc_lt hr
    have hj' : j < A.accs.length := h.len ▸ hj
    refine ⟨⟨s.mem, s.accs.set j (some Rep.empty) ++ [some r], s.strs⟩, by simp only [step, hr, Option.bind_eq_bind, Option.bind_some], ?_⟩
    have sl : ∀ i, State.acc ⟨s.mem, s.accs.set j (some Rep.empty) ++ [some r], s.strs⟩ i =
        if i = s.accs.length then some r else if i = j then some Rep.empty else s.acc i := by
      intro i
      simp only [State.acc, acc_app, acc_set, List.length_set]
      by_cases h1 : i = s.accs.length
      · simp [h1]
      · by_cases h2 : i = j
        · subst h2; simp [h1, hj]
        · simp [h1, h2, Ne.symm h2]
    have al : ∀ i, AState.acc ⟨A.accs.set j (some []) ++ [some x], A.strs⟩ i =
        if i = s.accs.length then some x else if i = j then some [] else A.acc i := by
      intro i
      simp only [AState.acc, acc_app, acc_set, List.length_set, h.len]
      by_cases h1 : i = A.accs.length
      · simp [h1]
      · by_cases h2 : i = j
        · subst h2; simp [h1, hj']
        · simp [h1, h2, Ne.symm h2]
    have hnone : s.acc s.accs.length = none := by simp [State.acc]
    refine h.move rfl (by simp [h.len]) h.slen ?_ (fun p => if p = .inl s.accs.length then .inl j else p) ?_ ?_ ?_
    · intro p
      cases p with
      | inl i =>
        simp only [State.slot, AState.slot, sl, al]
        split
        · exact .some hh
        · split
          · exact .some (Holds.empty _)
          · exact h.rel (.inl i)
      | inr k => exact h.rel (.inr k)
    · intro p b hb
      cases p with
      | inl i =>
        simp only [State.blk, State.slot, sl] at hb ⊢
        by_cases h1 : i = s.accs.length
        · subst h1; simpa [hr] using hb
        · by_cases h2 : i = j
          · subst h2; simp [h1, Rep.empty] at hb
          · simpa [h1, h2] using hb
      | inr k => simp only [reduceCtorEq, if_false]; exact hb
    · intro p q b hp hq hpq
      have key : ∀ p, State.blk ⟨s.mem, s.accs.set j (some Rep.empty) ++ [some r], s.strs⟩ p = some b → p ≠ .inl j := by
        rintro p hp rfl
        simp only [State.blk, State.slot, sl] at hp
        rw [if_neg (by omega), if_pos trivial] at hp
        simp [Rep.empty] at hp
      have hp := key p hp
      have hq := key q hq
      exact ite_inj hp hq hpq
    · intro p b hb
      cases p with
      | inl i =>
        by_cases h2 : i = j
        · subst h2
          refine ⟨.inl s.accs.length, ?_⟩
          simp only [State.blk, State.slot, sl] at hb ⊢
          simpa [hr] using hb
        · refine ⟨.inl i, ?_⟩
          simp only [State.blk, State.slot, sl] at hb ⊢
          have : i ≠ s.accs.length := by rintro rfl; rw [hnone] at hb; simp at hb
          simpa [h2, this] using hb
      | inr k => exact ⟨.inr k, hb⟩
  | destroy i =>
    simp only [astep, Option.bind_eq_bind, Option.bind_eq_some_iff] at ho
    obtain ⟨x, hx, ho⟩ := ho
    obtain ⟨r, hr, hh⟩ := h.acc hx
    simp only [Option.some.injEq] at ho
    subst ho
    obtain ⟨m', e1, e2⟩ := destroy_does h.fresh hh
    have hi := acc_lt hr
    refine ⟨⟨m', s.accs.set i none, s.strs⟩, by simp only [step, hr, Option.bind_eq_bind, Option.bind_some, e1], ?_⟩
    refine h.put (.inl i) (.inl hr) e2 (by simp [h.len]) h.slen ?_ ?_ ?_ ?_
    · intro p hp
      cases p with
      | inl j => simp only [State.slot, State.acc, acc_set]; rw [if_neg (by rintro ⟨rfl, _⟩; exact hp rfl)]
      | inr k => rfl
    · intro p hp
      cases p with
      | inl j => simp only [AState.slot, AState.acc, acc_set]; rw [if_neg (by rintro ⟨rfl, _⟩; exact hp rfl)]
      | inr k => rfl
    · simp only [State.slot, State.acc, acc_set]; rw [if_pos ⟨trivial, hi⟩]; rfl
    · simp only [State.slot, State.acc, AState.slot, AState.acc, acc_set]
      rw [if_pos ⟨trivial, hi⟩, if_pos ⟨trivial, h.len ▸ hi⟩]
      exact .none
  | assign i j =>
    simp only [astep, Option.bind_eq_bind, Option.bind_eq_some_iff] at ho
    obtain ⟨x, hx, ho⟩ := ho
    obtain ⟨y, hy, hhy⟩ := h.acc hx
    by_cases hij : i = j
    · simp only [step, if_pos hij]
      refine loc _ ho fun r v v' hr hv hh hg => ?_
      obtain ⟨_, rfl⟩ := gd hg
      subst hij
      have : v = x := by rw [hx] at hv; simpa using hv.symm
      exact ⟨_, _, rfl, this ▸ hh, Upd.refl h.fresh rfl⟩
    · simp only [step, if_neg hij, hy, Option.bind_eq_bind, Option.bind_some]
      refine loc _ ho fun r v v' hr hv hh hg => ?_
      obtain ⟨hlen, rfl⟩ := gd hg
      have h0 : Holds s.mem { r with len := 0 } [] := by simpa using hh.less (k := 0) (by omega)
      obtain ⟨m', r', e1, e2, e3⟩ := append_does h.fresh h0 (s := .at y.blk 0 y.len) (u := x)
        ⟨y, x, hhy, rfl, by omega, by rw [List.drop_zero, List.take_of_length_le (by rw [hhy.1]; exact Nat.le_refl _)],
          .inr fun b hb => h.other hij hr hy b hb⟩ (by simp only [Src.len, hhy.1]; omega)
      exact ⟨m', r', e1, by simpa using e2, e3.blk rfl rfl⟩
  | swap i j =>
    simp only [astep, Option.bind_eq_bind, Option.bind_eq_some_iff] at ho
    obtain ⟨x, hx, y, hy, ho⟩ := ho
    obtain ⟨r, hr, hh⟩ := h.acc hx
    obtain ⟨q, hq, hhq⟩ := h.acc hy
    simp only [Option.some.injEq] at ho
    subst ho
    have hi := acc_lt hr
    have hj := acc_lt hq
    have hi' : i < A.accs.length := h.len ▸ hi
    have hj' : j < A.accs.length := h.len ▸ hj
    refine ⟨⟨s.mem, (s.accs.set j (some r)).set i (some q), s.strs⟩, by simp only [step, hr, hq, Option.bind_eq_bind, Option.bind_some], ?_⟩
    have sl : ∀ k, State.acc ⟨s.mem, (s.accs.set j (some r)).set i (some q), s.strs⟩ k =
        if k = i then some q else if k = j then some r else s.acc k := by
      intro k
      simp only [State.acc, acc_set, List.length_set]
      by_cases h1 : k = i
      · subst h1; simp [hi]
      · by_cases h2 : k = j
        · subst h2; simp [h1, Ne.symm h1, hj]
        · simp [h1, h2, Ne.symm h2, Ne.symm h1]
    have al : ∀ k, AState.acc ⟨(A.accs.set j (some x)).set i (some y), A.strs⟩ k =
        if k = i then some y else if k = j then some x else A.acc k := by
      intro k
      simp only [AState.acc, acc_set, List.length_set]
      by_cases h1 : k = i
      · subst h1; simp [hi']
      · by_cases h2 : k = j
        · subst h2; simp [h1, Ne.symm h1, hj']
        · simp [h1, h2, Ne.symm h2, Ne.symm h1]
    have bl : ∀ k, State.blk ⟨s.mem, (s.accs.set j (some r)).set i (some q), s.strs⟩ (.inl k) =
        s.blk (.inl (if k = i then j else if k = j then i else k)) := by
      intro k
      simp only [State.blk, State.slot, sl]
      by_cases h1 : k = i
      · simp [h1, hq]
      · by_cases h2 : k = j
        · subst h2; simp [h1, hr]
        · simp [h1, h2]
    refine h.move rfl (by simp [h.len]) h.slen ?_
      (fun p => match p with | .inl k => .inl (if k = i then j else if k = j then i else k) | .inr k => .inr k) ?_ ?_ ?_
    · intro p
      cases p with
      | inl k =>
        simp only [State.slot, AState.slot, sl, al]
        split
        · exact .some hhq
        · split
          · exact .some hh
          · exact h.rel (.inl k)
      | inr k => exact h.rel (.inr k)
    · intro p b hb
      cases p with
      | inl k => rw [bl] at hb; exact hb
      | inr k => exact hb
    · intro p q b _ _ hpq
      cases p with
      | inl k =>
        cases q with
        | inl k' =>
          simp only [Sum.inl.injEq] at hpq ⊢
          split at hpq <;> split at hpq <;> (try split at hpq) <;> (try split at hpq) <;> omega
        | inr k' => simp at hpq
      | inr k =>
        cases q with
        | inl k' => simp at hpq
        | inr k' => simpa using hpq
    · intro p b hb
      cases p with
      | inl k =>
        refine ⟨.inl (if k = i then j else if k = j then i else k), ?_⟩
        rw [bl]
        have : (if (if k = i then j else if k = j then i else k) = i then j
            else if (if k = i then j else if k = j then i else k) = j then i else (if k = i then j else if k = j then i else k)) = k := by
          split <;> split <;> (try split) <;> (try split) <;> omega
        rw [this]
        exact hb
      | inr k => exact ⟨.inr k, hb⟩
  | clear i =>
    simp only [step]
    refine loc _ ho fun r v v' hr hv hh hg => ?_
    simp only [Option.some.injEq] at hg
    subst hg
    exact clear_does h.fresh hh
  | resize i n =>
    simp only [step]
    refine loc _ ho fun r v v' hr hv hh hg => ?_
    obtain ⟨h1, rfl⟩ := gd hg
    exact resize_does h.fresh hh h1
  | popBack i n =>
    simp only [step]
    refine loc _ ho fun r v v' hr hv hh hg => ?_
    obtain ⟨h1, rfl⟩ := gd hg
    exact popBack_does h.fresh hh h1
  | char i c =>
    simp only [step]
    refine loc _ ho fun r v v' hr hv hh hg => ?_
    obtain ⟨h1, rfl⟩ := gd hg
    exact appendChar_does h.fresh hh (hh.1 ▸ h1) c
  | bytes i l =>
    simp only [step]
    refine loc _ ho fun r v v' hr hv hh hg => ?_
    obtain ⟨h1, rfl⟩ := gd hg
    exact append_does h.fresh hh (s := .ext l) rfl (by simp only [Src.len, hh.1]; exact h1)
  | part i j off n =>
    simp only [astep, Option.bind_eq_bind, Option.bind_eq_some_iff] at ho
    obtain ⟨x, hx, ho⟩ := ho
    obtain ⟨y, hy, hhy⟩ := h.acc hx
    simp only [step, hy, Option.bind_eq_bind, Option.bind_some]
    refine loc _ ho fun r v v' hr hv hh hg => ?_
    obtain ⟨⟨h1, h2⟩, rfl⟩ := gd hg
    refine append_does h.fresh hh (s := .at y.blk off n) ⟨y, x, hhy, rfl, by rw [hhy.1]; exact h1, rfl, ?_⟩
      (by simp only [Src.len, hh.1]; exact h2)
    by_cases hij : i = j
    · subst hij
      rw [hr] at hy
      rw [hv] at hx
      exact .inl ⟨by simpa using hy.symm, by simpa using hx.symm⟩
    · exact .inr (h.other hij hr hy)
  | fill i c n =>
    simp only [step]
    refine loc _ ho fun r v v' hr hv hh hg => ?_
    obtain ⟨h1, rfl⟩ := gd hg
    exact appendFill_does h.fresh hh (hh.1 ▸ h1) c
  | num i n out =>
    simp only [step]
    refine loc _ ho fun r v v' hr hv hh hg => ?_
    obtain ⟨⟨h1, h2⟩, rfl⟩ := gd hg
    exact text_does h.fresh hh (hh.1 ▸ h2) h1
  | printf i n out =>
    simp only [step]
    refine loc _ ho fun r v v' hr hv hh hg => ?_
    obtain ⟨⟨h1, h2⟩, rfl⟩ := gd hg
    exact vsnprintf_does h.fresh hh (hh.1 ▸ h2) h1
  | extend i a b =>
    simp only [step]
    refine loc _ ho fun r v v' hr hv hh hg => ?_
    obtain ⟨h1, rfl⟩ := gd hg
    exact extend_does h.fresh hh (hh.1 ▸ h1)
  | cstr i =>
    simp only [step]
    refine loc _ ho fun r v v' hr hv hh hg => ?_
    obtain ⟨h1, rfl⟩ := gd hg
    exact cstr_does h.fresh hh (hh.1 ▸ h1)
  | take i =>
    simp only [astep, Option.bind_eq_bind, Option.bind_eq_some_iff] at ho
    obtain ⟨x, hx, ho⟩ := ho
    obtain ⟨r, hr, hh⟩ := h.acc hx
    simp only [Option.some.injEq] at ho
    subst ho
    have hi := acc_lt hr
    have hi' : i < A.accs.length := h.len ▸ hi
    by_cases hc : r.len > 0 ∧ r.cap > 0
    · refine ⟨⟨s.mem, s.accs.set i (some Rep.empty), s.strs ++ [r]⟩,
        by simp only [step, hr, Option.bind_eq_bind, Option.bind_some, if_pos hc], ?_⟩
      have sl : ∀ k, State.acc ⟨s.mem, s.accs.set i (some Rep.empty), s.strs ++ [r]⟩ k = if k = i then some Rep.empty else s.acc k := by
        intro k
        simp only [State.acc, acc_set]
        by_cases h1 : k = i
        · subst h1; simp [hi]
        · simp [h1, Ne.symm h1]
      have al : ∀ k, AState.acc ⟨A.accs.set i (some []), A.strs ++ [x]⟩ k = if k = i then some [] else A.acc k := by
        intro k
        simp only [AState.acc, acc_set]
        by_cases h1 : k = i
        · subst h1; simp [hi']
        · simp [h1, Ne.symm h1]
      have hnone : s.strs[s.strs.length]? = none := by simp
      refine h.move rfl (by simp [h.len]) (by simp [h.slen]) ?_ (fun p => if p = .inr s.strs.length then .inl i else p) ?_ ?_ ?_
      · intro p
        cases p with
        | inl k =>
          simp only [State.slot, AState.slot, sl, al]
          split
          · exact .some (Holds.empty _)
          · exact h.rel (.inl k)
        | inr k =>
          simp only [State.slot, AState.slot, str_app, h.slen]
          split
          · exact .some hh
          · exact h.rel (.inr k)
      · intro p b hb
        cases p with
        | inl k =>
          simp only [State.blk, State.slot, sl] at hb ⊢
          by_cases h1 : k = i
          · subst h1; simp [Rep.empty] at hb
          · simpa [h1] using hb
        | inr k =>
          simp only [State.blk, State.slot, str_app] at hb ⊢
          by_cases h1 : k = s.strs.length
          · subst h1; simpa [hr] using hb
          · simpa [h1] using hb
      · intro p q b hp hq hpq
        have key : ∀ p, State.blk ⟨s.mem, s.accs.set i (some Rep.empty), s.strs ++ [r]⟩ p = some b → p ≠ .inl i := by
          rintro p hp rfl
          simp only [State.blk, State.slot, sl] at hp
          rw [if_pos trivial] at hp
          simp [Rep.empty] at hp
        have hp := key p hp
        have hq := key q hq
        exact ite_inj hp hq hpq
      · intro p b hb
        cases p with
        | inl k =>
          by_cases h2 : k = i
          · subst h2
            refine ⟨.inr s.strs.length, ?_⟩
            simp only [State.blk, State.slot, str_app] at hb ⊢
            simpa [hr] using hb
          · refine ⟨.inl k, ?_⟩
            simp only [State.blk, State.slot, sl] at hb ⊢
            simpa [h2] using hb
        | inr k =>
          refine ⟨.inr k, ?_⟩
          simp only [State.blk, State.slot, str_app] at hb ⊢
          have : k ≠ s.strs.length := by rintro rfl; rw [hnone] at hb; simp at hb
          simpa [this] using hb
    · refine ⟨⟨s.mem, s.accs, s.strs ++ [Rep.empty]⟩,
        by simp only [step, hr, Option.bind_eq_bind, Option.bind_some, if_neg hc], ?_⟩
      have hx0 : x = [] := by
        refine List.eq_nil_of_length_eq_zero ?_
        have h1 := hh.1
        have h2 := hh.2.1
        omega
      subst hx0
      refine h.put (.inr s.strs.length) (r := Rep.empty) (r' := Rep.empty) (.inr ⟨by simp [State.slot], rfl⟩) (Upd.refl h.fresh rfl)
        (by simp [h.len]) (by simp [h.slen]) ?_ ?_ ?_ ?_
      · intro p hp
        cases p with
        | inl j => rfl
        | inr k => simp only [State.slot, str_app]; rw [if_neg (by rintro rfl; exact hp rfl)]
      · intro p hp
        cases p with
        | inl j =>
          simp only [AState.slot, AState.acc, acc_set]
          by_cases h1 : i = j
          · subst h1; rw [if_pos ⟨rfl, hi'⟩]; exact hx.symm
          · rw [if_neg (by tauto)]
        | inr k => simp only [AState.slot, str_app]; rw [if_neg (by rw [← h.slen]; rintro rfl; exact hp rfl)]
      · simp only [State.slot, str_app]; simp
      · simp only [State.slot, AState.slot, str_app, h.slen]
        simp only [if_true]
        exact .some (Holds.empty _)


theorem run_inv {s : State} {A A' : AState} (h : Inv s A) {os : List Op} (ho : arun A os = some A') :
    ∃ s', run s os = some s' ∧ Inv s' A' := by
  induction os generalizing s A with
  | nil =>
    simp only [arun, Option.some.injEq] at ho
    subst ho
    exact ⟨s, rfl, h⟩
  | cons o os ih =>
    simp only [arun, Option.bind_eq_some_iff] at ho
    obtain ⟨A1, h1, h2⟩ := ho
    obtain ⟨s1, e1, e2⟩ := step_inv h h1
    obtain ⟨s', e3, e4⟩ := ih e2 h2
    exact ⟨s', by simp [run, e1, e3], e4⟩

end Verif.Accum
