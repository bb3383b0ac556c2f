import Verif.Prune.Steps

/-!
# Histories of a layer with removals
-/
namespace Verif.Prune

variable {G : Type} {up : List Nat → Nat → Nat}

/-- An execution: a state for every time, from an initial state, by steps of any threads in any order. -/
structure Run (up : List Nat → Nat → Nat) (r : Nat → State G) : Prop where
  init : Init (r 0)
  step : ∀ t, r (t + 1) = r t ∨ Step up (r t) (r (t + 1))

/-- An execution in which all changes of internodes are tidy. -/
structure TidyRun (up : List Nat → Nat → Nat) (r : Nat → State G) : Prop extends Run up r where
  counts : Counts up
  tidy : ∀ t, Tidy up (r t)

/-- Thread `i` begins an operation after time `a`, and is still at it at time `b`. -/
structure Op (r : Nat → State G) (i a b : Nat) : Prop where
  lt : a < b
  idle : (r a).pc i = .idle
  busy : ∀ t, a < t → t ≤ b → (r t).pc i ≠ .idle

/-- In this step thread `i` publishes the result of its update `f`. -/
def Publishes (s s' : State G) (i : Nat) (f : Option G → Option G) : Prop :=
  s.fn i = some f ∧ ∃ n, s.pc i = .hold n ∧ s'.pc i = .pub n

/-- The thread has published. -/
def PC.After : PC G → Prop
  | .pub _ => True
  | .ulk _ => True
  | .rpar _ _ _ => True
  | .rgot _ _ _ _ => True
  | .rmod _ _ _ _ => True
  | .dpar _ _ _ _ _ => True
  | .dgot _ _ _ _ _ _ => True
  | .dset _ _ _ _ _ _ => True
  | .dtop _ _ _ _ => True
  | .rend _ _ _ => True
  | .rnext _ _ => True
  | _ => False

theorem TidyRun.both {r : Nat → State G} (h : TidyRun up r) (t : Nat) : Inv (r t) ∧ Mono (r t) (r (t + 1)) := by
  have hmono : ∀ t, Inv (r t) → Inv (r (t + 1)) ∧ Mono (r t) (r (t + 1)) := by
    intro t ht
    rcases h.step t with h1 | h1
    · rw [h1]
      exact ⟨ht, Nat.le_refl _, fun _ _ => rfl, fun _ _ => rfl, fun _ _ => Nat.le_refl _, fun _ _ => Nat.le_refl _,
        fun _ _ _ h => ⟨h, rfl, Nat.le_refl _⟩, fun _ _ h _ _ => h, fun _ _ _ _ _ _ _ h => ⟨h, Nat.le_refl _⟩⟩
    · exact step_inv h.counts ht (h.tidy t) h1
  have hinv : Inv (r t) := by
    induction t with
    | zero => exact init_inv h.init
    | succ t ih => exact (hmono t ih).1
  exact ⟨hinv, (hmono t hinv).2⟩

theorem TidyRun.inv {r : Nat → State G} (h : TidyRun up r) (t : Nat) : Inv (r t) := (h.both t).1

theorem TidyRun.mono {r : Nat → State G} (h : TidyRun up r) (t : Nat) : Mono (r t) (r (t + 1)) := (h.both t).2

theorem removeKid_same (s : State G) (p ik : Nat) (r : Option Nat) :
    (s.removeKid up p r ik).pc = s.pc ∧ (s.removeKid up p r ik).m = s.m ∧ (s.removeKid up p r ik).key = s.key ∧
    (s.removeKid up p r ik).fn = s.fn := by
  unfold State.removeKid
  cases r with
  | some c => exact ⟨rfl, rfl, rfl, rfl⟩
  | none => dsimp only; split <;> exact ⟨rfl, rfl, rfl, rfl⟩

theorem removed_after (s : State G) (p n kp ik : Nat) : (s.removed p n kp ik).After := by
  unfold State.removed
  split
  · split <;> trivial
  · trivial

theorem loop_cases (p : Option Nat) (nx : Option (Nat × Nat)) (t : Nat) :
    (∃ n c x t', (PC.loop p nx t : PC G) = .par n c x t') ∨ (∃ p' t', (PC.loop p nx t : PC G) = .unl p' t') ∨
    ∃ t', (PC.loop p nx t : PC G) = .hold t' := by
  unfold PC.loop
  split
  · exact Or.inl ⟨_, _, _, _, rfl⟩
  · exact Or.inr (Or.inl ⟨_, _, rfl⟩)
  · exact Or.inr (Or.inr ⟨_, rfl⟩)

/-- What a step may mean for the thread whose step it is. -/
inductive Moves (s s' : State G) (i : Nat) : Prop where
  | none (h : s'.pc i = s.pc i) (hm : s'.m = s.m)
  | start (h : s.pc i = .idle) (h' : ∃ n, s'.pc i = .up n) (hm : s'.m = s.m)
  /-- Searching, or splitting. -/
  | work (h : s.pc i ≠ .idle ∧ ¬ (s.pc i).After) (h' : s'.pc i ≠ .idle ∧ ¬ (s'.pc i).After ∧ (∀ v, s'.pc i ≠ .done v) ∧
      ∀ n vi vs v, s'.pc i ≠ .read n vi vs v) (hm : s'.m = s.m)
  | look (n vi vs : Nat) (v : Option G) (h : s.pc i = .at_ n vi vs) (h' : s'.pc i = .read n vi vs v) (hl : s.leaf n = true)
      (hd : s.spl n = vs → s.dS n = false → s.dead n = false) (hr : Seen s n vi vs (v = s.items n (s.key i))) (hm : s'.m = s.m)
  | found (n vi vs : Nat) (v : Option G) (h : s.pc i = .read n vi vs v) (h' : s'.pc i = .done v) (hf : s.fn i = none)
      (hs : s.same n vi vs) (hm : s'.m = s.m)
  | return (v : Option G) (h : s.pc i = .done v) (h' : s'.pc i = .idle) (hm : s'.m = s.m)
  | publish (n : Nat) (f : Option G → Option G) (h : s.pc i = .hold n) (h' : s'.pc i = .pub n) (hf : s.fn i = some f)
      (hm : s'.m = Function.update s.m (s.key i) (f (s.m (s.key i))))
  | after (h : (s.pc i).After) (h' : (s'.pc i).After) (hn : ∀ n, s'.pc i ≠ .pub n) (hm : s'.m = s.m)
  | end (h : (s.pc i).After) (h' : s'.pc i = .idle) (hm : s'.m = s.m)

local macro "work" i:ident h:ident : tactic => `(tactic|
  exact ⟨$i:ident, fun j hj => by simp only [State.to, State.unlock, State.splitLeaf, State.newRoot, State.wedge, State.insertKid,
      State.splitKid, Function.update_of_ne hj],
    .work (by rw [$h:ident]; exact ⟨by simp, id⟩) (by simp [State.to, PC.After]) rfl⟩)

local macro "after" i:ident h:ident : tactic => `(tactic|
  exact ⟨$i:ident, fun j hj => by simp only [State.to, State.unlock, State.unlink, Function.update_of_ne hj],
    .after (by rw [$h:ident]; trivial) (by simp [State.to, PC.After]) (by simp [State.to]) rfl⟩)

theorem step_moves {s s' : State G} (hs : Step up s s') : ∃ i, (∀ j, j ≠ i → s'.pc j = s.pc j) ∧ Moves s s' i := by
  cases hs with
  | start i k f hk hp =>
    exact ⟨i, fun j hj => by simp only [State.to, Function.update_of_ne hj], .start hp ⟨s.root, by simp [State.to]⟩ rfl⟩
  | fixRoot p hp hr => exact ⟨0, fun _ _ => rfl, .none rfl rfl⟩
  | rooted i n hp hc hr => work i hp
  | climb i n hp => work i hp
  | pick i n vi vs c hp hl hc => work i hp
  | child i n vi vs c hp hc => work i hp
  | descend i n vi vs c ci cs hp hs => work i hp
  | again i n vi vs c ci cs hp hc hs => work i hp
  | compare i n vi vs c ci cs hp hc => work i hp
  | inside i n vi vs z hp hl hc hz hk => work i hp
  | retry i n vi vs c hp =>
    refine ⟨i, fun j hj => by simp only [State.to, Function.update_of_ne hj], .work ?_ (by simp [State.to, PC.After]) rfl⟩
    rcases hp with hp | hp | hp <;> (rw [hp]; exact ⟨by simp, id⟩)
  | look i n vi vs r hp hl hd hr =>
    exact ⟨i, fun j hj => by simp only [State.to, Function.update_of_ne hj], .look n vi vs r hp (by simp [State.to]) hl hd hr rfl⟩
  | found i n vi vs r hp hf hs =>
    exact ⟨i, fun j hj => by simp only [State.to, Function.update_of_ne hj], .found n vi vs r hp (by simp [State.to]) hf hs rfl⟩
  | stay i n vi vs r hp hc hs => work i hp
  | compareLeaf i n vi vs r hp hc => work i hp
  | insideLeaf i n vi vs z hp hl hc hz hk => work i hp
  | walk i n vi vs hp hl => work i hp
  | forward i n vi vs r hp hn hb => work i hp
  | arrive i n hp hc => work i hp
  | arrived i n vi vs hp hn => work i hp
  | «return» i r hp =>
    exact ⟨i, fun j hj => by simp only [State.to, Function.update_of_ne hj], .return r hp (by simp [State.to]) rfl⟩
  | acquire i n vi vs r hp hf hl hi hs => work i hp
  | markLeaf i n hp => exact ⟨i, fun _ _ => rfl, .none rfl rfl⟩
  | publish i n f hp hf =>
    exact ⟨i, fun j hj => by simp only [State.to, Function.update_of_ne hj], .publish n f hp (by simp [State.to]) hf rfl⟩
  | release i n hp =>
    exact ⟨i, fun j hj => by simp only [State.to, State.unlock, Function.update_of_ne hj],
      .end (by rw [hp]; trivial) (by simp [State.to]) rfl⟩
  | split i n x hp hx hy => work i hp
  | newRoot i n c x t hp hq => work i hp
  | lockParent i n c x p t hp hq hl => work i hp
  | isParent i p n c x t hp hq => work i hp
  | notParent i p n c x t hp hq => work i hp
  | wedge i p n c x t hp => work i hp
  | insertKid i p n c x t hp => work i hp
  | splitKid i p n c x mid y d t hp hm hy hd => work i hp
  | markSplit i n c x p nx hp => work i hp
  | strip i n c x p nx hp =>
    refine ⟨i, fun j hj => by simp only [State.to, Function.update_of_ne hj], .work (by rw [hp]; exact ⟨by simp, id⟩) ?_ rfl⟩
    simp only [State.to, Function.update_self]
    split <;> simp [PC.After]
  | unlockLeft i n c x t p nx hp => work i hp
  | unlockRight i q t p nx hp =>
    refine ⟨i, fun j hj => by simp only [State.to, State.unlock, Function.update_of_ne hj], .work (by rw [hp]; exact ⟨by simp, id⟩) ?_ rfl⟩
    simp only [State.to, Function.update_self]
    rcases loop_cases (G := G) p nx t with ⟨a, b, c, d, e⟩ | ⟨a, b, e⟩ | ⟨a, e⟩ <;> rw [e] <;> simp [PC.After]
  | unlockParent i p t hp => work i hp
  | kill i n hp he hl => after i hp
  | unlink i n q hp hq hl hg hn => after i hp
  | lockParentR i n p ik r hp hq hl => after i hp
  | isParentR i p n ik r hp hq => after i hp
  | notParentR i p n ik r hp hq => after i hp
  | removeKid i p n ik r hp =>
    obtain ⟨h1, h2, h3, h4⟩ := removeKid_same (up := up) s p ik r
    refine ⟨i, fun j hj => by simp only [State.to, Function.update_of_ne hj, h1], .after (by rw [hp]; trivial) ?_ ?_ h2⟩
    · simp only [State.to, Function.update_self]; exact removed_after ..
    · intro m
      simp only [State.to, Function.update_self]
      unfold State.removed
      split
      · split <;> simp
      · simp
  | lockParentD i q p n ik y u hp hq hl => after i hp
  | isParentD i q p n ik y u hp hq =>
    by_cases hqp : q = p
    · rw [if_pos hqp]; after i hp
    · rw [if_neg hqp]; after i hp
  | notParentD i q p n ik y u hp hq => after i hp
  | rewrite i q p n ik y u hp =>
    refine ⟨i, fun j hj => by simp only [State.to, Function.update_of_ne hj], .after (by rw [hp]; trivial) ?_ ?_ rfl⟩
    · simp only [State.to, Function.update_self]; split <;> trivial
    · simp only [State.to, Function.update_self]; split <;> simp
  | unlockTop i u p n y hp => after i hp
  | unlockDead i p n ik hp => after i hp
  | finish i p ik hp hk =>
    exact ⟨i, fun j hj => by simp only [State.to, State.unlock, Function.update_of_ne hj],
      .end (by rw [hp]; trivial) (by simp [State.to]) rfl⟩
  | killNode i p ik hp hk hr => after i hp

/-- The operation of a thread does not change while it is busy. -/
theorem step_op {s s' : State G} (hs : Step up s s') {i : Nat} (hi : s.pc i ≠ .idle) : s'.key i = s.key i ∧ s'.fn i = s.fn i := by
  cases hs with
  | start j k f hk hp =>
    have : i ≠ j := by rintro rfl; exact hi hp
    simp [State.to, this]
  | removeKid j p n ik r hp =>
    obtain ⟨h1, h2, h3, h4⟩ := removeKid_same (up := up) s p ik r
    simp only [State.to, h3, h4, and_self]
  | isParentD j q p n ik y u hp hq => split <;> exact ⟨rfl, rfl⟩
  | _ => exact ⟨rfl, rfl⟩

theorem Run.op {r : Nat → State G} (h : Run up r) {t i : Nat} (hi : (r t).pc i ≠ .idle) :
    (r (t + 1)).key i = (r t).key i ∧ (r (t + 1)).fn i = (r t).fn i := by
  rcases h.step t with h1 | h1
  · rw [h1]; exact ⟨rfl, rfl⟩
  · exact step_op h1 hi

theorem Op.const {r : Nat → State G} (h : Run up r) {i a b : Nat} (ho : Op r i a b) :
    ∀ t, a < t → t ≤ b → (r t).key i = (r b).key i ∧ (r t).fn i = (r b).fn i := by
  obtain ⟨h1, h2, h3⟩ := ho
  clear h1
  induction b with
  | zero => intro t h4 h5; omega
  | succ b ih =>
    intro t h4 h5
    by_cases ht : t = b + 1
    · subst ht; exact ⟨rfl, rfl⟩
    · have hb := h.op (h3 b (by omega) (by omega))
      have := ih (fun t h6 h7 => h3 t h6 (by omega)) t h4 (by omega)
      rw [hb.1, hb.2]; exact this

/-- The map changes only when a thread publishes. -/
theorem step_map {s s' : State G} (h : Inv s) (hs : Step up s s') :
    (s'.m = s.m ∧ ∀ i f, ¬ Publishes s s' i f) ∨
    ∃ i f, Publishes s s' i f ∧ s'.m = Function.update s.m (s.key i) (f (s.m (s.key i))) ∧
      (∃ n, s.pc i = .hold n ∧ s.items n (s.key i) = s.m (s.key i)) ∧ ∀ j g, Publishes s s' j g → j = i := by
  obtain ⟨i, ho, hm⟩ := step_moves hs
  have hone : ∀ j g, Publishes s s' j g → j = i := by
    rintro j g ⟨_, m, h2, h3⟩
    by_contra hj
    rw [ho j hj, h2] at h3; cases h3
  cases hm with
  | publish n f h1 h2 hf hm =>
    have hl := h.loc i
    rw [h1] at hl
    exact Or.inr ⟨i, f, ⟨hf, n, h1, h2⟩, hm, ⟨n, h1, h.val n _ hl.1 hl.2.1 hl.2.2.2.2.2 hl.2.2.1 hl.2.2.2.1⟩, hone⟩
  | work h1 h2 hm =>
    refine Or.inl ⟨hm, fun j g hp => ?_⟩
    obtain rfl := hone j g hp
    obtain ⟨_, m, h3, h4⟩ := hp
    rw [h4] at h2
    exact h2.2.1 trivial
  | after h1 h2 hn hm =>
    refine Or.inl ⟨hm, fun j g hp => ?_⟩
    obtain rfl := hone j g hp
    obtain ⟨_, m, h3, h4⟩ := hp
    exact hn m h4
  | start h1 h2 hm =>
    refine Or.inl ⟨hm, fun j g hp => ?_⟩
    obtain rfl := hone j g hp
    obtain ⟨_, m, h3, h4⟩ := hp
    rw [h1] at h3; cases h3
  | «end» h1 h2 hm =>
    refine Or.inl ⟨hm, fun j g hp => ?_⟩
    obtain rfl := hone j g hp
    obtain ⟨_, m, h3, h4⟩ := hp
    rw [h2] at h4; cases h4
  | «return» v h1 h2 hm =>
    refine Or.inl ⟨hm, fun j g hp => ?_⟩
    obtain rfl := hone j g hp
    obtain ⟨_, m, h3, h4⟩ := hp
    rw [h2] at h4; cases h4
  | none h1 hm =>
    refine Or.inl ⟨hm, fun j g hp => ?_⟩
    obtain rfl := hone j g hp
    obtain ⟨_, m, h3, h4⟩ := hp
    rw [h1, h3] at h4; cases h4
  | look n vi vs v h1 h2 hl hd hr hm =>
    refine Or.inl ⟨hm, fun j g hp => ?_⟩
    obtain rfl := hone j g hp
    obtain ⟨_, m, h3, h4⟩ := hp
    rw [h2] at h4; cases h4
  | found n vi vs v h1 h2 hf hs hm =>
    refine Or.inl ⟨hm, fun j g hp => ?_⟩
    obtain rfl := hone j g hp
    obtain ⟨_, m, h3, h4⟩ := hp
    rw [h2] at h4; cases h4

/-- The result of a lookup is the value of its key at some time since time `a`. -/
def Seen.Since (r : Nat → State G) (i a b : Nat) : PC G → Prop
  | .read n vi vs v => (r b).same n vi vs → ∃ t, a < t ∧ t ≤ b ∧ (r t).m ((r b).key i) = v
  | .done v => ∃ t, a < t ∧ t ≤ b ∧ (r t).m ((r b).key i) = v
  | _ => True

theorem Seen.Since.next {r : Nat → State G} (h : TidyRun up r) {i a b : Nat} (hi : (r b).pc i ≠ .idle) {x : PC G}
    (hl : (r b).Loc ((r b).key i) x) (hs : Seen.Since r i a b x) : Seen.Since r i a (b + 1) x := by
  have hk := (h.op hi).1
  cases x with
  | read n vi vs v =>
    intro hsame
    rw [hk]
    obtain ⟨t, h1, h2, h3⟩ := hs (Same.mono (h.mono b) hl.1.1 hl.2.1 hl.1.2.2.1 hsame).1
    exact ⟨t, h1, by omega, h3⟩
  | done v =>
    unfold Seen.Since
    rw [hk]
    obtain ⟨t, h1, h2, h3⟩ := hs
    exact ⟨t, h1, by omega, h3⟩
  | _ => trivial

/-- How a reader gets a result. -/
theorem step_read {s s' : State G} (hs : Step up s s') {i n vi vs : Nat} {v : Option G} (hx : s'.pc i = .read n vi vs v) :
    s.pc i = .read n vi vs v ∨ (s.pc i = .at_ n vi vs ∧ s.leaf n = true ∧ (s.spl n = vs → s.dS n = false → s.dead n = false) ∧
      Seen s n vi vs (v = s.items n (s.key i)) ∧ s'.m = s.m) := by
  obtain ⟨j, ho, hm⟩ := step_moves hs
  by_cases hij : i = j
  · subst hij
    cases hm with
    | look n' vi' vs' v' h1 h2 hl hd hr hm =>
      rw [hx] at h2
      cases h2
      exact Or.inr ⟨h1, hl, hd, hr, hm⟩
    | none h1 hm => rw [hx] at h1; exact Or.inl h1.symm
    | work h1 h2 hm => exact absurd hx (h2.2.2.2 _ _ _ _)
    | after h1 h2 hn hm => rw [hx] at h2; exact h2.elim
    | start h1 h2 hm => obtain ⟨n, h2⟩ := h2; rw [hx] at h2; cases h2
    | «end» h1 h2 hm => rw [hx] at h2; cases h2
    | «return» v h1 h2 hm => rw [hx] at h2; cases h2
    | found n vi vs v h1 h2 hf hs hm => rw [hx] at h2; cases h2
    | publish n f h1 h2 hf hm => rw [hx] at h2; cases h2
  · rw [ho i hij] at hx; exact Or.inl hx

theorem step_done {s s' : State G} (hs : Step up s s') {i : Nat} {v : Option G} (hx : s'.pc i = .done v) :
    s.pc i = .done v ∨ (s.fn i = none ∧ ∃ n vi vs, s.pc i = .read n vi vs v ∧ s.same n vi vs) := by
  obtain ⟨j, ho, hm⟩ := step_moves hs
  by_cases hij : i = j
  · subst hij
    cases hm with
    | look n' vi' vs' v' h1 h2 hl hd hr hm => rw [hx] at h2; cases h2
    | none h1 hm => rw [hx] at h1; exact Or.inl h1.symm
    | work h1 h2 hm => exact absurd hx (h2.2.2.1 _)
    | after h1 h2 hn hm => rw [hx] at h2; exact h2.elim
    | start h1 h2 hm => obtain ⟨n, h2⟩ := h2; rw [hx] at h2; cases h2
    | «end» h1 h2 hm => rw [hx] at h2; cases h2
    | «return» v h1 h2 hm => rw [hx] at h2; cases h2
    | found n vi vs v h1 h2 hf hs hm => rw [hx] at h2; cases h2; exact Or.inr ⟨hf, _, _, _, h1, hs⟩
    | publish n f h1 h2 hf hm => rw [hx] at h2; cases h2
  · rw [ho i hij] at hx; exact Or.inl hx

theorem Seen.since {r : Nat → State G} (h : TidyRun up r) {i a b : Nat} (ho : Op r i a b) : Seen.Since r i a b ((r b).pc i) := by
  obtain ⟨h1, h2, h3⟩ := ho
  induction b with
  | zero => omega
  | succ b ih =>
    by_cases hab : a = b
    · -- the operation begins
      subst hab
      rcases h.step a with h4 | h4
      · exact absurd (by rw [h4]; exact h2) (h3 (a + 1) (by omega) (Nat.le_refl _))
      · generalize hr : r (a + 1) = s' at *
        have : ∀ n vi vs v, s'.pc i ≠ .read n vi vs v ∧ s'.pc i ≠ .done v := by
          refine fun n vi vs v => ⟨fun e => ?_, fun e => ?_⟩
          · rcases step_read h4 e with h5 | h5
            · rw [h2] at h5; cases h5
            · rw [h2] at h5; cases h5.1
          · rcases step_done h4 e with h5 | ⟨_, _, _, _, h5, _⟩ <;> (rw [h2] at h5; cases h5)
        cases hx : s'.pc i with
        | read n vi vs v => exact absurd hx (this n vi vs v).1
        | done v => exact absurd hx (this 0 0 0 v).2
        | _ => trivial
    · have ih := ih (by omega) fun t h4 h5 => h3 t h4 (by omega)
      have hbusy := h3 b (by omega) (by omega)
      have hloc := (h.inv b).loc i
      have hinv := h.inv b
      have hnext := fun x hl hs => Seen.Since.next h (a := a) hbusy (x := x) hl hs
      have hk := (h.op hbusy).1
      rcases h.step b with h4 | h4
      · have := hnext _ hloc ih
        rwa [show (r (b + 1)).pc i = (r b).pc i by rw [h4]]
      · -- the position does not change, or is not one of a reader with a result
        by_cases hpc : (r (b + 1)).pc i = (r b).pc i
        · rw [hpc]; exact hnext _ hloc ih
        · cases hx : (r (b + 1)).pc i with
          | read n vi vs v =>
            have hsame := Same.mono (h.mono b) (n := n) (vi := vi) (vs := vs)
            have hlook := (step_read h4 hx).resolve_left fun e => hpc (hx.trans e.symm)
            obtain ⟨e1, e2, e3, e4, e5⟩ := hlook
            rw [e1] at hloc
            intro hs
            have hs' := (hsame hloc.1.1 hloc.2 hloc.1.2.2.1 hs).1
            obtain ⟨⟨c1, c2⟩, c3, c4⟩ := hs'
            have hdead := e3 c4 c2
            refine ⟨b, by omega, by omega, ?_⟩
            rw [hk, e4 ⟨⟨c1, c2⟩, c3, c4⟩]
            exact (hinv.val n _ hloc.1.1 e2 (hinv.linked hloc.1.1 hdead) hloc.1.2.1 (hloc.1.2.2.2 c4 c2 hdead)).symm
          | done v =>
            have hfound := (step_done h4 hx).resolve_left fun e => hpc (hx.trans e.symm)
            obtain ⟨_, n, vi, vs, e1, e2⟩ := hfound
            rw [e1] at ih
            obtain ⟨t, t1, t2, t3⟩ := ih e2
            unfold Seen.Since
            rw [hk]
            exact ⟨t, t1, by omega, t3⟩
          | _ => trivial

/-- How a thread gets to a position after publishing, and away from it. -/
theorem step_after {s s' : State G} (hs : Step up s s') {i : Nat} :
    ((s'.pc i).After → (s.pc i).After ∨ ∃ n, s.pc i = .hold n ∧ s'.pc i = .pub n) ∧
    ((s.pc i).After → (s'.pc i).After ∨ s'.pc i = .idle) ∧
    (s'.pc i = .idle → s.pc i ≠ .idle → (s.pc i).After ∨ ∃ v, s.pc i = .done v) := by
  obtain ⟨j, ho, hm⟩ := step_moves hs
  by_cases hij : i = j
  · subst hij
    cases hm with
    | none h1 hm => rw [h1]; exact ⟨Or.inl, Or.inl, fun e h => absurd e h⟩
    | work h1 h2 hm => exact ⟨fun e => absurd e h2.2.1, fun e => absurd e h1.2, fun e => absurd e h2.1⟩
    | after h1 h2 hn hm => exact ⟨fun _ => Or.inl h1, fun _ => Or.inl h2, fun e => by rw [e] at h2; exact h2.elim⟩
    | start h1 h2 hm =>
      obtain ⟨n, h2⟩ := h2
      rw [h1, h2]; exact ⟨fun e => e.elim, fun e => e.elim, fun e => by cases e⟩
    | «end» h1 h2 hm => rw [h2]; exact ⟨fun e => e.elim, fun _ => Or.inr rfl, fun _ _ => Or.inl h1⟩
    | «return» v h1 h2 hm => rw [h1, h2]; exact ⟨fun e => e.elim, fun e => e.elim, fun _ _ => Or.inr ⟨v, rfl⟩⟩
    | look n vi vs v h1 h2 hl hd hr hm => rw [h1, h2]; exact ⟨fun e => e.elim, fun e => e.elim, fun e => by cases e⟩
    | found n vi vs v h1 h2 hf hs hm => rw [h1, h2]; exact ⟨fun e => e.elim, fun e => e.elim, fun e => by cases e⟩
    | publish n f h1 h2 hf hm => rw [h1, h2]; exact ⟨fun _ => Or.inr ⟨n, rfl, rfl⟩, fun e => e.elim, fun e => by cases e⟩
  · rw [ho i hij]; exact ⟨Or.inl, Or.inl, fun e h => absurd e h⟩

end Verif.Prune
