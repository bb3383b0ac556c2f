import Mathlib.Logic.Relation
import Verif.Blink.Progress

/-!
# Operations that run alone finish
-/
namespace Verif.Blink

variable {G : Type}

/-- Leaf `n` has split off `c` and is not cut yet. -/
def PC.Uncut : PC G → Nat → Nat → Prop
  | .par n c _ t, a, b => t = none ∧ a = n ∧ b = c
  | .got _ n c _ t, a, b => t = none ∧ a = n ∧ b = c
  | .mrk _ n c _ t, a, b => t = none ∧ a = n ∧ b = c
  | .mod _ n c _ t, a, b => t = none ∧ a = n ∧ b = c
  | .fin _ _ n c _ t, a, b => t = none ∧ a = n ∧ b = c
  | .cut _ _ n c _, a, b => a = n ∧ b = c
  | _, _, _ => False

theorem Uncut.owns {x : PC G} {a b : Nat} (h : x.Uncut a b) : x.Owns a := by
  cases x <;> grind [PC.Uncut, PC.Owns]

/-- The next leaf begins where a leaf ends. -/
structure Chain (s : State G) : Prop where
  lt : ∀ n r, n < s.fresh → s.leaf n = true → s.next n = some r → s.lo n < s.lo r
  eq : ∀ n r, n < s.fresh → s.leaf n = true → s.next n = some r → s.lo r = s.hi n ∨ ∃ i, (s.pc i).Uncut n r

theorem chain_move {s s' : State G} (h : Chain s) {i : Nat} {x : PC G} (hpc : s'.pc = Function.update s.pc i x)
    (hx : ∀ a b, x.Uncut a b ↔ (s.pc i).Uncut a b) (hf : s'.fresh = s.fresh) (hl : s'.leaf = s.leaf)
    (hn : s'.next = s.next) (hlo : s'.lo = s.lo) (hhi : ∀ n, s.leaf n = true → s'.hi n = s.hi n) : Chain s' := by
  refine ⟨fun n r => by rw [hf, hl, hn, hlo]; exact h.lt n r, fun n r => ?_⟩
  rw [hf, hl, hn, hlo]
  intro h1 h2 h3
  rw [hhi n h2]
  rcases h.eq n r h1 h2 h3 with h4 | ⟨j, h4⟩
  · exact Or.inl h4
  · refine Or.inr ⟨j, ?_⟩
    rw [hpc]
    by_cases hji : j = i
    · subst hji; rw [Function.update_self, hx]; exact h4
    · rw [Function.update_of_ne hji]; exact h4

/-- A new internode. -/
theorem chain_internode {s s' : State G} (h : Chain s) (hi : Inv s) {i : Nat} {x : PC G} (hpc : s'.pc = Function.update s.pc i x)
    (hx : ∀ a b, (s.pc i).Uncut a b → x.Uncut a b) (hf : s'.fresh = s.fresh + 1)
    (hl : s'.leaf = Function.update s.leaf s.fresh false) (hn : s'.next = s.next) (y z : Nat)
    (hlo : s'.lo = Function.update s.lo s.fresh y) (hhi : s'.hi = Function.update s.hi s.fresh z) : Chain s' := by
  have hlt : ∀ n, n < s'.fresh → s'.leaf n = true → n < s.fresh ∧ s.leaf n = true := by
    intro n h1 h2
    rw [hf] at h1; rw [hl] at h2
    by_cases hnf : n = s.fresh
    · subst hnf; simp at h2
    · rw [Function.update_of_ne hnf] at h2; exact ⟨by omega, h2⟩
  refine ⟨fun n r h1 h2 h3 => ?_, fun n r h1 h2 h3 => ?_⟩ <;>
  · obtain ⟨h1, h2⟩ := hlt n h1 h2
    rw [hn] at h3
    have h4 := hi.next n r h1 h2 h3
    rw [hlo, Function.update_of_ne (by omega)]
    first
    | rw [Function.update_of_ne (by omega)]; exact h.lt n r h1 h2 h3
    | rw [hhi, Function.update_of_ne (by omega)]
      rcases h.eq n r h1 h2 h3 with h5 | ⟨j, h5⟩
      · exact Or.inl h5
      · refine Or.inr ⟨j, ?_⟩
        rw [hpc]
        by_cases hji : j = i
        · subst hji; rw [Function.update_self]; exact hx _ _ h5
        · rw [Function.update_of_ne hji]; exact h5

theorem loop_uncut {p : Option Nat} {nx : Option (Nat × Nat)} {t a b : Nat} : ¬ (PC.loop p nx t : PC G).Uncut a b := by
  unfold PC.loop
  split <;> grind [PC.Uncut]

theorem step_chain {s s' : State G} (hi : Inv s) (h : Chain s) (hs : Step s s') : Chain s' := by
  cases hs with
  | start i k f hk hp => exact chain_move h (i := i) rfl (by rw [hp]; simp [PC.Uncut]) rfl rfl rfl rfl fun _ _ => rfl
  | fixRoot p hp hr => exact ⟨h.lt, h.eq⟩
  | markLeaf i n hp => exact ⟨h.lt, h.eq⟩
  | rooted i n hp | climb i n hp | pick i n vi vs c hp | child i n vi vs c hp | descend i n vi vs c ci cs hp
  | again i n vi vs c ci cs hp | compare i n vi vs c ci cs hp | inside i n vi vs z hp | look i n vi vs r hp
  | found i n vi vs r hp | stay i n vi vs r hp | compareLeaf i n vi vs r hp | insideLeaf i n vi vs z hp | walk i n vi vs hp
  | forward i n vi vs r hp | arrive i n hp | arrived i n vi vs hp | «return» i r hp | acquire i n vi vs r hp
  | publish i n f hp | lockParent i n c x p t hp | isParent i p n c x t hp | markParent i p n c x t hp
  | markSplit i n c x p nx hp | release i n hp | notParent i p n c x t hp | insertKid i p n c x t hp
  | unlockParent i p t hp =>
    exact chain_move h (i := i) rfl (by rw [hp]; simp [PC.Uncut]) rfl rfl rfl rfl fun _ _ => rfl
  | retry i n vi vs c hp =>
    exact chain_move h (i := i) rfl (by rcases hp with hp | hp <;> (rw [hp]; simp [PC.Uncut])) rfl rfl rfl rfl fun _ _ => rfl
  | unlockRight i q t p nx hp =>
    exact chain_move h (i := i) rfl (by rw [hp]; exact fun a b => ⟨fun h => absurd h loop_uncut, fun h => h.elim⟩) rfl rfl rfl rfl fun _ _ => rfl
  | unlockLeft i n c x t p nx hp =>
    have h1 := hi.loc i; rw [hp] at h1
    simp only [State.Loc, State.Level] at h1
    refine chain_move h (i := i) rfl (by rw [hp]; simp [PC.Uncut]) rfl rfl rfl rfl fun q hq => ?_
    exact Function.update_of_ne (by grind) _ _
  | strip i n c x p nx hp =>
    have h1 := hi.loc i; rw [hp] at h1
    simp only [State.Loc, State.Level, State.Pair] at h1
    have h2 : ∀ j a b, (s.pc j).Uncut a b → a = n → j = i := by
      rintro j a b h3 rfl
      have h4 := hi.own j a (Uncut.owns h3)
      have h5 := hi.own i a (by rw [hp]; simp [PC.Owns])
      grind
    obtain ⟨g1, g2⟩ := h
    refine ⟨g1, fun a r h3 h4 h5 => ?_⟩
    by_cases ha : a = n
    · subst ha
      have h6 : s.next a = some r := h5
      rw [h1.2.2.1.2.2.2] at h6
      cases h6
      left
      show s.lo c = Function.update s.hi a x a
      rw [Function.update_self]; exact h1.1.2.2.2.2.1
    · rcases g2 a r h3 h4 h5 with h6 | ⟨j, h6⟩
      · left
        show s.lo r = Function.update s.hi n x a
        rw [Function.update_of_ne ha]; exact h6
      · right
        refine ⟨j, ?_⟩
        have hji : j ≠ i := by
          rintro rfl
          rw [hp] at h6
          exact ha h6.1
        show (Function.update s.pc i _ j).Uncut a r
        rw [Function.update_of_ne hji]; exact h6
  | split i n x hp hx hy =>
    have h1 := hi.loc i; rw [hp] at h1
    simp only [State.Loc, State.Target] at h1
    have h2 : ∀ j a b, (s.pc j).Uncut a b → a = n → j = i := by
      rintro j a b h3 rfl
      have h4 := hi.own j a (Uncut.owns h3)
      have h5 := hi.own i a (by rw [hp]; simp [PC.Owns])
      grind
    have h3 := hi.next
    obtain ⟨g1, g2⟩ := h
    refine ⟨?_, ?_⟩
    · simp only [State.to, State.splitLeaf]; grind [Function.update_apply, PC.Uncut]
    · intro a r
      show a < s.fresh + 1 → Function.update s.leaf s.fresh true a = true →
        Function.update (Function.update s.next s.fresh (s.next n)) n (some s.fresh) a = some r →
        Function.update s.lo s.fresh x r = Function.update s.hi s.fresh (s.hi n) a ∨
          ∃ j, (Function.update s.pc i (.par n s.fresh x none) j).Uncut a r
      intro ha hl hn
      by_cases hb : a = n
      · subst hb; rw [Function.update_self] at hn; cases hn
        exact Or.inr ⟨i, by rw [Function.update_self]; exact ⟨rfl, rfl, rfl⟩⟩
      · rw [Function.update_of_ne hb] at hn
        have key : ∀ q, q < s.fresh → s.leaf q = true → s.next q = some r →
            s.lo r = s.hi q ∨ ∃ j, j ≠ i ∧ (s.pc j).Uncut q r := by
          intro q h4 h5 h6
          rcases g2 q r h4 h5 h6 with h7 | ⟨j, h7⟩
          · exact Or.inl h7
          · refine Or.inr ⟨j, ?_, h7⟩
            rintro rfl; rw [hp] at h7; exact h7
        by_cases hc : a = s.fresh
        · subst hc
          rw [Function.update_self] at hn ⊢
          have h4 := h3 n r h1.1 h1.2.1 hn
          rw [Function.update_of_ne (by omega)]
          rcases key n h1.1 h1.2.1 hn with h5 | ⟨j, h5, h6⟩
          · exact Or.inl h5
          · exact absurd (h2 j n r h6 rfl) h5
        · rw [Function.update_of_ne hc] at hn hl ⊢
          have h4 := h3 a r (by omega) hl hn
          rw [Function.update_of_ne (by omega)]
          rcases key a (by omega) hl hn with h5 | ⟨j, h5, h6⟩
          · exact Or.inl h5
          · exact Or.inr ⟨j, by rw [Function.update_of_ne h5]; exact h6⟩
  | newRoot i n c x t hp hq =>
    exact chain_internode h hi (i := i) rfl (by rw [hp]; exact fun a b h => h) rfl rfl rfl _ _ rfl rfl
  | splitKid i p n c x mid y t hp hy =>
    exact chain_internode h hi (i := i) rfl (by rw [hp]; exact fun a b h => h) rfl rfl rfl _ _ rfl rfl

theorem reachable_chain {s : State G} (h : Reachable s) : Chain s := by
  induction h with
  | init h =>
    refine ⟨fun n r hn _ hq => ?_, fun n r hn _ hq => ?_⟩ <;>
    · rw [h.fresh] at hn
      obtain rfl : n = 0 := by omega
      rw [h.next] at hq; cases hq
  | step hr hs ih => exact step_chain (reachable_inv hr) ih hs

/-- A step by which thread `i` goes on and nothing else changes. -/
def Solo (i : Nat) (s s' : State G) : Prop := Step s s' ∧ ∃ x, s' = s.to i x

abbrev Solos (i : Nat) : State G → State G → Prop := Relation.ReflTransGen (Solo i)

theorem to_to (s : State G) (i : Nat) (x y : PC G) : (s.to i x).to i y = s.to i y := by
  simp [State.to]

theorem to_self (s : State G) (i : Nat) {x : PC G} (h : s.pc i = x) : s.to i x = s := by
  subst h; simp [State.to]

/-- No operation is changing the tree. -/
structure Quiet (s : State G) : Prop where
  inv : Inv s
  prog : Prog s
  tall : ∃ l, Tall s l
  chain : Chain s
  free : ∀ n, s.lock n = none

theorem Quiet.clean {s : State G} (h : Quiet s) (n : Nat) : s.clean n := h.inv.dirty n (h.free n)

theorem Quiet.owns {s : State G} (h : Quiet s) (i n : Nat) : ¬ (s.pc i).Owns n := by
  intro h1
  have := h.inv.own i n h1
  rw [h.free] at this; cases this

theorem Quiet.rooted {s : State G} (h : Quiet s) {n : Nat} (hn : n < s.fresh) (hp : s.parent n = none) :
    s.rt n = true ∧ s.lo n = 0 ∧ s.hi n = top := by
  have h1 : s.rt n = true := by
    rcases h.prog.rooted n hn hp with h1 | ⟨i, a, h1⟩
    · exact h1
    · exact absurd (Pend.owns h1).2.1 (h.owns i n)
  have h2 : s.lo n = 0 := by
    rcases h.inv.att n hn hp with h2 | h2
    · exact h2.1
    · exact absurd (Loose.owns h2) (by rw [State.holder, h.free]; simp [PC.Owns])
  exact ⟨h1, h2, h.inv.rt n hn h1 h2 (h.clean n).2⟩

theorem Quiet.phi {s : State G} (h : Quiet s) {n : Nat} (hn : n < s.fresh) : s.phi n = s.hi n := by
  rcases h.inv.phi n hn with h1 | h1
  · exact h1
  · rw [State.holder, h.free] at h1; exact h1.elim

/-- One step of the thread in a tree that stays the same. -/
theorem Solos.one {s z : State G} {i : Nat} {x y : PC G} (h : Step (s.to i x) ((s.to i x).to i y))
    (hr : Solos i (s.to i y) z) : Solos i (s.to i x) z :=
  Relation.ReflTransGen.head ⟨h, y, rfl⟩ (by rw [to_to]; exact hr)

theorem pc_to (s : State G) (i : Nat) (x : PC G) : (s.to i x).pc i = x := by simp [State.to]

/-- From a node for the key, down to its leaf, and what is read there is current. -/
theorem Quiet.down {s : State G} (h : Quiet s) {i : Nat} {l : Nat → Nat} (hl : Tall s l) :
    ∀ n, n < s.fresh → s.lo n ≤ s.key i → s.key i < s.hi n →
      ∃ m, Solos i (s.to i (.at_ n (s.ins n) (s.spl n))) (s.to i (.read m (s.ins m) (s.spl m) (s.m (s.key i)))) := by
  intro n
  induction hd : l n using Nat.strongRecOn generalizing n with
  | _ d ih =>
    intro hn hlo hhi
    cases hf : s.leaf n with
    | true =>
      refine ⟨n, Solos.one ?_ .refl⟩
      refine Step.look (s := s.to i _) i n _ _ _ (pc_to _ _ _) hf fun _ => ?_
      exact (h.inv.val n _ hn hf hlo hhi).symm
    | false =>
      have h1 := h.inv.kidRng n (s.key i) hn hf hlo (by rw [h.inv.chi n hn (h.clean n).2]; exact hhi)
      have h2 := (h.inv.good n hn hf).route_mem (s.key i)
      generalize hc : routeOf (s.keys n) (s.kids n) (s.key i) = c at h1 h2
      obtain ⟨h3, h4⟩ := h.inv.kid n c hn hf h2
      have h5 := hl.up c n h3 h4
      rw [h.phi h3] at h1
      obtain ⟨m, h6⟩ := ih (l c) (by omega) c rfl h3 h1.1 h1.2
      refine ⟨m, ?_⟩
      refine Solos.one (Step.pick (s := s.to i _) i n _ _ c (pc_to _ _ _) hf fun _ => hc.symm) ?_
      refine Solos.one (Step.child (s := s.to i _) i n _ _ c (pc_to _ _ _) (h.clean c)) ?_
      refine Solos.one (Step.descend (s := s.to i _) i n _ _ c _ _ (pc_to _ _ _) ⟨h.clean n, rfl, rfl⟩) ?_
      exact h6

theorem bounded (l : Nat → Nat) (k : Nat) : ∃ b, ∀ n, n < k → l n ≤ b := by
  induction k with
  | zero => exact ⟨0, fun n hn => absurd hn (Nat.not_lt_zero n)⟩
  | succ k ih =>
    obtain ⟨b, hb⟩ := ih
    refine ⟨b + l k, fun n hn => ?_⟩
    by_cases h : n = k
    · subst h; omega
    · have := hb n (by omega); omega

/-- Up to the root. -/
theorem Quiet.climb {s : State G} (h : Quiet s) {i : Nat} :
    ∀ n, n < s.fresh → ∃ r, r < s.fresh ∧ s.parent r = none ∧ Solos i (s.to i (.up n)) (s.to i (.up r)) := by
  obtain ⟨l, hl⟩ := h.tall
  obtain ⟨b, hb⟩ := bounded l s.fresh
  intro n
  induction hd : b - l n using Nat.strongRecOn generalizing n with
  | _ d ih =>
    intro hn
    cases hp : s.parent n with
    | none => exact ⟨n, hn, hp, .refl⟩
    | some p =>
      have h1 := hl.up n p hn hp
      have h2 := h.inv.parent n p hn hp
      have h3 := hb p h2.1
      obtain ⟨r, h4, h5, h6⟩ := ih (b - l p) (by omega) p rfl h2.1
      refine ⟨r, h4, h5, Solos.one ?_ h6⟩
      have := Step.climb (s := s.to i (.up n)) i n (pc_to _ _ _)
      rwa [show ((s.to i (.up n)).parent n).getD n = p by show (s.parent n).getD n = p; rw [hp]; rfl] at this

/-- From the top, the current value is read. -/
theorem Quiet.find {s : State G} (h : Quiet s) {i n : Nat} (hn : n < s.fresh) (hk : s.key i < top) :
    ∃ m, Solos i (s.to i (.up n)) (s.to i (.read m (s.ins m) (s.spl m) (s.m (s.key i)))) := by
  obtain ⟨r, h1, h2, h3⟩ := h.climb (i := i) n hn
  obtain ⟨h4, h5, h6⟩ := h.rooted h1 h2
  obtain ⟨l, hl⟩ := h.tall
  obtain ⟨m, h7⟩ := h.down (i := i) hl r h1 (by omega) (by omega)
  refine ⟨m, h3.trans (Solos.one ?_ h7)⟩
  exact Step.rooted (s := s.to i _) i r (pc_to _ _ _) (h.clean r) h4

/-- Along the leaves. -/
theorem Quiet.walk {s : State G} (h : Quiet s) {i : Nat} :
    ∀ n vi vs, n < s.fresh → s.leaf n = true → s.lo n ≤ s.key i →
      ∃ m wi ws, s.leaf m = true ∧ Solos i (s.to i (.adv n vi vs)) (s.to i (.at_ m wi ws)) := by
  intro n
  induction hd : s.key i - s.lo n using Nat.strongRecOn generalizing n with
  | _ d ih =>
    intro vi vs hn hf hlo
    by_cases hr : ∃ r, s.next n = some r ∧ s.lo r ≤ s.key i
    · obtain ⟨r, h1, h2⟩ := hr
      have h3 := h.chain.lt n r hn hf h1
      have h4 := h.inv.next n r hn hf h1
      obtain ⟨m, wi, ws, h5, h6⟩ := ih (s.key i - s.lo r) (by omega) r rfl (s.ins r) (s.spl r) h4.1 h4.2.1 h2
      refine ⟨m, wi, ws, h5, ?_⟩
      refine Solos.one (Step.forward (s := s.to i _) i n vi vs r (pc_to _ _ _) h1 h2) ?_
      exact Solos.one (Step.arrive (s := s.to i _) i r (pc_to _ _ _) (h.clean r)) h6
    · refine ⟨n, vi, vs, hf, Solos.one (Step.arrived (s := s.to i _) i n vi vs (pc_to _ _ _) fun r h1 => ?_) .refl⟩
      have h2 : ¬ s.lo r ≤ s.key i := fun h2 => hr ⟨r, h1, h2⟩
      exact Nat.lt_of_not_le h2

/-- Wherever a lookup is, it can go back to the top. -/
theorem Quiet.again {s : State G} (h : Quiet s) {i : Nat} (h0 : s.pc i ≠ .idle) (hd : ∀ v, s.pc i ≠ .done v) :
    ∃ n, n < s.fresh ∧ Solos i s (s.to i (.up n)) := by
  have hb := (h.inv.base i h0).1
  have hloc := h.inv.loc i
  have hown := h.owns i
  have cmp : ∀ n vi vs, Solos i (s.to i (.cmp n vi vs)) (s.to i (.up (s.base i))) := fun n vi vs =>
    Solos.one (Step.retry (s := s.to i _) i n vi vs 0 (Or.inr (pc_to _ _ _))) .refl
  have read : ∀ n vi vs r, Solos i (s.to i (.read n vi vs r)) (s.to i (.up (s.base i))) := fun n vi vs r =>
    Solos.one (Step.compareLeaf (s := s.to i _) i n vi vs r (pc_to _ _ _) (h.clean n)) (cmp _ _ _)
  have at_ : ∀ n vi vs, Solos i (s.to i (.at_ n vi vs)) (s.to i (.up (s.base i))) := by
    intro n vi vs
    cases hf : s.leaf n with
    | true => exact Solos.one (Step.look (s := s.to i _) i n vi vs (s.items n (s.key i)) (pc_to _ _ _) hf fun _ => rfl) (read _ _ _ _)
    | false =>
      refine Solos.one (Step.pick (s := s.to i _) i n vi vs (s.route n (s.key i)) (pc_to _ _ _) hf fun _ => rfl) ?_
      exact Solos.one (Step.retry (s := s.to i _) i n vi vs _ (Or.inl (pc_to _ _ _))) .refl
  have adv : ∀ n vi vs, n < s.fresh → s.leaf n = true → s.lo n ≤ s.key i →
      Solos i (s.to i (.adv n vi vs)) (s.to i (.up (s.base i))) := by
    intro n vi vs h1 h2 h3
    obtain ⟨m, wi, ws, _, h4⟩ := h.walk (i := i) n vi vs h1 h2 h3
    exact h4.trans (at_ _ _ _)
  cases hp : s.pc i with
  | idle => exact absurd hp h0
  | done v => exact absurd hp (hd v)
  | up n => rw [hp] at hloc; exact ⟨n, hloc.1, by rw [to_self s i hp]⟩
  | at_ n vi vs => exact ⟨_, hb, by have := at_ n vi vs; rwa [to_self s i hp] at this⟩
  | pick n vi vs c =>
    refine ⟨_, hb, ?_⟩
    have : Solos i (s.to i (.pick n vi vs c)) (s.to i (.up (s.base i))) :=
      Solos.one (Step.retry (s := s.to i _) i n vi vs _ (Or.inl (pc_to _ _ _))) .refl
    rwa [to_self s i hp] at this
  | picked n vi vs c ci cs =>
    refine ⟨_, hb, ?_⟩
    have : Solos i (s.to i (.picked n vi vs c ci cs)) (s.to i (.up (s.base i))) :=
      Solos.one (Step.compare (s := s.to i _) i n vi vs c ci cs (pc_to _ _ _) (h.clean n)) (cmp _ _ _)
    rwa [to_self s i hp] at this
  | cmp n vi vs => exact ⟨_, hb, by have := cmp n vi vs; rwa [to_self s i hp] at this⟩
  | adv n vi vs =>
    rw [hp] at hloc
    exact ⟨_, hb, by have := adv n vi vs hloc.1 hloc.2.2.2.2 hloc.2.1; rwa [to_self s i hp] at this⟩
  | go n =>
    rw [hp] at hloc
    refine ⟨_, hb, ?_⟩
    have : Solos i (s.to i (.go n)) (s.to i (.up (s.base i))) :=
      Solos.one (Step.arrive (s := s.to i _) i n (pc_to _ _ _) (h.clean n)) (adv _ _ _ hloc.1 hloc.2.2 hloc.2.1)
    rwa [to_self s i hp] at this
  | read n vi vs r => exact ⟨_, hb, by have := read n vi vs r; rwa [to_self s i hp] at this⟩
  | hold n => exact absurd (by rw [hp]; rfl) (hown n)
  | pub n => exact absurd (by rw [hp]; rfl) (hown n)
  | par n c x t => exact absurd (by rw [hp]; exact Or.inl rfl) (hown n)
  | got p n c x t => exact absurd (by rw [hp]; exact Or.inl rfl) (hown p)
  | mrk p n c x t => exact absurd (by rw [hp]; exact Or.inl rfl) (hown p)
  | mod p n c x t => exact absurd (by rw [hp]; exact Or.inl rfl) (hown p)
  | fin p nx n c x t => exact absurd (by rw [hp]; exact Or.inr (Or.inr (Or.inl rfl))) (hown n)
  | cut p nx n c x => exact absurd (by rw [hp]; exact Or.inr (Or.inr (Or.inl rfl))) (hown n)
  | rel p nx q t => exact absurd (by rw [hp]; exact Or.inr (Or.inr (Or.inl rfl))) (hown q)
  | unl p t => exact absurd (by rw [hp]; exact Or.inl rfl) (hown p)

theorem Reachable.quiet {s : State G} (h : Reachable s) (hf : ∀ n, s.lock n = none) : Quiet s :=
  ⟨reachable_inv h, reachable_prog h, reachable_tall h, reachable_chain h, hf⟩

end Verif.Blink
