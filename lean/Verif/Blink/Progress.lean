import Mathlib.Data.List.InsertIdx
import Verif.Blink.Steps

/-!
# The root can be found, and the tree has levels
-/
namespace Verif.Blink

variable {G : Type}

/-- A node whose split its parent does not know of, or the node split off it. -/
def PC.Pend : PC G → Nat → Nat → Prop
  | .par n c _ _, a, b => a = n ∧ b = c
  | .got _ n c _ _, a, b => a = n ∧ b = c
  | .mrk _ n c _ _, a, b => a = n ∧ b = c
  | .mod _ n c _ _, a, b => a = n ∧ b = c
  | .fin p nx _ _ _ _, a, b => p = some a ∧ nx.map Prod.fst = some b
  | .cut p nx _ _ _, a, b => p = some a ∧ nx.map Prod.fst = some b
  | .rel p nx _ _, a, b => p = some a ∧ nx.map Prod.fst = some b
  | _, _, _ => False

theorem Pend.owns {x : PC G} {a b : Nat} (h : x.Pend a b) : x.Owns a ∧ x.Owns b ∧ x.Loose b := by
  cases x <;> grind [PC.Pend, PC.Owns, PC.Loose]

structure Prog (s : State G) : Prop where
  rooted : ∀ n, n < s.fresh → s.parent n = none → s.rt n = true ∨ ∃ i a, (s.pc i).Pend a n
  lin : ∀ n, n < s.fresh → s.parent n = none → s.dS n = true → ∃ i a, (s.pc i).Pend a n ∨ (s.pc i).Pend n a
  fin : ∀ i p nx n c x t, s.pc i = .fin p nx n c x t → s.parent n ≠ none

theorem init_prog {s : State G} (h : Init s) : Prog s := by
  obtain ⟨h1, h2, h3, h4, h5, h6, h7, h8, h9, h10, h11, h12, h13⟩ := h
  have hz : ∀ n, n < s.fresh → n = 0 := by omega
  refine ⟨fun n hn _ => ?_, fun n _ _ hs => ?_, fun i p nx n c x t hi => ?_⟩
  · obtain rfl := hz n hn; exact Or.inl h6
  · rw [(h5 n).2] at hs; cases hs
  · rw [h13] at hi; cases hi

/-- A thread goes on, and has no pair before or after. -/
theorem prog_move {s s' : State G} (h : Prog s) {i : Nat} {x : PC G} (hpc : s'.pc = Function.update s.pc i x)
    (hx : ∀ a b, x.Pend a b ↔ (s.pc i).Pend a b) (hf : s'.fresh = s.fresh) (hr : s'.rt = s.rt) (hp : s'.parent = s.parent)
    (hd : ∀ n, s'.dS n = true → s.dS n = true ∨ s.parent n ≠ none)
    (hfin : ∀ p nx n c y t, x = .fin p nx n c y t → s.parent n ≠ none) : Prog s' := by
  have hpend : ∀ j a b, (s'.pc j).Pend a b ↔ (s.pc j).Pend a b := by
    intro j a b
    rw [hpc]
    by_cases hj : j = i
    · subst hj; rw [Function.update_self]; exact hx a b
    · rw [Function.update_of_ne hj]
  refine ⟨fun n hn hq => ?_, fun n hn hq hs => ?_, fun j p nx n c y t hj => ?_⟩
  · rw [hf] at hn; rw [hp] at hq; rw [hr]
    simp only [hpend]
    exact h.rooted n hn hq
  · rw [hf] at hn; rw [hp] at hq
    simp only [hpend]
    rcases hd n hs with h1 | h1
    · exact h.lin n hn hq h1
    · exact absurd hq h1
  · rw [hp]
    rw [hpc] at hj
    by_cases hji : j = i
    · subst hji; rw [Function.update_self] at hj; exact hfin _ _ _ _ _ _ hj
    · rw [Function.update_of_ne hji] at hj; exact h.fin _ _ _ _ _ _ _ hj

/-- A node outside the pairs is unlocked. -/
theorem prog_unlock {s s' : State G} (h : Prog s) {i q : Nat} {x : PC G} (hi : Inv s) (ho : (s.pc i).Owns q)
    (hq : ∀ a b, (s.pc i).Pend a b → a ≠ q ∧ b ≠ q) (hpc : s'.pc = Function.update s.pc i x)
    (hx : ∀ a b, x.Pend a b ↔ (s.pc i).Pend a b) (hf : s'.fresh = s.fresh)
    (hr : s'.rt = Function.update s.rt q (s.rt q && !s.dS q)) (hp : s'.parent = s.parent)
    (hd : s'.dS = Function.update s.dS q false) (hfin : ∀ p nx n c y t, x ≠ .fin p nx n c y t) : Prog s' := by
  have hpend : ∀ j a b, (s'.pc j).Pend a b ↔ (s.pc j).Pend a b := by
    intro j a b
    rw [hpc]
    by_cases hj : j = i
    · subst hj; rw [Function.update_self]; exact hx a b
    · rw [Function.update_of_ne hj]
  have hall : ∀ j a b, (s.pc j).Pend a b → a ≠ q ∧ b ≠ q := by
    intro j a b hj
    by_cases hji : j = i
    · subst hji; exact hq a b hj
    · have h1 := Pend.owns hj
      have h2 := hi.own i q ho
      have h3 := hi.own j a h1.1
      have h4 := hi.own j b h1.2.1
      grind
  clear hq
  refine ⟨fun n hn hq => ?_, fun n hn hq hs => ?_, fun j p nx n c y t hj => ?_⟩
  · rw [hf] at hn; rw [hp] at hq
    simp only [hpend]
    rcases h.rooted n hn hq with h1 | h1
    · by_cases hnq : n = q
      · subst hnq
        rw [hr, Function.update_self]
        cases hds : s.dS n with
        | false => simp [h1]
        | true =>
          obtain ⟨j, a, h2⟩ := h.lin n hn hq hds
          rcases h2 with h2 | h2
          · exact absurd rfl (hall j _ _ h2).2
          · exact absurd rfl (hall j _ _ h2).1
      · rw [hr, Function.update_of_ne hnq]; exact Or.inl h1
    · exact Or.inr h1
  · rw [hf] at hn; rw [hp] at hq
    simp only [hpend]
    rw [hd] at hs
    by_cases hnq : n = q
    · subst hnq; simp at hs
    · rw [Function.update_of_ne hnq] at hs; exact h.lin n hn hq hs
  · rw [hp]
    rw [hpc] at hj
    by_cases hji : j = i
    · subst hji; rw [Function.update_self] at hj; exact absurd hj (hfin _ _ _ _ _ _)
    · rw [Function.update_of_ne hji] at hj; exact h.fin _ _ _ _ _ _ _ hj

/-- The pair of a thread changes. -/
theorem prog_heavy {s s' : State G} (h : Prog s) {i : Nat} {x : PC G} (hi : Inv s) (hpc : s'.pc = Function.update s.pc i x)
    (hm : ∀ n, n < s.fresh → s.parent n ≠ none → s'.parent n ≠ none)
    (hfin : ∀ p nx n c y t, x = .fin p nx n c y t → s'.parent n ≠ none)
    (hn : ∀ n, n < s'.fresh → s'.parent n = none → (∃ a, x.Pend a n) ∨ (s'.rt n = true ∧ s'.dS n = false) ∨
      (n < s.fresh ∧ s.parent n = none ∧ s'.rt n = s.rt n ∧ (s'.dS n = true → s.dS n = true ∨ ∃ a, x.Pend n a) ∧
        (∀ a, ¬ (s.pc i).Pend a n) ∧ ∀ a, (s.pc i).Pend n a → ∃ b, x.Pend n b)) : Prog s' := by
  have hne : ∀ j, j ≠ i → s'.pc j = s.pc j := fun j hj => by rw [hpc, Function.update_of_ne hj]
  have hx : s'.pc i = x := by rw [hpc, Function.update_self]
  refine ⟨fun n hf hq => ?_, fun n hf hq hs => ?_, fun j p nx n c y t hj => ?_⟩
  · rcases hn n hf hq with ⟨a, h1⟩ | h1 | ⟨h1, h2, h3, h4, h5, h6⟩
    · exact Or.inr ⟨i, a, by rw [hx]; exact h1⟩
    · exact Or.inl h1.1
    · rw [h3]
      rcases h.rooted n h1 h2 with h7 | ⟨j, a, h7⟩
      · exact Or.inl h7
      · by_cases hj : j = i
        · subst hj; exact absurd h7 (h5 a)
        · exact Or.inr ⟨j, a, by rw [hne j hj]; exact h7⟩
  · rcases hn n hf hq with ⟨a, h1⟩ | h1 | ⟨h1, h2, h3, h4, h5, h6⟩
    · exact ⟨i, a, Or.inl (by rw [hx]; exact h1)⟩
    · rw [h1.2] at hs; cases hs
    · rcases h4 hs with h7 | ⟨a, h7⟩
      · obtain ⟨j, a, h8⟩ := h.lin n h1 h2 h7
        by_cases hj : j = i
        · subst hj
          rcases h8 with h8 | h8
          · exact absurd h8 (h5 a)
          · obtain ⟨b, h9⟩ := h6 a h8
            exact ⟨j, b, Or.inr (by rw [hx]; exact h9)⟩
        · exact ⟨j, a, by rw [hne j hj]; exact h8⟩
      · exact ⟨i, a, Or.inr (by rw [hx]; exact h7)⟩
  · by_cases hji : j = i
    · subst hji; rw [hx] at hj; exact hfin _ _ _ _ _ _ hj
    · rw [hne j hji] at hj
      have h1 := hi.loc j
      rw [hj] at h1
      exact hm n h1.1.1 (h.fin _ _ _ _ _ _ _ hj)

theorem loop_pend {p : Option Nat} {nx : Option (Nat × Nat)} {t q a b : Nat} :
    (PC.loop p nx t : PC G).Pend a b ↔ (PC.rel p nx q t : PC G).Pend a b := by
  unfold PC.loop
  split <;> grind [PC.Pend]

theorem step_prog {s s' : State G} (hi : Inv s) (h : Prog s) (hs : Step s s') : Prog s' := by
  cases hs with
  | start i k f hk hp =>
    exact prog_move h (i := i) rfl (by rw [hp]; simp [PC.Pend]) rfl rfl rfl (fun n => Or.inl) (by simp)
  | fixRoot p hp hr => exact ⟨h.rooted, h.lin, h.fin⟩
  | rooted i n hp | climb i n hp | pick i n vi vs c hp | child i n vi vs c hp | descend i n vi vs c ci cs hp
  | again i n vi vs c ci cs hp | compare i n vi vs c ci cs hp | inside i n vi vs z hp | look i n vi vs r hp
  | found i n vi vs r hp | stay i n vi vs r hp | compareLeaf i n vi vs r hp | insideLeaf i n vi vs z hp | walk i n vi vs hp
  | forward i n vi vs r hp | arrive i n hp | arrived i n vi vs hp | «return» i r hp | acquire i n vi vs r hp
  | publish i n f hp | lockParent i n c x p t hp | isParent i p n c x t hp | markParent i p n c x t hp =>
    exact prog_move h (i := i) rfl (by rw [hp]; simp [PC.Pend]) rfl rfl rfl (fun n => Or.inl) (by simp)
  | retry i n vi vs c hp =>
    exact prog_move h (i := i) rfl (by rcases hp with hp | hp <;> (rw [hp]; simp [PC.Pend])) rfl rfl rfl (fun n => Or.inl) (by simp)
  | markLeaf i n hp => exact ⟨h.rooted, h.lin, h.fin⟩
  | markSplit i n c x p nx hp =>
    refine prog_move h (i := i) rfl (by rw [hp]; simp [PC.Pend]) rfl rfl rfl (fun q hq => ?_) (by simp)
    by_cases hqn : q = n
    · subst hqn; exact Or.inr (h.fin _ _ _ _ _ _ _ hp)
    · exact Or.inl (by simpa [State.to, Function.update_of_ne hqn] using hq)
  | strip i n c x p nx hp =>
    exact prog_move h (i := i) rfl (by rw [hp]; split <;> simp [PC.Pend]) rfl rfl rfl (fun n => Or.inl) (by intro _ _ _ _ _ _ hz; split at hz <;> cases hz)
  | release i n hp =>
    exact prog_unlock h hi (i := i) (q := n) (by rw [hp]; simp [PC.Owns]) (by rw [hp]; simp [PC.Pend]) rfl (by rw [hp]; simp [PC.Pend]) rfl rfl rfl rfl (by simp)
  | notParent i p n c x t hp =>
    have := hi.loc i; rw [hp] at this
    exact prog_unlock h hi (i := i) (q := p) (by rw [hp]; simp [PC.Owns]) (by rw [hp]; grind [PC.Pend, State.Loc]) rfl (by rw [hp]; simp [PC.Pend]) rfl rfl rfl rfl (by simp)
  | unlockLeft i n c x t p nx hp =>
    have := hi.loc i; rw [hp] at this
    exact prog_unlock h hi (i := i) (q := n) (by rw [hp]; simp [PC.Owns]) (by rw [hp]; grind [PC.Pend, State.Loc]) rfl (by rw [hp]; simp [PC.Pend]) rfl rfl rfl rfl (by simp)
  | unlockRight i q t p nx hp =>
    have := hi.loc i; rw [hp] at this
    refine prog_unlock h hi (i := i) (q := q) (by rw [hp]; simp [PC.Owns]) (by rw [hp]; grind [PC.Pend, State.Loc]) rfl
      (by rw [hp]; exact fun a b => loop_pend) rfl rfl rfl rfl (fun p' nx' n c y t' => ?_)
    unfold PC.loop; split <;> simp
  | unlockParent i p t hp =>
    exact prog_unlock h hi (i := i) (q := p) (by rw [hp]; simp [PC.Owns]) (by rw [hp]; simp [PC.Pend]) rfl (by rw [hp]; simp [PC.Pend]) rfl rfl rfl rfl (by simp)
  | split i n x hp =>
    have h1 := hi.loc i; rw [hp] at h1
    refine prog_heavy h hi (i := i) rfl ?_ (by simp) ?_ <;> (try rw [hp]) <;> simp only [State.to, State.splitLeaf, PC.Pend] <;>
      grind [Function.update_apply]
  | newRoot i n c x t hp hq =>
    have h1 := hi.loc i; rw [hp] at h1
    simp only [State.Loc, State.Open, State.Pair] at h1
    refine prog_heavy h hi (i := i) rfl ?_ ?_ ?_ <;> (try rw [hp]) <;> simp only [State.to, State.newRoot, PC.Pend] <;>
      grind [Function.update_apply]
  | insertKid i p n c x t hp =>
    have h1 := hi.loc i; rw [hp] at h1
    simp only [State.Loc, State.Open, State.Pair] at h1
    refine prog_heavy h hi (i := i) rfl ?_ ?_ ?_ <;> (try rw [hp]) <;> simp only [State.to, State.insertKid, PC.Pend] <;>
      grind [Function.update_apply]
  | splitKid i p n c x mid y t hp hy =>
    have h1 := hi.loc i; rw [hp] at h1
    simp only [State.Loc, State.Open, State.Pair, State.Above] at h1
    refine prog_heavy h hi (i := i) rfl ?_ ?_ ?_ <;> (try rw [hp]) <;> simp only [State.to, State.splitKid, PC.Pend] <;>
      grind [Function.update_apply]

theorem reachable_prog {s : State G} (h : Reachable s) : Prog s := by
  induction h with
  | init h => exact init_prog h
  | step hr hs ih => exact step_prog (reachable_inv hr) ih hs

/-- Every node is one level below its parent, and the leaves are at the bottom. -/
structure Tall (s : State G) (l : Nat → Nat) : Prop where
  up : ∀ n p, n < s.fresh → s.parent n = some p → l p = l n + 1
  leaf : ∀ n, n < s.fresh → s.leaf n = true → l n = 0
  pend : ∀ i a b, (s.pc i).Pend a b → l a = l b

theorem tall_move {s s' : State G} {l : Nat → Nat} (h : Tall s l) {i : Nat} {x : PC G} (hpc : s'.pc = Function.update s.pc i x)
    (hx : ∀ a b, x.Pend a b ↔ (s.pc i).Pend a b) (hf : s'.fresh = s.fresh) (hl : s'.leaf = s.leaf)
    (hp : s'.parent = s.parent) : Tall s' l := by
  refine ⟨fun n p => by rw [hf, hp]; exact h.up n p, fun n => by rw [hf, hl]; exact h.leaf n, fun j a b hj => ?_⟩
  rw [hpc] at hj
  by_cases hji : j = i
  · subst hji; rw [Function.update_self, hx] at hj; exact h.pend j a b hj
  · rw [Function.update_of_ne hji] at hj; exact h.pend j a b hj

/-- A new node at level `m`. -/
theorem tall_heavy {s s' : State G} {l : Nat → Nat} (h : Tall s l) (hi : Inv s) {i m : Nat} {x : PC G}
    (hpc : s'.pc = Function.update s.pc i x) (hf : s'.fresh = s.fresh + 1)
    (hl : ∀ n, n < s.fresh → s'.leaf n = s.leaf n) (hl' : s'.leaf s.fresh = true → m = 0)
    (hp : ∀ n p, n < s.fresh → s'.parent n = some p → (p < s.fresh ∧ l p = l n + 1) ∨ (p = s.fresh ∧ m = l n + 1))
    (hp' : s'.parent s.fresh = none)
    (hx : ∀ a b, x.Pend a b → (a < s.fresh ∧ b = s.fresh ∧ l a = m)) :
    Tall s' (Function.update l s.fresh m) := by
  have hlt : ∀ j a, (s.pc j).Owns a → a ≠ s.fresh := by
    intro j a h1 h2
    have := hi.own j a h1
    rw [hi.alloc a (by omega)] at this
    cases this
  refine ⟨fun n p hn hnp => ?_, fun n hn hln => ?_, fun j a b hj => ?_⟩
  · rw [hf] at hn
    by_cases hnf : n = s.fresh
    · subst hnf; rw [hp'] at hnp; cases hnp
    · rw [Function.update_of_ne hnf]
      rcases hp n p (by omega) hnp with ⟨h1, h2⟩ | ⟨h1, h2⟩
      · rw [Function.update_of_ne (by omega)]; exact h2
      · subst h1; rw [Function.update_self]; exact h2
  · rw [hf] at hn
    by_cases hnf : n = s.fresh
    · subst hnf; rw [Function.update_self]; exact hl' hln
    · rw [Function.update_of_ne hnf]; rw [hl n (by omega)] at hln; exact h.leaf n (by omega) hln
  · rw [hpc] at hj
    by_cases hji : j = i
    · subst hji; rw [Function.update_self] at hj
      obtain ⟨h1, rfl, h2⟩ := hx a b hj
      rw [Function.update_self, Function.update_of_ne (by omega)]; exact h2
    · rw [Function.update_of_ne hji] at hj
      have h1 := Pend.owns hj
      rw [Function.update_of_ne (hlt j a h1.1), Function.update_of_ne (hlt j b h1.2.1)]
      exact h.pend j a b hj

theorem step_tall {s s' : State G} {l : Nat → Nat} (hi : Inv s) (h : Tall s l) (hs : Step s s') : ∃ l', Tall s' l' := by
  cases hs with
  | start i k f hk hp => exact ⟨l, tall_move h (i := i) rfl (by rw [hp]; simp [PC.Pend]) rfl rfl rfl⟩
  | fixRoot p hp hr => exact ⟨l, h.up, h.leaf, h.pend⟩
  | markLeaf i n hp => exact ⟨l, h.up, h.leaf, h.pend⟩
  | rooted i n hp | climb i n hp | pick i n vi vs c hp | child i n vi vs c hp | descend i n vi vs c ci cs hp
  | again i n vi vs c ci cs hp | compare i n vi vs c ci cs hp | inside i n vi vs z hp | look i n vi vs r hp
  | found i n vi vs r hp | stay i n vi vs r hp | compareLeaf i n vi vs r hp | insideLeaf i n vi vs z hp | walk i n vi vs hp
  | forward i n vi vs r hp | arrive i n hp | arrived i n vi vs hp | «return» i r hp | acquire i n vi vs r hp
  | publish i n f hp | lockParent i n c x p t hp | isParent i p n c x t hp | markParent i p n c x t hp
  | markSplit i n c x p nx hp | release i n hp | notParent i p n c x t hp | unlockLeft i n c x t p nx hp
  | unlockParent i p t hp =>
    exact ⟨l, tall_move h (i := i) rfl (by rw [hp]; simp [PC.Pend]) rfl rfl rfl⟩
  | retry i n vi vs c hp =>
    exact ⟨l, tall_move h (i := i) rfl (by rcases hp with hp | hp <;> (rw [hp]; simp [PC.Pend])) rfl rfl rfl⟩
  | strip i n c x p nx hp =>
    exact ⟨l, tall_move h (i := i) rfl (by rw [hp]; split <;> simp [PC.Pend]) rfl rfl rfl⟩
  | unlockRight i q t p nx hp =>
    exact ⟨l, tall_move h (i := i) rfl (by rw [hp]; exact fun a b => loop_pend) rfl rfl rfl⟩
  | split i n x hp =>
    have h1 := hi.loc i; rw [hp] at h1
    simp only [State.Loc, State.Target] at h1
    have h2 := h.leaf n h1.1 h1.2.1
    have h3 := h.up; have h4 := hi.parent
    refine ⟨_, tall_heavy h hi (i := i) (m := 0) rfl rfl ?_ ?_ ?_ ?_ ?_⟩ <;>
      simp only [State.to, State.splitLeaf, PC.Pend] <;> grind [Function.update_apply]
  | newRoot i n c x t hp hq =>
    have h1 := hi.loc i; rw [hp] at h1
    simp only [State.Loc, State.Open, State.Pair] at h1
    have h2 := h.pend i n c (by rw [hp]; exact ⟨rfl, rfl⟩)
    have h3 := h.up; have h4 := hi.parent
    refine ⟨_, tall_heavy h hi (i := i) (m := l n + 1) rfl rfl ?_ ?_ ?_ ?_ ?_⟩ <;>
      simp only [State.to, State.newRoot, PC.Pend] <;> grind [Function.update_apply]
  | insertKid i p n c x t hp =>
    have h1 := hi.loc i; rw [hp] at h1
    simp only [State.Loc, State.Open, State.Pair] at h1
    have h2 := h.pend i n c (by rw [hp]; exact ⟨rfl, rfl⟩)
    have h5 := h.up n p h1.1.1.1 h1.2.2.2.2.2.2.2.2.1
    refine ⟨l, fun a q ha hq => ?_, h.leaf, fun j a b hj => ?_⟩
    · change Function.update s.parent c (some p) a = some q at hq
      by_cases hac : a = c
      · subst hac; rw [Function.update_self] at hq; cases hq; omega
      · rw [Function.update_of_ne hac] at hq; exact h.up a q ha hq
    · change (Function.update s.pc i _ j).Pend a b at hj
      by_cases hji : j = i
      · subst hji; rw [Function.update_self] at hj; simp [PC.Pend] at hj
      · rw [Function.update_of_ne hji] at hj; exact h.pend j a b hj
  | splitKid i p n c x mid y t hp hy =>
    have h1 := hi.loc i; rw [hp] at h1
    simp only [State.Loc, State.Open, State.Pair, State.Above] at h1
    have h2 := h.pend i n c (by rw [hp]; exact ⟨rfl, rfl⟩)
    have h5 := h.up n p h1.1.1.1 h1.2.2.2.2.2.2.2.2.1
    have h3 := h.up; have h4 := hi.parent
    have h6 : ∀ q, q ∈ (s.kidsWith p c x).drop (mid + 1) → q < s.fresh ∧ l p = l q + 1 := by
      intro q hq
      have hq := List.mem_of_mem_drop hq
      unfold State.kidsWith at hq
      rcases List.eq_or_mem_of_mem_insertIdx hq with rfl | hq
      · exact ⟨h1.1.1.2.1, by omega⟩
      · have h7 := hi.kid p q h1.2.2.2.2.1.1 h1.2.2.2.2.1.2.1 hq
        exact ⟨h7.1, h.up q p h7.1 h7.2⟩
    refine ⟨_, tall_heavy h hi (i := i) (m := l p) rfl rfl ?_ ?_ ?_ ?_ ?_⟩ <;>
      simp only [State.to, State.splitKid, PC.Pend] <;> grind [Function.update_apply]

theorem reachable_tall {s : State G} (h : Reachable s) : ∃ l, Tall s l := by
  induction h with
  | init h =>
    refine ⟨fun _ => 0, fun n p hn hp => ?_, fun _ _ _ => rfl, fun _ _ _ _ => rfl⟩
    rw [h.fresh] at hn
    obtain rfl : n = 0 := by omega
    rw [h.parent] at hp; cases hp
  | step hr hs ih => obtain ⟨l, hl⟩ := ih; exact step_tall (reachable_inv hr) hl hs

end Verif.Blink
