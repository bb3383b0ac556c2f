import Verif.Prune.NeatTidy

/-!
# Steps that leave the tree as it is
-/
namespace Verif.Prune

variable {G : Type} {up : List Nat → Nat → Nat}

/-- The same tree. -/
structure Still (s s' : State G) : Prop where
  fresh : s'.fresh = s.fresh
  leaf : s'.leaf = s.leaf
  dead : s'.dead = s.dead
  parent : s'.parent = s.parent
  keys : s'.keys = s.keys
  kids : s'.kids = s.kids
  elo : s'.elo = s.elo
  bd : s'.bd = s.bd

theorem State.Goods.same {s s' : State G} (he : Still s s') {m k : Nat} (h : s.Goods m k) : s'.Goods m k := by
  unfold State.Goods State.Good at *
  rw [he.parent, he.keys, he.kids, he.bd]
  exact h

theorem State.Tree.same {s s' : State G} {x x' : PC G} (he : Still s s') (hc : ∀ m, s.Cur x = some m → s'.Cur x' = some m)
    (hm : x'.Mid = x.Mid) (hr : x'.Repl = x.Repl) (h : s.Tree x) : s'.Tree x' := by
  constructor
  · rw [he.fresh, he.parent, he.dead, he.kids, hm, hr]; exact h.sub
  · rw [he.fresh, he.leaf, he.dead, he.kids, hm]; exact h.alive
  · rw [he.fresh, he.parent, he.dead, he.elo, he.bd]
    intro n p h1 h2 h3
    rcases h.gap n p h1 h2 h3 with h4 | ⟨m, h4, h5⟩
    · exact Or.inl h4
    · exact Or.inr ⟨m, hc m h4, h5⟩
  · rw [he.fresh, he.leaf, he.keys, he.kids, he.parent, he.elo]
    intro p j z q h1 h2 h3 h4
    rcases h.exact p j z q h1 h2 h3 h4 with h5 | ⟨m, h5, h6⟩
    · exact Or.inl h5
    · exact Or.inr ⟨m, hc m h5, h6⟩

theorem State.Cur.same {s s' : State G} (he : Still s s') (x : PC G) : s'.Cur x = s.Cur x := by
  cases x <;> simp only [State.Cur, he.kids]

theorem State.Task.same {s s' : State G} (he : Still s s') (hd : s'.dS = s.dS) {x : PC G} (h : s.Task x) : s'.Task x := by
  cases x <;> first
    | trivial
    | (simp only [State.Task, he.dead, he.parent, he.elo, hd] at h ⊢
       first
         | exact ⟨h.1.same he, h.2⟩
         | exact ⟨h.1.same he, h.2.1.same he, h.2.2⟩)

theorem State.New.same {s s' : State G} (he : Still s s') {n c x : Nat} (h : s.New n c x)
    (hr : s.leaf c = false → s.rt c = false → s'.rt c = false) : s'.New n c x := by
  obtain ⟨h1, h2, h3, h4, h5⟩ := h
  unfold State.New
  rw [he.elo, he.dead, he.leaf]
  exact ⟨h1, h2, h3, h4, fun hl => hr hl (h5 hl)⟩

/-- A step of a thread that removes nothing. -/
theorem neat_quiet {s s' : State G} {j : Nat} (hn : Neat s) (he : Still s s') (hrt : s.Root → s'.Root)
    (hr : ∀ c, s.rt c = false → s'.rt c = false) (ho : ∀ k, k ≠ j → s'.pc k = s.pc k)
    (h1 : ¬ (s.pc j).Removing) (h2 : ¬ (s'.pc j).Removing) (h3 : ∀ n c x, (s'.pc j).Pending n c x → (s.pc j).Pending n c x)
    (hd : ∀ k, (s.pc k).Removing → s'.dS = s.dS) : Neat s' := by
  have hp : ∀ k n c x, (s'.pc k).Pending n c x → (s.pc k).Pending n c x := by
    intro k n c x hx
    by_cases hk : k = j
    · subst hk; exact h3 n c x hx
    · rw [ho k hk] at hx; exact hx
  have hrem : ∀ k, (s.pc k).Removing ↔ (s'.pc k).Removing := by
    intro k
    by_cases hk : k = j
    · subst hk; exact ⟨fun h => absurd h h1, fun h => absurd h h2⟩
    · rw [ho k hk]
  refine ⟨?_, fun i n c x hx => (hn.new i n c x (hp i n c x hx)).same he fun _ => hr c, hrt hn.root, fun h => ?_, fun i hi => ?_⟩
  · obtain ⟨rk, hk⟩ := hn.rank
    refine ⟨rk, ?_, fun i n c x hx => hk.2 i n c x (hp i n c x hx)⟩
    rw [he.fresh, he.parent]; exact hk.1
  · exact (hn.tree fun i hi => h i ((hrem i).1 hi)).same he (fun m hm => by cases hm) rfl rfl
  · have hij : i ≠ j := by rintro rfl; exact h2 hi
    have hi' := (hrem i).2 hi
    obtain ⟨h4, h5⟩ := hn.task i hi'
    rw [ho i hij]
    exact ⟨h4.same he (fun m hm => by rw [State.Cur.same he]; exact hm) rfl rfl, h5.same he (hd i hi')⟩

/-- A step of the thread that removes a leaf. -/
theorem neat_task {s s' : State G} {i : Nat} (h : Inv s) (hl : Lone s) (hn : Neat s) (hf : s'.fresh = s.fresh)
    (hp : ∃ rk : Nat → Nat, ∀ n p, n < s'.fresh → s'.parent n = some p → rk n < rk p) (hrt : s'.Root)
    (ho : ∀ k, k ≠ i → s'.pc k = s.pc k) (h1 : (s.pc i).Removing) (h2 : (s'.pc i).Removing ∨ s'.pc i = .idle)
    (ht : s'.Tree (s'.pc i) ∧ s'.Task (s'.pc i)) : Neat s' := by
  have hpend : ∀ k n c x, ¬ (s'.pc k).Pending n c x := by
    intro k n c x hx
    by_cases hk : k = i
    · subst hk
      rcases h2 with h2 | h2
      · exact Removing.pending h2 hx
      · rw [h2] at hx; exact hx
    · rw [ho k hk] at hx
      exact hk (hl.other h h1 (Pending.owns hx))
  have hrem : ∀ k, k ≠ i → ¬ (s'.pc k).Removing := by
    intro k hk hx
    rw [ho k hk] at hx
    obtain ⟨n, hx⟩ := Removing.owns hx
    exact hk (hl.other h h1 hx)
  refine ⟨?_, fun k n c x hx => absurd hx (hpend k n c x), hrt, fun hx => ?_, fun k hk => ?_⟩
  · obtain ⟨rk, hk⟩ := hp
    exact ⟨rk, hk, fun k n c x hx => absurd hx (hpend k n c x)⟩
  · rcases h2 with h2 | h2
    · exact absurd h2 (hx i)
    · rw [h2] at ht; exact ht.1
  · by_cases hki : k = i
    · subst hki; exact ht
    · exact absurd hk (hrem k hki)

/-- A step that leaves the root bits and marks. -/
theorem root_id {s s' : State G} (he : Still s s') (h1 : s'.rt = s.rt) (h2 : ∀ n, s.dS n = true → s'.dS n = true) :
    s.Root → s'.Root := by
  intro h p
  rw [he.fresh, he.leaf, h1, he.parent]
  intro h3 h4 h5
  exact (h p h3 h4 h5).imp id (h2 p)

theorem root_unlock {s : State G} (n : Nat) : s.Root → (s.unlock n).Root := by
  intro h p h1 h2 h3
  by_cases hp : p = n
  · subst hp
    simp only [State.unlock, Function.update_self, Bool.and_eq_true, Bool.not_eq_true'] at h3
    rcases h p h1 h2 h3.1 with h4 | h4
    · exact Or.inl h4
    · rw [h3.2] at h4; cases h4
  · simp only [State.unlock, Function.update_of_ne hp] at h3 ⊢
    exact h p h1 h2 h3

theorem rt_unlock {s : State G} (n : Nat) : ∀ c, s.rt c = false → (s.unlock n).rt c = false := by
  intro c hc
  by_cases hp : c = n
  · subst hp; simp [State.unlock, hc]
  · simp only [State.unlock, Function.update_of_ne hp]; exact hc

end Verif.Prune
