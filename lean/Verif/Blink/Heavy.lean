import Verif.Blink.Writes

/-!
# Steps that change the tree
-/
namespace Verif.Blink

variable {G : Type}

/-- What remains to be shown of a step of a thread that keeps `Mono` and `Frame`. -/
theorem inv_heavy {s s' : State G} (h : Inv s) {i : Nat} {x : PC G} (hm : Mono s s') (hf : Frame i s s') (hpi : s'.pc i = x)
    (hne : s.pc i ≠ .idle) (hkey : s'.key i = s.key i) (hbase : s'.base i = s.base i) (hroot : s'.root = s.root)
    (hloc : s'.Loc (s.key i) x)
    (ho : ∀ n, s'.lock n = some i ↔ x.Owns n) (hl : ∀ n j, j ≠ i → (s'.lock n = some j ↔ s.lock n = some j))
    (dirty : ∀ n, s'.lock n = none → s'.dI n = false ∧ s'.dS n = false)
    (alloc : ∀ n, s'.fresh ≤ n → s'.lock n = none)
    (rng : ∀ n, n < s'.fresh → s'.lo n < s'.phi n ∧ s'.phi n ≤ s'.hi n ∧ s'.hi n ≤ top ∧ s'.lo n < s'.chi n ∧ s'.chi n ≤ s'.hi n)
    (leafChi : ∀ n, n < s'.fresh → s'.leaf n = true → s'.chi n = s'.hi n)
    (chi : ∀ n, n < s'.fresh → s'.dS n = false → s'.chi n = s'.hi n)
    (phi : ∀ n, n < s'.fresh → s'.phi n = s'.hi n ∨ x.Half n ∨
      (n < s.fresh ∧ s'.phi n = s.phi n ∧ s'.hi n = s.hi n ∧ ¬ (s.pc i).Half n))
    (att : ∀ n, n < s'.fresh → s'.parent n = none → (s'.lo n = 0 ∧ s'.phi n = top) ∨ x.Loose n ∨
      (n < s.fresh ∧ s.parent n = none ∧ s'.phi n = s.phi n ∧ ¬ (s.pc i).Loose n))
    (parent : ∀ n p, n < s'.fresh → s'.parent n = some p → p < s'.fresh ∧ s'.leaf p = false)
    (slot : ∀ n p, n < s'.fresh → s'.parent n = some p → ∀ k, s'.lo n ≤ k → k < s'.phi n →
      s'.lo p ≤ k ∧ k < s'.chi p ∧ routeOf (s'.keys p) (s'.kids p) k = n)
    (good : ∀ p, p < s'.fresh → s'.leaf p = false → Good (s'.lo p) (s'.chi p) (s'.keys p) (s'.kids p))
    (kid : ∀ p q, p < s'.fresh → s'.leaf p = false → q ∈ s'.kids p → q < s'.fresh ∧ s'.parent q = some p)
    (kidRng : ∀ p k, p < s'.fresh → s'.leaf p = false → s'.lo p ≤ k → k < s'.chi p →
      s'.lo (routeOf (s'.keys p) (s'.kids p) k) ≤ k ∧ k < s'.phi (routeOf (s'.keys p) (s'.kids p) k))
    (rt : ∀ n, n < s'.fresh → s'.rt n = true → s'.lo n = 0 → s'.dS n = false → s'.hi n = top)
    (val : ∀ n k, n < s'.fresh → s'.leaf n = true → s'.lo n ≤ k → k < s'.hi n → s'.items n k = s'.m k)
    (dom : ∀ n k, n < s'.fresh → s'.leaf n = true → s'.items n k ≠ none → s'.lo n ≤ k ∧ k < s'.hi n)
    (disj : ∀ a b k, a < s'.fresh → b < s'.fresh → a ≠ b → s'.leaf a = true → s'.leaf b = true → s'.lo a ≤ k → k < s'.hi a →
      s'.lo b ≤ k → k < s'.hi b → (x.Pre ∧ x.Owns a ∧ x.Owns b) ∨ (a < s.fresh ∧ b < s.fresh ∧ k < s.hi a ∧ k < s.hi b ∧
        ¬ ((s.pc i).Pre ∧ (s.pc i).Owns a ∧ (s.pc i).Owns b)))
    (last : ∀ n, n < s'.fresh → s'.leaf n = true → s'.next n = none → s'.hi n = top)
    (next : ∀ n r, n < s'.fresh → s'.leaf n = true → s'.next n = some r →
      r < s'.fresh ∧ s'.leaf r = true ∧ s'.lo r ≤ s'.hi n) : Inv s' := by
  have hpj : ∀ j, j ≠ i → s'.pc j = s.pc j := hf.pc
  have hhi : ∀ n, x.Owns n → s'.holder n = x := fun n hn => by rw [holder_of ((ho n).mpr hn), hpi]
  have hhj : ∀ n j, j ≠ i → s.lock n = some j → s'.holder n = s.holder n := fun n j hj hn => by
    rw [holder_of ((hl n j hj).mpr hn), holder_of hn, hpj j hj]
  refine ⟨?_, ?_, dirty, alloc, rng, leafChi, chi, ?_, ?_, parent, slot, good, kid, kidRng, rt, ?_, ?_, ?_, val, dom, ?_,
    last, next, ?_⟩
  · intro j n hj
    by_cases hji : j = i
    · subst hji; rw [hpi] at hj; exact (ho n).mpr hj
    · rw [hpj j hji] at hj; exact (hl n j hji).mpr (h.own j n hj)
  · intro j n hj
    by_cases hji : j = i
    · subst hji; rw [hpi]; exact (ho n).mp hj
    · rw [hpj j hji]; exact h.lck j n ((hl n j hji).mp hj)
  · intro n hn
    rcases phi n hn with h1 | h1 | ⟨h1, h2, h3, h4⟩
    · exact Or.inl h1
    · rw [hhi n (Half.owns h1)]; exact Or.inr h1
    · rw [h2, h3]
      rcases h.phi n h1 with h5 | h5
      · exact Or.inl h5
      · cases hq : s.lock n with
        | none => unfold State.holder at h5; rw [hq] at h5; exact h5.elim
        | some j =>
          by_cases hji : j = i
          · subst hji; rw [holder_of hq] at h5; exact absurd h5 h4
          · rw [hhj n j hji hq]; exact Or.inr h5
  · intro n hn hp
    rcases att n hn hp with h1 | h1 | ⟨h1, h2, h3, h4⟩
    · exact Or.inl h1
    · rw [hhi n (Loose.owns h1)]; exact Or.inr h1
    · rw [hm.lo n h1, h3]
      rcases h.att n h1 h2 with h5 | h5
      · exact Or.inl h5
      · cases hq : s.lock n with
        | none => unfold State.holder at h5; rw [hq] at h5; exact h5.elim
        | some j =>
          by_cases hji : j = i
          · subst hji; rw [holder_of hq] at h5; exact absurd h5 h4
          · rw [hhj n j hji hq]; exact Or.inr h5
  · rw [hroot, hm.lo _ h.root.1]; exact ⟨Nat.lt_of_lt_of_le h.root.1 hm.fresh, h.root.2⟩
  · intro j hj
    have : s'.base j = s.base j ∧ s.pc j ≠ .idle := by
      by_cases hji : j = i
      · subst hji; exact ⟨hbase, hne⟩
      · rw [hpj j hji] at hj; exact ⟨hf.base j hji, hj⟩
    have hb := h.base j this.2
    rw [this.1, hm.lo _ hb.1]; exact ⟨Nat.lt_of_lt_of_le hb.1 hm.fresh, hb.2⟩
  · intro j hj
    have : s'.key j = s.key j ∧ s.pc j ≠ .idle := by
      by_cases hji : j = i
      · subst hji; exact ⟨hkey, hne⟩
      · rw [hpj j hji] at hj; exact ⟨hf.key j hji, hj⟩
    rw [this.1]; exact h.key j this.2
  · intro a b k h1 h2 h3 h4 h5 h6 h7 h8 h9
    rcases disj a b k h1 h2 h3 h4 h5 h6 h7 h8 h9 with ⟨g1, g2, g3⟩ | ⟨g1, g2, g3, g4, g5⟩
    · rw [hhi a g2, (ho a).mpr g2, (ho b).mpr g3]; exact ⟨by simp, rfl, g1⟩
    · rw [hm.leaf a g1] at h4
      rw [hm.leaf b g2] at h5
      rw [hm.lo a g1] at h6
      rw [hm.lo b g2] at h8
      obtain ⟨e1, e2, e3⟩ := h.disj a b k g1 g2 h3 h4 h5 h6 g3 h8 g4
      cases hq : s.lock a with
      | none => exact absurd hq e1
      | some j =>
        rw [hq] at e2
        by_cases hji : j = i
        · subst hji
          rw [holder_of hq] at e3
          exact absurd ⟨e3, h.lck j a hq, h.lck j b e2.symm⟩ g5
        · rw [hhj a j hji hq, (hl a j hji).mpr hq, (hl b j hji).mpr e2.symm]
          exact ⟨by simp, rfl, e3⟩
  · intro j
    by_cases hji : j = i
    · subst hji; rw [hpi, hkey]; exact hloc
    · exact Loc.other h hm hf hji

end Verif.Blink
