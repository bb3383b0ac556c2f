import Verif.Prune.Locks

/-!
# Steps that change the tree
-/
namespace Verif.Prune

variable {G : Type}

/-- What remains to be shown of a step of a thread that keeps `Mono` and `Frame`. -/
theorem inv_heavy {s s' : State G} (h : Inv s) {i : Nat} {u : Nat → Nat} {x : PC G} (hm : Mono s s') (hf : Frame i u s s')
    (hpi : s'.pc i = x)
    (hne : s.pc i ≠ .idle) (hkey : s'.key i = s.key i) (hbase : s'.base i = s.base i) (hroot : s'.root = s.root)
    (hloc : s'.Loc (s.key i) x)
    (ho : ∀ n, s'.lock n = some i ↔ x.Owns n) (hl : ∀ n j, j ≠ i → (s'.lock n = some j ↔ s.lock n = some j))
    (dirty : ∀ n, s'.lock n = none → s'.dI n = false ∧ s'.dS n = false)
    (alloc : ∀ n, s'.fresh ≤ n → s'.lock n = none)
    (rng : ∀ n, n < s'.fresh → s'.elo n ≤ s'.bd n ∧ s'.elo n ≤ s'.hi n ∧ s'.bd n ≤ top ∧ s'.hi n ≤ top)
    (live : ∀ n, n < s'.fresh → s'.leaf n = true → s'.gone n = false → s'.elo n = s'.lo n ∧ s'.lo n < s'.bd n ∧ s'.lo n < s'.hi n)
    (gone : ∀ n, n < s'.fresh → s'.gone n = true → s'.leaf n = true ∧ s'.dead n = true ∧ s'.elo n = s'.bd n)
    (skew : ∀ n, n < s'.fresh → s'.bd n = s'.hi n ∨ x.Skew n ∨
      (n < s.fresh ∧ s'.bd n = u (s.bd n) ∧ s'.hi n = u (s.hi n) ∧ ¬ (s.pc i).Skew n))
    (att : ∀ n, n < s'.fresh → s'.parent n = none → (s'.lo n = 0 ∧ s'.bd n = top) ∨ x.Loose n ∨
      (n < s.fresh ∧ s.parent n = none ∧ (s.bd n = top → s'.bd n = top) ∧ ¬ (s.pc i).Loose n))
    (parent : ∀ n p, n < s'.fresh → s'.parent n = some p → p < s'.fresh ∧ s'.leaf p = false ∧ (s'.lo n = 0 → s'.lo p = 0))
    (node : ∀ p, p < s'.fresh → s'.leaf p = false → s'.dead p = false →
      Node s'.lo s'.elo s'.bd (s'.lo p) (s'.elo p) (s'.hi p) (s'.keys p) (s'.kids p))
    (deadNode : ∀ p, p < s'.fresh → s'.leaf p = false → s'.dead p = true → s'.keys p = [] ∧ s'.kids p = [none])
    (keys : ∀ p z, p < s'.fresh → s'.leaf p = false → z ∈ s'.keys p → 0 < z ∧ z < s'.hi p)
    (sorted : ∀ p, p < s'.fresh → s'.leaf p = false → (s'.keys p).Pairwise (· < ·))
    (kid : ∀ p q, p < s'.fresh → s'.leaf p = false → some q ∈ s'.kids p → q < s'.fresh ∧ s'.parent q = some p)
    (nodup : ∀ p, p < s'.fresh → s'.leaf p = false → (s'.kids p).Nodup)
    (rt : ∀ n, n < s'.fresh → s'.rt n = true → s'.lo n = 0 → s'.dS n = false → s'.hi n = top)
    (val : ∀ n k, n < s'.fresh → s'.leaf n = true → s'.gone n = false → s'.lo n ≤ k → k < s'.hi n → s'.items n k = s'.m k)
    (dom : ∀ n k, n < s'.fresh → s'.leaf n = true → s'.gone n = false → s'.items n k ≠ none → s'.lo n ≤ k ∧ k < s'.hi n)
    (disj : ∀ a b k, a < s'.fresh → b < s'.fresh → a ≠ b → s'.leaf a = true → s'.leaf b = true → s'.gone a = false →
      s'.gone b = false → s'.lo a ≤ k → k < s'.hi a →
      s'.lo b ≤ k → k < s'.hi b → (x.Pre ∧ x.Owns a ∧ x.Owns b) ∨ (a < s.fresh ∧ b < s.fresh ∧
        s.gone a = false ∧ s.gone b = false ∧ (∃ k, s.lo a ≤ k ∧ k < s.hi a ∧ s.lo b ≤ k ∧ k < s.hi b) ∧
        ¬ ((s.pc i).Pre ∧ (s.pc i).Owns a ∧ (s.pc i).Owns b)))
    (last : ∀ n, n < s'.fresh → s'.leaf n = true → s'.gone n = false → s'.next n = none → s'.hi n = top)
    (next : ∀ n r, n < s'.fresh → s'.leaf n = true → s'.next n = some r →
      r < s'.fresh ∧ s'.leaf r = true ∧ (s'.gone n = false → s'.lo r ≤ s'.hi n)) : Inv s' := by
  have hpj : ∀ j, j ≠ i → s'.pc j = s.pc j := hf.pc
  have hhi : ∀ n, x.Owns n → s'.holder n = x := fun n hn => by rw [holder_of ((ho n).mpr hn), hpi]
  have hhj : ∀ n j, j ≠ i → s.lock n = some j → s'.holder n = s.holder n := fun n j hj hn => by
    rw [holder_of ((hl n j hj).mpr hn), holder_of hn, hpj j hj]
  refine ⟨?_, ?_, dirty, alloc, rng, live, gone, ?_, ?_, parent, node, deadNode, keys, sorted, kid, nodup, rt, ?_, ?_, ?_,
    val, dom, ?_, last, next, ?_⟩
  · intro j n hj
    by_cases hji : j = i
    · subst hji; rw [hpi] at hj; exact (ho n).mpr hj
    · rw [hpj j hji] at hj; exact (hl n j hji).mpr (h.own j n hj)
  · intro j n hj
    by_cases hji : j = i
    · subst hji; rw [hpi]; exact (ho n).mp hj
    · rw [hpj j hji]; exact h.lck j n ((hl n j hji).mp hj)
  · intro n hn
    rcases skew n hn with h1 | h1 | ⟨h1, h2, h3, h4⟩
    · exact Or.inl h1
    · rw [hhi n (Skew.owns h1)]; exact Or.inr h1
    · rw [h2, h3]
      rcases h.skew n h1 with h5 | h5
      · exact Or.inl (by rw [h5])
      · cases hq : s.lock n with
        | none => unfold State.holder at h5; rw [hq] at h5; exact h5.elim
        | some j =>
          by_cases hji : j = i
          · subst hji; rw [holder_of hq] at h5; exact absurd h5 h4
          · rw [hhj n j hji hq]; exact Or.inr h5
  · intro n hn hp
    rcases att n hn hp with h1 | h1 | ⟨h1, h2, h3, h4⟩
    · exact Or.inl h1
    · rw [hhi n (Loose.owns h1)]; exact Or.inr h1
    · rw [hm.lo n h1]
      rcases h.att n h1 h2 with h5 | h5
      · exact Or.inl ⟨h5.1, h3 h5.2⟩
      · cases hq : s.lock n with
        | none => unfold State.holder at h5; rw [hq] at h5; exact h5.elim
        | some j =>
          by_cases hji : j = i
          · subst hji; rw [holder_of hq] at h5; exact absurd h5 h4
          · rw [hhj n j hji hq]; exact Or.inr h5
  · rw [hroot, hm.lo _ h.root.1]; exact ⟨Nat.lt_of_lt_of_le h.root.1 hm.fresh, h.root.2⟩
  · intro j hj
    have : s'.base j = s.base j ∧ s.pc j ≠ .idle := by
      by_cases hji : j = i
      · subst hji; exact ⟨hbase, hne⟩
      · rw [hpj j hji] at hj; exact ⟨hf.base j hji, hj⟩
    have hb := h.base j this.2
    rw [this.1, hm.lo _ hb.1]; exact ⟨Nat.lt_of_lt_of_le hb.1 hm.fresh, hb.2⟩
  · intro j hj
    have : s'.key j = s.key j ∧ s.pc j ≠ .idle := by
      by_cases hji : j = i
      · subst hji; exact ⟨hkey, hne⟩
      · rw [hpj j hji] at hj; exact ⟨hf.key j hji, hj⟩
    rw [this.1]; exact h.key j this.2
  · intro a b k h1 h2 h3 h4 h5 h10 h11 h6 h7 h8 h9
    rcases disj a b k h1 h2 h3 h4 h5 h10 h11 h6 h7 h8 h9 with ⟨g1, g2, g3⟩ | ⟨g1, g2, g6, g7, ⟨k', g3, g4, g8, g9⟩, g5⟩
    · rw [hhi a g2, (ho a).mpr g2, (ho b).mpr g3]; exact ⟨by simp, rfl, g1⟩
    · rw [hm.leaf a g1] at h4
      rw [hm.leaf b g2] at h5
      obtain ⟨e1, e2, e3⟩ := h.disj a b k' g1 g2 h3 h4 h5 g6 g7 g3 g4 g8 g9
      cases hq : s.lock a with
      | none => exact absurd hq e1
      | some j =>
        rw [hq] at e2
        by_cases hji : j = i
        · subst hji
          rw [holder_of hq] at e3
          exact absurd ⟨e3, h.lck j a hq, h.lck j b e2.symm⟩ g5
        · rw [hhj a j hji hq, (hl a j hji).mpr hq, (hl b j hji).mpr e2.symm]
          exact ⟨by simp, rfl, e3⟩
  · intro j
    by_cases hji : j = i
    · subst hji; rw [hpi, hkey]; exact hloc
    · exact Loc.other h hm hf hji

/-- The tree is the same except for the contents of leaves. -/
theorem inv_publish {s : State G} (h : Inv s) (i n : Nat) (f : Option G → Option G) (hp : s.pc i = .hold n) :
    Inv (State.to
        { s with
          items := Function.update s.items n (Function.update (s.items n) (s.key i) (f (s.items n (s.key i))))
          m := Function.update s.m (s.key i) (f (s.m (s.key i))) } i (.pub n)) := by
  have hloc := h.loc i
  rw [hp] at hloc
  obtain ⟨t1, t2, t3, t4, t5, t6⟩ := hloc
  have hlk : s.lock n = some i := h.own i n (by rw [hp]; rfl)
  have hlck := h.lck i
  rw [hp] at hlck
  have honly : ∀ q, q < s.fresh → s.leaf q = true → s.gone q = false → s.lo q ≤ s.key i → s.key i < s.hi q → q = n := by
    intro q h1 h2 hg h3 h4
    by_contra hne
    have := (h.disj n q (s.key i) t1 h1 (fun e => hne e.symm) t2 h2 t6 hg t3 t4 h3 h4).2.2
    rw [holder_of hlk, hp] at this
    exact this
  have hmono : Mono s (State.to
        { s with
          items := Function.update s.items n (Function.update (s.items n) (s.key i) (f (s.items n (s.key i))))
          m := Function.update s.m (s.key i) (f (s.m (s.key i))) } i (.pub n)) :=
    ⟨Nat.le_refl _, fun _ _ => rfl, fun _ _ => rfl, fun _ _ => Nat.le_refl _, fun _ _ => Nat.le_refl _,
      fun _ _ _ h => ⟨h, rfl, Nat.le_refl _⟩, fun _ _ h _ _ => h, fun _ _ _ _ _ _ _ h => ⟨h, Nat.le_refl _⟩⟩
  have hframe : Frame i id s (State.to
        { s with
          items := Function.update s.items n (Function.update (s.items n) (s.key i) (f (s.items n (s.key i))))
          m := Function.update s.m (s.key i) (f (s.m (s.key i))) } i (.pub n)) :=
    { pc := fun j hj => by simp only [State.to, Function.update_of_ne hj]
      key := fun _ _ => rfl
      base := fun _ _ => rfl
      le := fun _ => Nat.le_refl _
      dI := fun _ _ _ _ => rfl
      dS := fun _ _ _ _ => rfl
      dead := fun _ _ _ _ => rfl
      gone := fun _ _ _ _ => rfl
      items := fun q j h1 h2 => by
        have : q ≠ n := by rintro rfl; rw [hlk] at h1; exact h2 (Option.some.inj h1).symm
        simp only [State.to, Function.update_of_ne this]
      hi := fun _ _ _ _ => rfl
      bd := fun _ _ _ _ => rfl
      elo := fun _ _ _ _ => rfl
      next := fun _ _ _ _ _ _ h => h
      loose := fun _ _ _ _ h => h
      parent := fun _ _ _ _ _ _ h => ⟨h, rfl, rfl⟩ }
  refine inv_heavy h hmono hframe (x := .pub n) (by simp [State.to]) (by simp [hp]) rfl rfl rfl ⟨t1, t2, t3, t4, t5, t6⟩
    ?_ (fun _ _ _ => Iff.rfl) h.dirty h.alloc h.rng h.live h.gone ?_ ?_ h.parent h.node h.deadNode h.keys h.sorted h.kid h.nodup
    h.rt ?_ ?_ ?_ h.last h.next
  · intro q
    exact ⟨hlck q, fun e => by subst e; exact hlk⟩
  · intro q hq
    exact Or.inr (Or.inr ⟨hq, rfl, rfl, by rw [hp]; exact id⟩)
  · intro q hq hn
    exact Or.inr (Or.inr ⟨hq, hn, id, by rw [hp]; exact id⟩)
  · intro q k h1 h2 hg h3 h4
    show Function.update s.items n _ q k = Function.update s.m _ _ k
    have hv := h.val q k h1 h2 hg h3 h4
    by_cases hk : k = s.key i
    · subst hk
      obtain rfl := honly q h1 h2 hg h3 h4
      rw [Function.update_self, Function.update_self, Function.update_self, hv]
    · rw [Function.update_of_ne hk]
      by_cases hq : q = n
      · subst hq; rw [Function.update_self, Function.update_of_ne hk]; exact hv
      · rw [Function.update_of_ne hq]; exact hv
  · intro q k h1 h2 hg h3
    change Function.update s.items n _ q k ≠ none at h3
    show s.lo q ≤ k ∧ k < s.hi q
    by_cases hq : q = n
    · subst hq
      by_cases hk : k = s.key i
      · subst hk; exact ⟨t3, t4⟩
      · rw [Function.update_self, Function.update_of_ne hk] at h3; exact h.dom q k h1 h2 hg h3
    · rw [Function.update_of_ne hq] at h3; exact h.dom q k h1 h2 hg h3
  · intro a b k h1 h2 h3 h4 h5 h6 h7 h8 h9 h10 h11
    exact Or.inr ⟨h1, h2, h6, h7, ⟨k, h8, h9, h10, h11⟩, by rw [hp]; simp [PC.Pre]⟩

end Verif.Prune
