import Verif.Prune.Read

/-!
# The steps that only lock, mark and unlock keep the invariant
-/
namespace Verif.Prune

variable {G : Type}

theorem Skew.owns {x : PC G} {n : Nat} (h : x.Skew n) : x.Owns n := by
  cases x <;> simp only [PC.Skew, PC.Owns] at * <;> grind

theorem Loose.owns {x : PC G} {n : Nat} (h : x.Loose n) : x.Owns n := by
  cases x <;> simp_all [PC.Loose, PC.Owns]

theorem holder_of {s : State G} {n i : Nat} (h : s.lock n = some i) : s.holder n = s.pc i := by
  unfold State.holder; rw [h]

/-- The tree is the same in both states, except that leaves may be marked deleted. -/
structure SameTree (s s' : State G) : Prop where
  leaf : s'.leaf = s.leaf
  parent : s'.parent = s.parent
  next : s'.next = s.next
  items : s'.items = s.items
  keys : s'.keys = s.keys
  kids : s'.kids = s.kids
  lo : s'.lo = s.lo
  hi : s'.hi = s.hi
  bd : s'.bd = s.bd
  elo : s'.elo = s.elo
  gone : s'.gone = s.gone
  fresh : s'.fresh = s.fresh
  root : s'.root = s.root
  m : s'.m = s.m
  key : s'.key = s.key
  base : s'.base = s.base

theorem inv_light {s s' : State G} (h : Inv s) (hs : SameTree s s') {i : Nat} {x : PC G} (hpc : s'.pc = Function.update s.pc i x)
    (ho : ∀ n, s'.lock n = some i ↔ x.Owns n) (hl : ∀ n j, j ≠ i → (s'.lock n = some j ↔ s.lock n = some j))
    (hd : ∀ n, s'.lock n = none → s'.dI n = false ∧ s'.dS n = false)
    (ha : ∀ n, x.Owns n → n < s.fresh)
    (hdd : ∀ n, s'.dead n = s.dead n ∨ s.leaf n = true ∧ s'.dead n = true ∧ s'.dS n = true ∧ ∀ j, j ≠ i → s.lock n ≠ some j)
    (hH : ∀ n, (s.pc i).Skew n → x.Skew n) (hL : ∀ n, (s.pc i).Loose n → x.Loose n)
    (hP : (s.pc i).Pre → x.Pre ∧ ∀ n, (s.pc i).Owns n → s.leaf n = true → x.Owns n)
    (hrt : ∀ n, n < s.fresh → s'.rt n = true → s.lo n = 0 → s'.dS n = false → s.hi n = top)
    (hins : ∀ n, s.ins n ≤ s'.ins n) (hspl : ∀ n, s.spl n ≤ s'.spl n)
    (hm : ∀ n, s'.spl n = s.spl n → s'.dS n = false → s.dS n = false)
    (hc : ∀ n, s'.clean n → s'.ins n = s.ins n → s'.spl n = s.spl n → s.clean n)
    (hf : ∀ q j, s.lock q = some j → j ≠ i → s'.dI q = s.dI q ∧ s'.dS q = s.dS q)
    (hloc : s'.Loc (s.key i) x) (hne : s.pc i ≠ .idle) : Inv s' := by
  have hmono : Mono s s' :=
    { fresh := by rw [hs.fresh]; exact Nat.le_refl _
      lo := fun q _ => by rw [hs.lo]
      leaf := fun q _ => by rw [hs.leaf]
      ins := fun q _ => hins q
      spl := fun q _ => hspl q
      hi := fun q _ h1 h2 => ⟨hm q h1 h2, (hdd q).resolve_right (fun e => by rw [h2] at e; cases e.2.2.1), by rw [hs.hi]; exact Nat.le_refl _⟩
      clean := fun q _ h1 h2 h3 => hc q h1 h2 h3
      kid := fun q _ _ _ _ c _ h4 => ⟨by rw [hs.parent]; exact h4, by rw [hs.bd]; exact Nat.le_refl _⟩ }
  have hframe : Frame i id s s' :=
    { pc := fun j hj => by rw [hpc, Function.update_of_ne hj]
      key := fun j _ => by rw [hs.key]
      base := fun j _ => by rw [hs.base]
      dI := fun q j h1 h2 => (hf q j h1 h2).1
      dS := fun q j h1 h2 => (hf q j h1 h2).2
      le := fun _ => Nat.le_refl _
      dead := fun q j h1 h2 => (hdd q).resolve_right (fun e => e.2.2.2 j h2 h1)
      gone := fun q j _ _ => by rw [hs.gone]
      items := fun q j _ _ => by rw [hs.items]
      hi := fun q j _ _ => by rw [hs.hi]; rfl
      bd := fun q j _ _ => by rw [hs.bd]; rfl
      elo := fun q j _ _ => by rw [hs.elo]; rfl
      next := fun q c j _ _ _ h4 => by rw [hs.next]; exact h4
      loose := fun q j _ _ h3 => by rw [hs.parent]; exact h3
      parent := fun q p j _ _ _ h4 => ⟨by rw [hs.parent]; exact h4, by rw [hs.elo]; rfl, by rw [hs.bd]; rfl⟩ }
  have hpi : s'.pc i = x := by rw [hpc, Function.update_self]
  have hpj : ∀ j, j ≠ i → s'.pc j = s.pc j := hframe.pc
  have hhi : ∀ n, x.Owns n → s'.holder n = x := fun n hn => by rw [holder_of ((ho n).mpr hn), hpi]
  have hhj : ∀ n j, j ≠ i → s.lock n = some j → s'.holder n = s.holder n := fun n j hj hn => by
    rw [holder_of ((hl n j hj).mpr hn), holder_of hn, hpj j hj]
  constructor
  case own =>
    intro j n hj
    by_cases hji : j = i
    · subst hji; rw [hpi] at hj; exact (ho n).mpr hj
    · rw [hpj j hji] at hj; exact (hl n j hji).mpr (h.own j n hj)
  case lck =>
    intro j n hj
    by_cases hji : j = i
    · subst hji; rw [hpi]; exact (ho n).mp hj
    · rw [hpj j hji]; exact h.lck j n ((hl n j hji).mp hj)
  case dirty => exact hd
  case alloc =>
    intro n hn
    rw [hs.fresh] at hn
    cases hq : s'.lock n with
    | none => rfl
    | some j =>
      by_cases hji : j = i
      · subst hji; have := ha n ((ho n).mp hq); omega
      · have := h.alloc n hn; rw [(hl n j hji).mp hq] at this; cases this
  case rng => rw [hs.fresh, hs.elo, hs.hi, hs.bd]; exact h.rng
  case live => rw [hs.fresh, hs.leaf, hs.hi, hs.elo, hs.lo, hs.bd, hs.gone]; exact h.live
  case gone =>
    rw [hs.fresh, hs.leaf, hs.elo, hs.bd, hs.gone]
    intro n hn hg
    obtain ⟨g1, g2, g3⟩ := h.gone n hn hg
    exact ⟨g1, (hdd n).elim (fun e => by rw [e]; exact g2) (fun e => e.2.1), g3⟩
  case skew =>
    rw [hs.fresh, hs.hi, hs.bd]
    intro n hn
    rcases h.skew n hn with h1 | h1
    · exact Or.inl h1
    · refine Or.inr ?_
      unfold State.holder at h1
      cases hq : s.lock n with
      | none => rw [hq] at h1; exact h1.elim
      | some j =>
        rw [hq] at h1
        by_cases hji : j = i
        · subst hji; rw [hhi n (Skew.owns (hH n h1))]; exact hH n h1
        · rw [hhj n j hji hq, holder_of hq]; exact h1
  case att =>
    rw [hs.fresh, hs.parent, hs.lo, hs.bd]
    intro n hn hp
    rcases h.att n hn hp with h1 | h1
    · exact Or.inl h1
    · refine Or.inr ?_
      unfold State.holder at h1
      cases hq : s.lock n with
      | none => rw [hq] at h1; exact h1.elim
      | some j =>
        rw [hq] at h1
        by_cases hji : j = i
        · subst hji; rw [hhi n (Loose.owns (hL n h1))]; exact hL n h1
        · rw [hhj n j hji hq, holder_of hq]; exact h1
  case parent => rw [hs.fresh, hs.parent, hs.leaf, hs.lo]; exact h.parent
  case node =>
    rw [hs.fresh, hs.leaf, hs.lo, hs.elo, hs.bd, hs.hi, hs.keys, hs.kids]
    intro p h1 h2 h3
    exact h.node p h1 h2 (by rw [← (hdd p).resolve_right (fun e => by rw [h2] at e; cases e.1)]; exact h3)
  case deadNode =>
    rw [hs.fresh, hs.leaf, hs.keys, hs.kids]
    intro p h1 h2 h3
    exact h.deadNode p h1 h2 (by rw [← (hdd p).resolve_right (fun e => by rw [h2] at e; cases e.1)]; exact h3)
  case keys => rw [hs.fresh, hs.leaf, hs.keys, hs.hi]; exact h.keys
  case sorted => rw [hs.fresh, hs.leaf, hs.keys]; exact h.sorted
  case kid => rw [hs.fresh, hs.leaf, hs.kids, hs.parent]; exact h.kid
  case nodup => rw [hs.fresh, hs.leaf, hs.kids]; exact h.nodup
  case rt => rw [hs.fresh, hs.lo, hs.hi]; exact hrt
  case root => rw [hs.fresh, hs.lo, hs.root]; exact h.root
  case base =>
    rw [hs.fresh, hs.lo, hs.base]
    intro j hj
    by_cases hji : j = i
    · subst hji; exact h.base j hne
    · rw [hpj j hji] at hj; exact h.base j hj
  case key =>
    rw [hs.key]
    intro j hj
    by_cases hji : j = i
    · subst hji; exact h.key j hne
    · rw [hpj j hji] at hj; exact h.key j hj
  case val => rw [hs.fresh, hs.leaf, hs.gone, hs.lo, hs.hi, hs.items, hs.m]; exact h.val
  case dom => rw [hs.fresh, hs.leaf, hs.gone, hs.lo, hs.hi, hs.items]; exact h.dom
  case disj =>
    rw [hs.fresh, hs.leaf, hs.gone, hs.lo, hs.hi]
    intro a b k h1 h2 h3 h4 h5 h6 h7 h8 h9 h10 h11
    obtain ⟨g1, g2, g3⟩ := h.disj a b k h1 h2 h3 h4 h5 h6 h7 h8 h9 h10 h11
    cases hq : s.lock a with
    | none => exact absurd hq g1
    | some j =>
      rw [hq] at g2
      rw [holder_of hq] at g3
      by_cases hji : j = i
      · subst hji
        obtain ⟨p1, p2⟩ := hP g3
        have oa := p2 a (h.lck j a hq) h4
        have ob := p2 b (h.lck j b g2.symm) h5
        rw [(ho a).mpr oa, (ho b).mpr ob, hhi a oa]
        exact ⟨by simp, rfl, p1⟩
      · rw [(hl a j hji).mpr hq, (hl b j hji).mpr g2.symm, hhj a j hji hq, holder_of hq]
        exact ⟨by simp, rfl, g3⟩
  case last => rw [hs.fresh, hs.leaf, hs.gone, hs.next, hs.hi]; exact h.last
  case next => rw [hs.fresh, hs.leaf, hs.gone, hs.next, hs.lo, hs.hi]; exact h.next
  case loc =>
    intro j
    by_cases hji : j = i
    · subst hji; rw [hpi, hs.key]; exact hloc
    · exact Loc.other h hmono hframe hji

end Verif.Prune
