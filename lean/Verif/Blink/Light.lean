import Verif.Blink.Read

/-!
# The steps that only lock, mark and unlock keep the invariant
-/
namespace Verif.Blink

variable {G : Type}

theorem Half.owns {x : PC G} {n : Nat} (h : x.Half n) : x.Owns n := by
  cases x <;> simp_all [PC.Half, PC.Owns]

theorem Loose.owns {x : PC G} {n : Nat} (h : x.Loose n) : x.Owns n := by
  cases x <;> simp_all [PC.Loose, PC.Owns]

theorem holder_of {s : State G} {n i : Nat} (h : s.lock n = some i) : s.holder n = s.pc i := by
  unfold State.holder; rw [h]

/-- The tree is the same in both states. -/
structure SameTree (s s' : State G) : Prop where
  leaf : s'.leaf = s.leaf
  parent : s'.parent = s.parent
  next : s'.next = s.next
  items : s'.items = s.items
  keys : s'.keys = s.keys
  kids : s'.kids = s.kids
  lo : s'.lo = s.lo
  hi : s'.hi = s.hi
  phi : s'.phi = s.phi
  chi : s'.chi = s.chi
  fresh : s'.fresh = s.fresh
  root : s'.root = s.root
  m : s'.m = s.m
  key : s'.key = s.key
  base : s'.base = s.base

theorem inv_light {s s' : State G} (h : Inv s) (hs : SameTree s s') {i : Nat} {x : PC G} (hpc : s'.pc = Function.update s.pc i x)
    (ho : ∀ n, s'.lock n = some i ↔ x.Owns n) (hl : ∀ n j, j ≠ i → (s'.lock n = some j ↔ s.lock n = some j))
    (hd : ∀ n, s'.lock n = none → s'.dI n = false ∧ s'.dS n = false)
    (ha : ∀ n, x.Owns n → n < s.fresh)
    (hchi : ∀ n, n < s.fresh → s'.dS n = false → s.chi n = s.hi n)
    (hH : ∀ n, (s.pc i).Half n → x.Half n) (hL : ∀ n, (s.pc i).Loose n → x.Loose n)
    (hP : (s.pc i).Pre → x.Pre ∧ ∀ n, (s.pc i).Owns n → s.leaf n = true → x.Owns n)
    (hrt : ∀ n, n < s.fresh → s'.rt n = true → s.lo n = 0 → s'.dS n = false → s.hi n = top)
    (hins : ∀ n, s.ins n ≤ s'.ins n) (hspl : ∀ n, s.spl n ≤ s'.spl n)
    (hm : ∀ n, s'.spl n = s.spl n → s'.dS n = false → s.dS n = false)
    (hc : ∀ n, s'.clean n → s'.ins n = s.ins n → s'.spl n = s.spl n → s.clean n)
    (hf : ∀ q j, s.lock q = some j → j ≠ i → s'.dI q = s.dI q ∧ s'.dS q = s.dS q)
    (hloc : s'.Loc (s.key i) x) (hne : s.pc i ≠ .idle) : Inv s' := by
  have hmono : Mono s s' :=
    { fresh := by rw [hs.fresh]; exact Nat.le_refl _
      lo := fun q _ => by rw [hs.lo]
      leaf := fun q _ => by rw [hs.leaf]
      ins := fun q _ => hins q
      spl := fun q _ => hspl q
      hi := fun q _ h1 h2 => ⟨hm q h1 h2, by rw [hs.hi]⟩
      same := fun q _ h1 h2 h3 => ⟨hc q h1 h2 h3, by rw [hs.keys], by rw [hs.kids]⟩ }
  have hframe : Frame i s s' :=
    { pc := fun j hj => by rw [hpc, Function.update_of_ne hj]
      key := fun j _ => by rw [hs.key]
      base := fun j _ => by rw [hs.base]
      dI := fun q j h1 h2 => (hf q j h1 h2).1
      dS := fun q j h1 h2 => (hf q j h1 h2).2
      hi := fun q j _ _ => by rw [hs.hi]
      phi := fun q j _ _ => by rw [hs.phi]
      chi := fun q j _ _ => by rw [hs.chi]
      next := fun q j _ _ => by rw [hs.next]
      loose := fun q j _ _ h3 => by rw [hs.parent]; exact h3
      parent := fun q p j _ _ _ h4 => by rw [hs.parent]; exact h4 }
  have hpi : s'.pc i = x := by rw [hpc, Function.update_self]
  have hpj : ∀ j, j ≠ i → s'.pc j = s.pc j := hframe.pc
  have hhi : ∀ n, x.Owns n → s'.holder n = x := fun n hn => by rw [holder_of ((ho n).mpr hn), hpi]
  have hhj : ∀ n j, j ≠ i → s.lock n = some j → s'.holder n = s.holder n := fun n j hj hn => by
    rw [holder_of ((hl n j hj).mpr hn), holder_of hn, hpj j hj]
  constructor
  case own =>
    intro j n hj
    by_cases hji : j = i
    · subst hji; rw [hpi] at hj; exact (ho n).mpr hj
    · rw [hpj j hji] at hj; exact (hl n j hji).mpr (h.own j n hj)
  case lck =>
    intro j n hj
    by_cases hji : j = i
    · subst hji; rw [hpi]; exact (ho n).mp hj
    · rw [hpj j hji]; exact h.lck j n ((hl n j hji).mp hj)
  case dirty => exact hd
  case alloc =>
    intro n hn
    rw [hs.fresh] at hn
    cases hq : s'.lock n with
    | none => rfl
    | some j =>
      by_cases hji : j = i
      · subst hji; have := ha n ((ho n).mp hq); omega
      · have := h.alloc n hn; rw [(hl n j hji).mp hq] at this; cases this
  case rng => rw [hs.fresh, hs.lo, hs.hi, hs.phi, hs.chi]; exact h.rng
  case leafChi => rw [hs.fresh, hs.leaf, hs.hi, hs.chi]; exact h.leafChi
  case chi => rw [hs.fresh, hs.hi, hs.chi]; exact hchi
  case phi =>
    rw [hs.fresh, hs.hi, hs.phi]
    intro n hn
    rcases h.phi n hn with h1 | h1
    · exact Or.inl h1
    · refine Or.inr ?_
      unfold State.holder at h1
      cases hq : s.lock n with
      | none => rw [hq] at h1; exact h1.elim
      | some j =>
        rw [hq] at h1
        by_cases hji : j = i
        · subst hji; rw [hhi n (Half.owns (hH n h1))]; exact hH n h1
        · rw [hhj n j hji hq, holder_of hq]; exact h1
  case att =>
    rw [hs.fresh, hs.parent, hs.lo, hs.phi]
    intro n hn hp
    rcases h.att n hn hp with h1 | h1
    · exact Or.inl h1
    · refine Or.inr ?_
      unfold State.holder at h1
      cases hq : s.lock n with
      | none => rw [hq] at h1; exact h1.elim
      | some j =>
        rw [hq] at h1
        by_cases hji : j = i
        · subst hji; rw [hhi n (Loose.owns (hL n h1))]; exact hL n h1
        · rw [hhj n j hji hq, holder_of hq]; exact h1
  case parent => rw [hs.fresh, hs.parent, hs.leaf]; exact h.parent
  case slot => rw [hs.fresh, hs.parent, hs.lo, hs.phi, hs.chi, hs.keys, hs.kids]; exact h.slot
  case good => rw [hs.fresh, hs.leaf, hs.lo, hs.chi, hs.keys, hs.kids]; exact h.good
  case kid => rw [hs.fresh, hs.leaf, hs.kids, hs.parent]; exact h.kid
  case kidRng => rw [hs.fresh, hs.leaf, hs.lo, hs.chi, hs.phi, hs.keys, hs.kids]; exact h.kidRng
  case rt => rw [hs.fresh, hs.lo, hs.hi]; exact hrt
  case root => rw [hs.fresh, hs.lo, hs.root]; exact h.root
  case base =>
    rw [hs.fresh, hs.lo, hs.base]
    intro j hj
    by_cases hji : j = i
    · subst hji; exact h.base j hne
    · rw [hpj j hji] at hj; exact h.base j hj
  case key =>
    rw [hs.key]
    intro j hj
    by_cases hji : j = i
    · subst hji; exact h.key j hne
    · rw [hpj j hji] at hj; exact h.key j hj
  case val => rw [hs.fresh, hs.leaf, hs.lo, hs.hi, hs.items, hs.m]; exact h.val
  case dom => rw [hs.fresh, hs.leaf, hs.lo, hs.hi, hs.items]; exact h.dom
  case disj =>
    rw [hs.fresh, hs.leaf, hs.lo, hs.hi]
    intro a b k h1 h2 h3 h4 h5 h6 h7 h8 h9
    obtain ⟨g1, g2, g3⟩ := h.disj a b k h1 h2 h3 h4 h5 h6 h7 h8 h9
    cases hq : s.lock a with
    | none => exact absurd hq g1
    | some j =>
      rw [hq] at g2
      rw [holder_of hq] at g3
      by_cases hji : j = i
      · subst hji
        obtain ⟨p1, p2⟩ := hP g3
        have oa := p2 a (h.lck j a hq) h4
        have ob := p2 b (h.lck j b g2.symm) h5
        rw [(ho a).mpr oa, (ho b).mpr ob, hhi a oa]
        exact ⟨by simp, rfl, p1⟩
      · rw [(hl a j hji).mpr hq, (hl b j hji).mpr g2.symm, hhj a j hji hq, holder_of hq]
        exact ⟨by simp, rfl, g3⟩
  case last => rw [hs.fresh, hs.leaf, hs.next, hs.hi]; exact h.last
  case next => rw [hs.fresh, hs.leaf, hs.next, hs.lo, hs.hi]; exact h.next
  case loc =>
    intro j
    by_cases hji : j = i
    · subst hji; rw [hpi, hs.key]; exact hloc
    · exact Loc.other h hmono hframe hji

end Verif.Blink
