import Verif.LockOrder.Light

/-!
# Steps that change the tree or the leaf lists
-/
namespace Verif.LockOrder

open Function (update)

theorem update2 (f : Nat → Nat → Prop) (p : Nat) (g : Nat → Prop) (x y : Nat) :
    update f p g x y = if x = p then g y else f x y := by
  rw [Function.update_apply]; split <;> rfl

/-- A higher parent: what `locked_parent` reads. -/
theorem Inv.up {key : Nat → Nat → Nat} {s : State} (hi : Inv key s) {n p : Nat} (hn : s.Live n) (h : s.parent n = some p) :
    s.Live p ∧ s.kids p n ∧ s.lay p = s.lay n ∧ s.ht n < s.ht p := by
  have h1 := hi.par n p hn.2 h
  have h2 := hi.kid p n h1
  exact ⟨h2.1, h1, (hi.parLt n p h).2.2, h2.2.2.2⟩

/-- A leaf with a list operation is allocated. -/
theorem Inv.listing {key : Nat → Nat → Nat} {s : State} (hi : Inv key s) {j n : Nat} (h : (s.pc j).listing = some n) :
    n < s.fresh := by
  have := hi.loc j
  revert this h
  cases s.pc j <;> simp only [PC.listing, reduceCtorEq, false_implies, Option.some.injEq] <;> rintro rfl h
  · exact h.left.1
  · exact h.1.1

/-- The lists do not change. -/
theorem Inv.keeps {key : Nat → Nat → Nat} {i : Nat} {s s' : State} (hi : Inv key s)
    (hpc : ∀ j, j ≠ i → s'.pc j = s.pc j) (hlay : ∀ x, x < s.fresh → s'.lay x = s.lay x) (hl : (s.pc i).listing = none)
    (l m : Nat) (h : (s.list l).op m ≠ .idle) : ∃ i n, (s'.pc i).listing = some n ∧ s'.lay n = l ∧ s'.lid n = m := by
  obtain ⟨j, n, h1, h2, h3⟩ := hi.busy l m h
  have hj : j ≠ i := by rintro rfl; rw [hl] at h1; cases h1
  have := hi.listing h1
  refine ⟨j, n, hpc j hj ▸ h1, (hlay n this).trans h2, ?_⟩
  simp only [State.lid, hlay n this]
  exact h3

theorem Inv.mod {key : Nat → Nat → Nat} {i : Nat} {s : State} (hi : Inv key s) {p n c h : Nat} {t : Option Nat}
    (hp : s.pc i = .mod p n c t h) : s.Halves n c t h ∧ s.Live p ∧ s.parent n = some p ∧ s.kids p n ∧ s.lay p = s.lay n ∧
      s.ht n < s.ht p := by
  have hloc := hi.loc i
  rw [hp] at hloc
  obtain ⟨h1, h2, h3⟩ := hloc
  obtain ⟨k1, k2, k3, k4⟩ := hi.up h1.left h2
  exact ⟨h1, k1, h2, h3, k3, k4⟩

/-- `Kept` speaks of allocated nodes only. -/
theorem Kept.keep {s s' : State} {l h : Nat} {t : Option Nat} (hk : s.Kept l h t) (hf : s.fresh ≤ s'.fresh)
    (hd : ∀ x, x < s.fresh → (s'.dead x ↔ s.dead x)) (hh : ∀ x, x < s.fresh → s'.ht x = s.ht x)
    (hl : ∀ x, x < s.fresh → s'.lay x = s.lay x) : s'.Kept l h t := by
  cases t with
  | none => exact hk
  | some t =>
    obtain ⟨h1, h2, h3, h4⟩ := hk
    exact ⟨h1, ⟨Nat.lt_of_lt_of_le h2.1 hf, fun h => h2.2 ((hd t h2.1).mp h)⟩, by rw [hh t h2.1, h3], by rw [hl t h2.1, h4]⟩

theorem inv_insert {key : Nat → Nat → Nat} {i : Nat} {s : State} (hi : Inv key s) (p n c : Nat) (t : Option Nat) (h : Nat)
    (hp : s.pc i = .mod p n c t h) (hh : ¬ h + 1 < s.ht p) :
    Inv key { s with
      parent := update s.parent c (some p)
      kids := update s.kids p (fun q => s.kids p q ∨ q = c)
      pc := update s.pc i (.fin (some p) none n c t h) } := by
  obtain ⟨hH, hL, h2, h3, h4, h5⟩ := hi.mod hp
  have hheld := hi.mine hp
  have hpl : s.lock p = some i := (hheld p).mpr (by simp [PC.held])
  have hcl : s.lock c = some i := (hheld c).mpr (by simp [PC.held])
  obtain ⟨g1, g2, g3, g4, g5, g6, g7, g8⟩ := hH
  have hkid := hi.kid
  have hpar := hi.par
  have hparLt := hi.parLt
  refine hi.next (i := i) ⟨Nat.le_refl _, fun _ _ => rfl, fun _ _ => rfl, fun _ _ => rfl, fun _ _ _ => Iff.rfl, ?_, ?_, ?_⟩
    (fun j hj => Function.update_of_ne hj ..) ?_ (fun _ _ _ => Iff.rfl) (fun q hq => hi.lockLt q i hq) ?_
    hi.deadLt hi.layLt hi.subLt ?_ ?_ ?_ (hi.keeps (fun j hj => Function.update_of_ne hj ..) (fun _ _ => rfl) (by rw [hp]; rfl))
    hi.lists
  · simp only [update2]; grind
  · simp only [Function.update_apply]; grind
  · simp only [Function.update_apply]; grind
  · intro q
    simp only [Function.update_self]
    rw [hheld]
    simp [PC.held]
    grind
  · simp only [Function.update_apply, State.Live] at *; grind
  · simp only [State.Live, Function.update_apply, update2] at *
    grind
  · simp only [State.Live, Function.update_apply, update2] at *
    grind
  · simp only [Function.update_self]
    refine ⟨g1, g2, g3, g4, g5, g6, Kept.keep g8 (Nat.le_refl _) (fun _ _ => Iff.rfl) (fun _ _ => rfl) (fun _ _ => rfl), ?_, ?_⟩
    · intro q hq
      cases hq
      exact ⟨hL, h4, by simp only; omega⟩
    · intro y hy; cases hy

/-- A number not yet used stands for nothing. -/
theorem Inv.unused {key : Nat → Nat → Nat} {s : State} (hi : Inv key s) (x : Nat) (hx : s.fresh ≤ x) :
    s.lock x = none ∧ s.parent x = none ∧ ¬ s.dead x ∧ (∀ y, ¬ s.kids x y) ∧ (∀ y, ¬ s.kids y x) ∧ ∀ y, s.parent y ≠ some x := by
  refine ⟨?_, ?_, fun h => ?_, fun y h => ?_, fun y h => ?_, fun y h => ?_⟩
  · cases h : s.lock x with
    | none => rfl
    | some j => have := hi.lockLt x j h; omega
  · cases h : s.parent x with
    | none => rfl
    | some p => have := (hi.parLt x p h).2.1; omega
  · have := hi.deadLt x h; omega
  · have := (hi.kid x y h).1.1; omega
  · have := (hi.kid y x h).2.1.1; omega
  · have := (hi.parLt y x h).1; omega

/-- A new node needs a layer pointer only for what is below it. -/
theorem Inv.subNew {key : Nat → Nat → Nat} {s : State} (hi : Inv key s) (l : Nat) (n r : Nat) (h : s.sub n r) :
    n < s.fresh + 1 ∧ r < s.fresh + 1 ∧
      s.dep (update s.lay s.fresh l r) = s.dep (update s.lay s.fresh l n) + 1 := by
  obtain ⟨h1, h2, h3⟩ := hi.subLt n r h
  rw [Function.update_of_ne (by omega), Function.update_of_ne (by omega)]
  exact ⟨by omega, by omega, h3⟩

theorem Inv.layNew {key : Nat → Nat → Nat} {s : State} (hi : Inv key s) {n : Nat} (hn : n < s.fresh) (q : Nat)
    (hq : q < s.fresh + 1) : update s.lay s.fresh (s.lay n) q < s.fresh + 1 := by
  have h1 := hi.layLt n hn
  have h2 := hi.layLt q
  rw [Function.update_apply]
  split <;> omega

theorem inv_newRoot {key : Nat → Nat → Nat} {i : Nat} {s : State} (hi : Inv key s) (n c : Nat) (t : Option Nat) (h : Nat)
    (hp : s.pc i = .par n c t h) (hn : s.parent n = none) :
    Inv key { s with
      fresh := s.fresh + 1
      ht := update s.ht s.fresh (h + 1)
      lay := update s.lay s.fresh (s.lay n)
      parent := update (update s.parent c (some s.fresh)) n (some s.fresh)
      kids := update s.kids s.fresh (fun q => q = n ∨ q = c)
      pc := update s.pc i (.fin none none n c t h) } := by
  have hH := hi.loc i
  rw [hp] at hH
  have hheld := hi.mine hp
  have hnl : s.lock n = some i := (hheld n).mpr (by simp [PC.held])
  have hcl : s.lock c = some i := (hheld c).mpr (by simp [PC.held])
  obtain ⟨g1, g2, g3, g4, g5, g6, g7, g8⟩ := hH
  have hkid := hi.kid
  have hpar := hi.par
  have hparLt := hi.parLt
  have hlayLt := hi.layLt
  have hdead := hi.deadLt
  obtain ⟨u1, u2, u3, u4, u5, u6⟩ := hi.unused s.fresh (Nat.le_refl _)
  refine hi.next (i := i) ⟨Nat.le_succ _, ?_, ?_, fun _ _ => rfl, fun _ _ _ => Iff.rfl, ?_, ?_, ?_⟩
    (fun j hj => Function.update_of_ne hj ..) ?_ (fun _ _ _ => Iff.rfl) (fun q hq => Nat.lt_succ_of_lt (hi.lockLt q i hq)) ?_
    ?_ ?_ (hi.subNew _) ?_ ?_ ?_ (hi.keeps (fun j hj => Function.update_of_ne hj ..) ?_ (by rw [hp]; rfl))
    hi.lists
  · simp only [Function.update_apply]; grind
  · simp only [Function.update_apply]; grind
  · simp only [update2]; grind
  · simp only [Function.update_apply]; grind
  · simp only [Function.update_apply]; grind
  · intro q
    simp only [Function.update_self]
    rw [hheld]
    simp [PC.held]
  · intro q p' hq
    have h0 := hparLt q p'
    clear hkid hpar hparLt hheld u6 u5 u4
    simp only [Function.update_apply, State.Live] at *
    grind
  · intro q hq; have := hi.deadLt q hq; simp only; omega
  · exact hi.layNew g1.1
  · simp only [State.Live, Function.update_apply, update2] at *
    grind
  · simp only [State.Live, Function.update_apply, update2] at *
    grind
  · have := g1.1
    have := g2.1
    simp only [Function.update_self]
    refine ⟨⟨by simp only; omega, g1.2⟩, ⟨by simp only; omega, g2.2⟩, g3, ?_, ?_, ?_, ?_, ?_, ?_⟩
    · simp only [Function.update_apply]; grind
    · simp only [Function.update_apply]; grind
    · simp only [Function.update_apply]; grind
    · simp only [Function.update_of_ne (show n ≠ s.fresh by omega)]
      refine Kept.keep g8 (Nat.le_succ _) (fun _ _ => Iff.rfl) ?_ ?_
      · simp only [Function.update_apply]; grind
      · simp only [Function.update_apply]; grind
    · intro q hq; cases hq
    · intro y hy; cases hy
  · simp only [Function.update_apply]; grind

theorem inv_between {key : Nat → Nat → Nat} {i : Nat} {s : State} (hi : Inv key s) (p n c : Nat) (t : Option Nat) (h : Nat)
    (hp : s.pc i = .mod p n c t h) (hh : h + 1 < s.ht p) :
    Inv key { s with
      fresh := s.fresh + 1
      ht := update s.ht s.fresh (h + 1)
      lay := update s.lay s.fresh (s.lay n)
      parent := update (update (update s.parent c (some s.fresh)) s.fresh (some p)) n (some s.fresh)
      kids := update (update s.kids p (fun q => (s.kids p q ∧ q ≠ n) ∨ q = s.fresh)) s.fresh (fun q => q = n ∨ q = c)
      pc := update s.pc i (.fin (some p) none n c t h) } := by
  obtain ⟨hH, hL, h2, h3, h4, h5⟩ := hi.mod hp
  have hheld := hi.mine hp
  have hpl : s.lock p = some i := (hheld p).mpr (by simp [PC.held])
  have hnl : s.lock n = some i := (hheld n).mpr (by simp [PC.held])
  have hcl : s.lock c = some i := (hheld c).mpr (by simp [PC.held])
  obtain ⟨g1, g2, g3, g4, g5, g6, g7, g8⟩ := hH
  have hkid := hi.kid
  have hpar := hi.par
  have hparLt := hi.parLt
  have hlayLt := hi.layLt
  have hdead := hi.deadLt
  obtain ⟨u1, u2, u3, u4, u5, u6⟩ := hi.unused s.fresh (Nat.le_refl _)
  refine hi.next (i := i) ⟨Nat.le_succ _, ?_, ?_, fun _ _ => rfl, fun _ _ _ => Iff.rfl, ?_, ?_, ?_⟩
    (fun j hj => Function.update_of_ne hj ..) ?_ (fun _ _ _ => Iff.rfl) (fun q hq => Nat.lt_succ_of_lt (hi.lockLt q i hq)) ?_
    ?_ ?_ (hi.subNew _) ?_ ?_ ?_ (hi.keeps (fun j hj => Function.update_of_ne hj ..) ?_ (by rw [hp]; rfl))
    hi.lists
  · simp only [Function.update_apply]; grind
  · simp only [Function.update_apply]; grind
  · simp only [update2]; grind
  · simp only [Function.update_apply]; grind
  · simp only [Function.update_apply]; grind
  · intro q
    simp only [Function.update_self]
    rw [hheld]
    simp [PC.held]
    grind
  · intro q p' hq
    have h0 := hparLt q p'
    clear hkid hpar hparLt hheld u6 u5 u4
    simp only [Function.update_apply, State.Live] at *
    grind
  · intro q hq; have := hi.deadLt q hq; simp only; omega
  · exact hi.layNew g1.1
  · simp only [State.Live, Function.update_apply, update2] at *
    grind
  · simp only [State.Live, Function.update_apply, update2] at *
    grind
  · have := g1.1
    have := g2.1
    have := hL.1
    simp only [Function.update_self]
    refine ⟨⟨by simp only; omega, g1.2⟩, ⟨by simp only; omega, g2.2⟩, g3, ?_, ?_, ?_, ?_, ?_, ?_⟩
    · simp only [Function.update_apply]; grind
    · simp only [Function.update_apply]; grind
    · simp only [Function.update_apply]; grind
    · simp only [Function.update_of_ne (show n ≠ s.fresh by omega)]
      refine Kept.keep g8 (Nat.le_succ _) (fun _ _ => Iff.rfl) ?_ ?_
      · simp only [Function.update_apply]; grind
      · simp only [Function.update_apply]; grind
    · intro q hq; cases hq
      refine ⟨⟨by simp only; omega, hL.2⟩, ?_, ?_⟩
      · simp only [Function.update_apply]; grind
      · simp only [Function.update_apply]; grind
    · intro y hy; cases hy
  · simp only [Function.update_apply]; grind

theorem inv_divide {key : Nat → Nat → Nat} {i : Nat} {s : State} (hi : Inv key s) (p n c : Nat) (t : Option Nat) (h : Nat)
    (D : Nat → Bool) (hp : s.pc i = .mod p n c t h) (hh : ¬ h + 1 < s.ht p) (hD : ∀ q, D q = true → s.kids p q ∨ q = c) :
    Inv key { s with
      fresh := s.fresh + 1
      ht := update s.ht s.fresh (h + 1)
      lay := update s.lay s.fresh (s.lay n)
      lock := update s.lock s.fresh (some i)
      parent := fun q => if D q then some s.fresh else if q = c then some p else s.parent q
      kids := update (update s.kids p (fun q => (s.kids p q ∨ q = c) ∧ D q = false)) s.fresh (fun q => D q = true)
      pc := update s.pc i (.fin (some p) (some s.fresh) n c t h) } := by
  obtain ⟨hH, hL, h2, h3, h4, h5⟩ := hi.mod hp
  have hheld := hi.mine hp
  have hpl : s.lock p = some i := (hheld p).mpr (by simp [PC.held])
  have hnl : s.lock n = some i := (hheld n).mpr (by simp [PC.held])
  have hcl : s.lock c = some i := (hheld c).mpr (by simp [PC.held])
  obtain ⟨g1, g2, g3, g4, g5, g6, g7, g8⟩ := hH
  have hkid := hi.kid
  have hpar := hi.par
  have hparLt := hi.parLt
  have hlayLt := hi.layLt
  have hdead := hi.deadLt
  obtain ⟨u1, u2, u3, u4, u5, u6⟩ := hi.unused s.fresh (Nat.le_refl _)
  refine hi.next (i := i) ⟨Nat.le_succ _, ?_, ?_, fun _ _ => rfl, fun _ _ _ => Iff.rfl, ?_, ?_, ?_⟩
    (fun j hj => Function.update_of_ne hj ..) ?_ ?_ ?_ ?_
    ?_ ?_ (hi.subNew _) ?_ ?_ ?_ (hi.keeps (fun j hj => Function.update_of_ne hj ..) ?_ (by rw [hp]; rfl))
    hi.lists
  · simp only [Function.update_apply]; grind
  · simp only [Function.update_apply]; grind
  · simp only [update2]; grind
  · grind
  · grind
  · intro q
    simp only [Function.update_self]
    rw [Function.update_apply]
    have := hheld q
    simp [PC.held] at this ⊢
    grind
  · intro q j hj; simp only [Function.update_apply]; grind
  · intro q hq
    simp only [Function.update_apply] at hq
    have := hi.lockLt q i
    simp only
    grind
  · intro q p' hq
    have h0 := hparLt q p'
    have h1 : D q = true → q < s.fresh ∧ s.lay q = s.lay n := by
      intro h
      rcases hD q h with h | rfl
      · have := hkid p q h
        exact ⟨this.2.1.1, by rw [← h4, (hparLt q p this.2.2.1).2.2]⟩
      · exact ⟨g2.1, g6⟩
    clear hkid hpar hparLt hheld u6 u5 u4
    simp only [Function.update_apply, State.Live] at *
    grind
  · intro q hq; have := hi.deadLt q hq; simp only; omega
  · exact hi.layNew g1.1
  · simp only [State.Live, Function.update_apply, update2] at *
    grind
  · simp only [State.Live, Function.update_apply, update2] at *
    grind
  · have := g1.1
    have := g2.1
    have := hL.1
    simp only [Function.update_self]
    refine ⟨⟨by simp only; omega, g1.2⟩, ⟨by simp only; omega, g2.2⟩, g3, ?_, ?_, ?_, ?_, ?_, ?_⟩
    · simp only [Function.update_apply]; grind
    · simp only [Function.update_apply]; grind
    · simp only [Function.update_apply]; grind
    · simp only [Function.update_of_ne (show n ≠ s.fresh by omega)]
      refine Kept.keep g8 (Nat.le_succ _) (fun _ _ => Iff.rfl) ?_ ?_
      · simp only [Function.update_apply]; grind
      · simp only [Function.update_apply]; grind
    · intro q hq; cases hq
      refine ⟨⟨by simp only; omega, hL.2⟩, ?_, ?_⟩
      · simp only [Function.update_apply]; grind
      · simp only [Function.update_apply]; grind
    · intro y hy; cases hy
      refine ⟨p, rfl, by omega, ⟨by simp only; omega, u3⟩, ?_, ?_, ?_, ?_⟩
      · simp only [Function.update_apply]; grind
      · simp only [Function.update_apply]; grind
      · simp only [Function.update_apply]; grind
      · have : D s.fresh = false := by grind
        simp only [this]; grind
  · simp only [Function.update_apply]; grind

theorem inv_takeOut {key : Nat → Nat → Nat} {i : Nat} {s : State} (hi : Inv key s) (p n : Nat) (r : Option Nat) (b : Bool)
    (hp : s.pc i = .rmod p n r) :
    Inv key { s with
      parent := setParent s.parent r p
      kids := update (update s.kids p (fun q => (s.kids p q ∧ q ≠ n) ∨ r = some q)) n (fun _ => False)
      dead := update s.dead n True
      pc := update s.pc i (if b then .dpar p p n else .rend p n) } := by
  have hloc := hi.loc i
  rw [hp] at hloc
  obtain ⟨hg, h2, h3⟩ := hloc
  obtain ⟨k1, k2, k3, k4⟩ := hi.up hg.live h2
  have hheld := hi.mine hp
  have hpl : s.lock p = some i := (hheld p).mpr (by simp [PC.held])
  have hnl : s.lock n = some i := (hheld n).mpr (by simp [PC.held])
  have hkid := hi.kid
  have hpar := hi.par
  have hparLt := hi.parLt
  have hlayLt := hi.layLt
  have hdead := hi.deadLt
  obtain ⟨g1, g2⟩ := hg
  have hset : ∀ q, setParent s.parent r p q = if r = some q then some p else s.parent q := by
    intro q
    cases r with
    | none => simp [setParent]
    | some r => simp only [setParent, Function.update_apply, Option.some.injEq]; grind
  refine hi.next (i := i) ⟨Nat.le_refl _, fun _ _ => rfl, fun _ _ => rfl, fun _ _ => rfl, ?_, ?_, ?_, ?_⟩
    (fun j hj => Function.update_of_ne hj ..) ?_ (fun _ _ _ => Iff.rfl) (fun q hq => hi.lockLt q i hq) ?_
    ?_ hi.layLt hi.subLt ?_ ?_ ?_ (hi.keeps (fun j hj => Function.update_of_ne hj ..) (fun _ _ => rfl) (by rw [hp]; rfl))
    hi.lists
  · simp only [Function.update_apply]; grind
  · simp only [update2]; grind
  · simp only [hset]; grind
  · simp only [hset]; grind
  · intro q
    simp only [Function.update_self]
    rw [hheld]
    cases b <;> simp [PC.held]
  · simp only [hset, State.Live] at *; grind
  · intro q hq
    have := hdead q
    have := g1.1
    clear hkid hpar hparLt hheld g2 hdead hset
    simp only [Function.update_apply] at *
    grind
  · simp only [State.Live, Function.update_apply, update2, hset] at *
    grind
  · simp only [State.Live, Function.update_apply, update2, hset] at *
    grind
  · simp only [Function.update_self]
    cases b
    · simp only [Bool.false_eq_true, if_false, State.Loc, State.Live, Function.update_apply] at *
      grind
    · simp only [if_true, State.Loc, State.Live, Function.update_apply] at *
      grind

/-- A layer pointer is replaced by the parent of the node it points to. -/
theorem Inv.repoint {key : Nat → Nat → Nat} {i : Nat} {s : State} (hi : Inv key s) (n r r' : Nat) (h1 : s.Live n)
    (h2 : s.ht n = 0) (h4 : s.dep (s.lay r) = s.dep (s.lay n) + 1) (hl : (s.pc i).listing = none) (hh : (s.pc i).held = [n])
    (hr : s.parent r = some r') :
    Inv key { s with
      sub := update s.sub n (fun x => (s.sub n x ∧ x ≠ r) ∨ x = r')
      pc := update s.pc i (.gc n r') } := by
  obtain ⟨k1, k2, k3⟩ := hi.parLt r r' hr
  have hsub := hi.subLt
  refine hi.next (i := i) ⟨Nat.le_refl _, fun _ _ => rfl, fun _ _ => rfl, fun _ _ => rfl, fun _ _ _ => Iff.rfl,
    fun _ _ _ _ => Iff.rfl, fun _ _ _ h => h, fun _ _ _ _ h _ => h⟩
    (fun j hj => Function.update_of_ne hj ..) ?_ (fun _ _ _ => Iff.rfl) (fun q hq => hi.lockLt q i hq) hi.parLt
    hi.deadLt hi.layLt ?_ hi.kid hi.par ?_
    (hi.keeps (fun j hj => Function.update_of_ne hj ..) (fun _ _ => rfl) hl) hi.lists
  · intro q
    simp only [Function.update_self]
    rw [hi.held, hh]
    rfl
  · simp only [update2, State.Live] at *; grind
  · simp only [Function.update_self]
    exact ⟨h1, h2, k1, k3 ▸ h4⟩

theorem inv_gparent {key : Nat → Nat → Nat} {i : Nat} {s : State} (hi : Inv key s) (n r r' : Nat) (hp : s.pc i = .gc n r)
    (hr : s.parent r = some r') :
    Inv key { s with
      sub := update s.sub n (fun x => (s.sub n x ∧ x ≠ r) ∨ x = r')
      pc := update s.pc i (.gc n r') } := by
  have hloc := hi.loc i
  rw [hp] at hloc
  exact hi.repoint n r r' hloc.1 hloc.2.1 hloc.2.2.2 (by rw [hp]; rfl) (by rw [hp]; rfl) hr

theorem inv_repair {key : Nat → Nat → Nat} {i : Nat} {s : State} (hi : Inv key s) (n r r' : Nat) (hp : s.pc i = .hold n)
    (hr : s.sub n r) (hr' : s.parent r = some r') :
    Inv key { s with
      sub := update s.sub n (fun x => (s.sub n x ∧ x ≠ r) ∨ x = r')
      pc := update s.pc i (.gc n r') } := by
  have hloc := hi.loc i
  rw [hp] at hloc
  exact hi.repoint n r r' hloc.1 hloc.2 (hi.subLt n r hr).2.2 (by rw [hp]; rfl) (by rw [hp]; rfl) hr'

theorem inv_gchild {key : Nat → Nat → Nat} {i : Nat} {s : State} (hi : Inv key s) (n r c : Nat) (hp : s.pc i = .gch n r c) :
    Inv key { s with
      parent := update s.parent c none
      kids := update s.kids r (fun _ => False)
      sub := update s.sub n (fun x => (s.sub n x ∧ x ≠ r) ∨ x = c)
      lock := update s.lock c none
      pc := update s.pc i (.gup n r c) } := by
  have hloc := hi.loc i
  rw [hp] at hloc
  obtain ⟨h1, h2, h3, h4, h5, h6⟩ := hloc
  have hheld := hi.mine hp
  have hrl : s.lock r = some i := (hheld r).mpr (by simp [PC.held])
  have hcl : s.lock c = some i := (hheld c).mpr (by simp [PC.held])
  have hkid := hi.kid
  have hpar := hi.par
  have hparLt := hi.parLt
  have hsub := hi.subLt
  have hk := hi.kid r c ((h6 c).mpr rfl)
  have hcr := (hi.parLt c r hk.2.2.1).2.2
  refine hi.next (i := i) ⟨Nat.le_refl _, fun _ _ => rfl, fun _ _ => rfl, fun _ _ => rfl, fun _ _ _ => Iff.rfl, ?_, ?_, ?_⟩
    (fun j hj => Function.update_of_ne hj ..) ?_ ?_ ?_ ?_
    hi.deadLt hi.layLt ?_ ?_ ?_ ?_
    (hi.keeps (fun j hj => Function.update_of_ne hj ..) (fun _ _ => rfl) (by rw [hp]; rfl)) hi.lists
  · simp only [update2]; grind
  · simp only [Function.update_apply]; grind
  · simp only [Function.update_apply]; grind
  · intro q
    simp only [Function.update_self, Function.update_apply]
    have := hheld q
    have hnc : n ≠ c := by
      rintro rfl
      rw [hcr] at h4
      omega
    simp only [PC.held, List.mem_cons, List.not_mem_nil] at this ⊢
    grind
  · intro q j hj; simp only [Function.update_apply]; grind
  · intro q hq
    simp only [Function.update_apply] at hq
    refine hi.lockLt q i ?_
    grind
  · simp only [Function.update_apply, State.Live] at *; grind
  · simp only [update2, State.Live] at *; grind
  · simp only [Function.update_apply, update2, State.Live] at *; grind
  · simp only [Function.update_apply, update2, State.Live] at *; grind
  · simp only [Function.update_self, State.Loc, Function.update_apply, update2, State.Live] at *
    grind

theorem inv_gup {key : Nat → Nat → Nat} {i : Nat} {s : State} (hi : Inv key s) (n r c : Nat) (hp : s.pc i = .gup n r c) :
    Inv key { s with
      parent := update s.parent r (some c)
      dead := update s.dead r True
      limbo := r :: s.limbo
      lock := update s.lock r none
      pc := update s.pc i (.gc n c) } := by
  have hloc := hi.loc i
  rw [hp] at hloc
  obtain ⟨h1, h2, h3, h4, h5, h6, h7, h8⟩ := hloc
  have hheld := hi.mine hp
  have hrl : s.lock r = some i := (hheld r).mpr (by simp [PC.held])
  have hkid := hi.kid
  have hpar := hi.par
  have hparLt := hi.parLt
  have hdead := hi.deadLt
  have hnr : n ≠ r := by rintro rfl; omega
  refine hi.next (i := i) ⟨Nat.le_refl _, fun _ _ => rfl, fun _ _ => rfl, fun _ _ => rfl, ?_, fun _ _ _ _ => Iff.rfl, ?_, ?_⟩
    (fun j hj => Function.update_of_ne hj ..) ?_ ?_ ?_ ?_
    ?_ hi.layLt hi.subLt ?_ ?_ ?_
    (hi.keeps (fun j hj => Function.update_of_ne hj ..) (fun _ _ => rfl) (by rw [hp]; rfl)) hi.lists
  · simp only [Function.update_apply]; grind
  · simp only [Function.update_apply]; grind
  · simp only [Function.update_apply]; grind
  · intro q
    simp only [Function.update_self, Function.update_apply]
    have := hheld q
    simp only [PC.held, List.mem_cons, List.not_mem_nil] at this ⊢
    grind
  · intro q j hj; simp only [Function.update_apply]; grind
  · intro q hq
    simp only [Function.update_apply] at hq
    refine hi.lockLt q i ?_
    grind
  · simp only [Function.update_apply, State.Live] at *; grind
  · simp only [Function.update_apply, State.Live] at *; grind
  · simp only [Function.update_apply, State.Live] at *; grind
  · simp only [Function.update_apply, State.Live] at *; grind
  · simp only [Function.update_self, State.Loc, Function.update_apply, State.Live] at *
    grind

theorem inv_gkill {key : Nat → Nat → Nat} {i : Nat} {s : State} (hi : Inv key s) (n r : Nat) (hp : s.pc i = .ggot n r)
    (hh : s.ht r = 0) (hr : s.parent r = none) :
    Inv key { s with
      sub := update s.sub n (fun x => s.sub n x ∧ x ≠ r)
      dead := update s.dead r True
      limbo := r :: s.limbo
      lock := update s.lock r none
      pc := update s.pc i (.hold n) } := by
  have hloc := hi.loc i
  rw [hp] at hloc
  obtain ⟨h1, h2, h3, h4⟩ := hloc
  have hheld := hi.mine hp
  have hrl : s.lock r = some i := (hheld r).mpr (by simp [PC.held])
  have hkid := hi.kid
  have hpar := hi.par
  have hparLt := hi.parLt
  have hsub := hi.subLt
  have hdead := hi.deadLt
  have hnr : n ≠ r := by rintro rfl; omega
  refine hi.next (i := i) ⟨Nat.le_refl _, fun _ _ => rfl, fun _ _ => rfl, fun _ _ => rfl, ?_, fun _ _ _ _ => Iff.rfl,
    fun _ _ _ h => h, fun _ _ _ _ h _ => h⟩
    (fun j hj => Function.update_of_ne hj ..) ?_ ?_ ?_ hi.parLt
    ?_ hi.layLt ?_ ?_ ?_ ?_
    (hi.keeps (fun j hj => Function.update_of_ne hj ..) (fun _ _ => rfl) (by rw [hp]; rfl)) hi.lists
  · simp only [Function.update_apply]; grind
  · intro q
    simp only [Function.update_self, Function.update_apply]
    have := hheld q
    simp only [PC.held, List.mem_cons, List.not_mem_nil] at this ⊢
    grind
  · intro q j hj; simp only [Function.update_apply]; grind
  · intro q hq
    simp only [Function.update_apply] at hq
    refine hi.lockLt q i ?_
    grind
  · simp only [Function.update_apply, State.Live] at *; grind
  · simp only [update2] at *; grind
  · simp only [Function.update_apply, State.Live] at *; grind
  · simp only [Function.update_apply, State.Live] at *; grind
  · simp only [Function.update_self, State.Loc, Function.update_apply, State.Live] at *
    grind

end Verif.LockOrder
