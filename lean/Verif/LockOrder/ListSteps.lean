import Verif.LockOrder.Heavy

/-!
# Steps that change the leaf lists
-/
namespace Verif.LockOrder

open Function (update)

theorem inv_twig {key : Nat → Nat → Nat} {i : Nat} {s : State} (hi : Inv key s) (n k : Nat) (hp : s.pc i = .hold n) :
    Inv key { s with
      fresh := s.fresh + k + 1
      ht := fun x => if s.fresh ≤ x then 0 else s.ht x
      lay := fun x => if s.fresh ≤ x then x else s.lay x
      dep := fun l => if s.fresh ≤ l then s.dep (s.lay n) + 1 + (l - s.fresh) else s.dep l
      lock := update s.lock (s.fresh + k) (some i)
      sub := fun x r => s.sub x r ∨ (x = n ∧ r = s.fresh) ∨ (s.fresh ≤ x ∧ x < s.fresh + k ∧ r = x + 1)
      list := fun l => if s.fresh ≤ l then .init else s.list l
      pc := update s.pc i (.twig n (s.fresh + k)) } := by
  have hloc := hi.loc i
  rw [hp] at hloc
  obtain ⟨h1, h2⟩ := hloc
  have hn := h1.1
  have hln := hi.layLt n hn
  have hheld := hi.mine hp
  have hkid := hi.kid
  have hun := hi.unused
  have hlk := (hun (s.fresh + k) (by omega)).1
  refine hi.next (i := i) ⟨by simp only; omega, ?_, ?_, ?_, fun _ _ _ => Iff.rfl,
    fun _ _ _ _ => Iff.rfl, fun _ _ _ h => h, fun _ _ _ _ h _ => h⟩
    (fun j hj => Function.update_of_ne hj ..) ?_ ?_ ?_ ?_ ?_ ?_ ?_ ?_ hi.par ?_ ?_ ?_
  · intro x hx; simp only; rw [if_neg (by omega)]
  · intro x hx; simp only; rw [if_neg (by omega)]
  · intro x hx; simp only; rw [if_neg (by omega)]
  · intro q
    simp only [Function.update_self, Function.update_apply]
    have := hheld q
    simp only [PC.held, List.mem_cons, List.not_mem_nil] at this ⊢
    grind
  · intro q j hj; simp only [Function.update_apply]; grind
  · intro q hq
    simp only [Function.update_apply] at hq
    have := hi.lockLt q i
    simp only
    grind
  · intro q p hq
    obtain ⟨h1, h2, h3⟩ := hi.parLt q p hq
    simp only
    rw [if_neg (by omega), if_neg (by omega)]
    exact ⟨by omega, by omega, h3⟩
  · intro q hq; have := hi.deadLt q hq; simp only; omega
  · intro q hq
    have := hi.layLt q
    simp only at hq ⊢
    split <;> omega
  · intro x r hr
    simp only at hr ⊢
    rcases hr with hr | ⟨rfl, rfl⟩ | ⟨k1, k2, rfl⟩
    · obtain ⟨h1, h2, h3⟩ := hi.subLt x r hr
      have k1 := hi.layLt x h1
      have k2 := hi.layLt r h2
      simp only [if_neg (Nat.not_le.mpr h1), if_neg (Nat.not_le.mpr h2), if_neg (Nat.not_le.mpr k1), if_neg (Nat.not_le.mpr k2)]
      exact ⟨by omega, by omega, h3⟩
    · simp only [Nat.le_refl, if_true, if_neg (Nat.not_le.mpr hn), if_neg (Nat.not_le.mpr hln)]
      omega
    · simp only [if_pos k1, if_pos (show s.fresh ≤ x + 1 by omega)]
      omega
  · intro p c hc
    obtain ⟨h1, h2, h3, h4⟩ := hkid p c hc
    have := h1.1
    have := h2.1
    refine ⟨⟨by simp only; omega, h1.2⟩, ⟨by simp only; omega, h2.2⟩, h3, ?_⟩
    simp only
    rw [if_neg (by omega), if_neg (by omega)]
    exact h4
  · simp only [Function.update_self]
    refine ⟨⟨by simp only; omega, h1.2⟩, ?_, ⟨by simp only; omega, (hun (s.fresh + k) (by omega)).2.2.1⟩, ?_, by omega⟩
    · simp only; rw [if_neg (by omega)]; exact h2
    · simp only; rw [if_pos (by omega)]
  · intro l m hm
    simp only at hm
    split at hm
    · exact absurd rfl hm
    · exact hi.keeps (s' := { s with
        fresh := s.fresh + k + 1
        ht := fun x => if s.fresh ≤ x then 0 else s.ht x
        lay := fun x => if s.fresh ≤ x then x else s.lay x
        dep := fun l => if s.fresh ≤ l then s.dep (s.lay n) + 1 + (l - s.fresh) else s.dep l
        lock := update s.lock (s.fresh + k) (some i)
        sub := fun x r => s.sub x r ∨ (x = n ∧ r = s.fresh) ∨ (s.fresh ≤ x ∧ x < s.fresh + k ∧ r = x + 1)
        list := fun l => if s.fresh ≤ l then .init else s.list l
        pc := update s.pc i (.twig n (s.fresh + k)) }) (fun j hj => Function.update_of_ne hj ..)
        (fun x hx => by simp only; rw [if_neg (by omega)]) (by rw [hp]; rfl) l m hm
  · intro l
    simp only
    split
    · exact .init
    · exact hi.lists l

/-- The operation of `n` starts or goes on. -/
theorem Inv.works {key : Nat → Nat → Nat} {i : Nat} {s s' : State} (hi : Inv key s) (n : Nat) (L : Leaflink.State)
    (hpc : ∀ j, j ≠ i → s'.pc j = s.pc j) (hlay : ∀ x, x < s.fresh → s'.lay x = s.lay x) (hn : n < s.fresh)
    (hl : (s.pc i).listing = none ∨ (s.pc i).listing = some n) (hl' : (s'.pc i).listing = some n)
    (hL : ∀ x, x ≠ s.lid n → L.op x = (s.list (s.lay n)).op x) (hs : s'.list = update s.list (s.lay n) L)
    (l m : Nat) (h : (s'.list l).op m ≠ .idle) : ∃ i n, (s'.pc i).listing = some n ∧ s'.lay n = l ∧ s'.lid n = m := by
  by_cases hm : l = s.lay n ∧ m = s.lid n
  · refine ⟨i, n, hl', by rw [hlay n hn, hm.1], ?_⟩
    simp only [State.lid, hlay n hn]
    exact hm.2.symm
  · have h0 : (s.list l).op m ≠ .idle := by
      rw [hs, Function.update_apply] at h
      split at h
      · rename_i e
        rw [hL m fun e' => hm ⟨e, e'⟩] at h
        exact e ▸ h
      · exact h
    obtain ⟨j, n', h1, h2, h3⟩ := hi.busy l m h0
    have hj : j ≠ i := by
      rintro rfl
      rcases hl with hl | hl
      · rw [hl] at h1; cases h1
      · rw [hl] at h1; cases h1
        exact hm ⟨h2.symm, h3.symm⟩
    have := hi.listing h1
    refine ⟨j, n', hpc j hj ▸ h1, (hlay n' this).trans h2, ?_⟩
    simp only [State.lid, hlay n' this]
    exact h3

theorem Inv.reach {key : Nat → Nat → Nat} {s : State} (hi : Inv key s) (l : Nat) (L : Leaflink.State)
    (hL : Leaflink.Step (key l) (s.list l) L) (m : Nat) : Leaflink.Reachable (key m) (update s.list l L m) := by
  rw [Function.update_apply]
  split
  · rename_i h
    subst h
    exact .step (hi.lists m) hL
  · exact hi.lists m

theorem inv_split {key : Nat → Nat → Nat} {i : Nat} {s : State} (hi : Inv key s) (n : Nat) (f : Nat → Bool)
    (L : Leaflink.State) (hp : s.pc i = .hold n)
    (hL : Starts (key (s.lay n)) (s.lid n) (.s0 s.fresh) (s.list (s.lay n)) L) :
    Inv key { s with
      fresh := s.fresh + 1
      ht := update s.ht s.fresh 0
      lay := update s.lay s.fresh (s.lay n)
      lock := update s.lock s.fresh (some i)
      sub := update (update s.sub n (fun r => s.sub n r ∧ f r = false)) s.fresh (fun r => s.sub n r ∧ f r = true)
      list := update s.list (s.lay n) L
      pc := update s.pc i (.link n s.fresh) } := by
  have hloc := hi.loc i
  rw [hp] at hloc
  obtain ⟨h1, h2⟩ := hloc
  have hn := h1.1
  have hheld := hi.mine hp
  obtain ⟨u1, u2, u3, u4, u5, u6⟩ := hi.unused s.fresh (Nat.le_refl _)
  have hlay : ∀ x, x < s.fresh → update s.lay s.fresh (s.lay n) x = s.lay x := fun x hx =>
    Function.update_of_ne (by omega) ..
  have hht : ∀ x, x < s.fresh → update s.ht s.fresh 0 x = s.ht x := fun x hx =>
    Function.update_of_ne (by omega) ..
  refine hi.next (i := i) ⟨Nat.le_succ _, hht, hlay, fun _ _ => rfl, fun _ _ _ => Iff.rfl,
    fun _ _ _ _ => Iff.rfl, fun _ _ _ h => h, fun _ _ _ _ h _ => h⟩
    (fun j hj => Function.update_of_ne hj ..) ?_ ?_ ?_ ?_ ?_ (hi.layNew hn) ?_ ?_ hi.par ?_
    (hi.works (i := i) n L (fun j hj => Function.update_of_ne hj ..) hlay hn (.inl (by rw [hp]; rfl))
      (by simp only [Function.update_self]; rfl) hL.others rfl) (hi.reach _ L hL.step)
  · intro q
    simp only [Function.update_self, Function.update_apply]
    have := hheld q
    simp only [PC.held, List.mem_cons, List.not_mem_nil] at this ⊢
    grind
  · intro q j hj; simp only [Function.update_apply]; grind
  · intro q hq
    simp only [Function.update_apply] at hq
    have := hi.lockLt q i
    simp only
    grind
  · intro q p hq
    obtain ⟨h1, h2, h3⟩ := hi.parLt q p hq
    simp only
    rw [hlay p h1, hlay q h2]
    exact ⟨by omega, by omega, h3⟩
  · intro q hq; have := hi.deadLt q hq; simp only; omega
  · intro x r hr
    simp only [update2] at hr ⊢
    split at hr
    · rename_i e
      obtain ⟨k1, k2, k3⟩ := hi.subLt n r hr.1
      subst e
      rw [Function.update_self, hlay r k2]
      exact ⟨by omega, by omega, k3⟩
    · refine hi.subNew _ x r ?_
      split at hr
      · rename_i e; exact e ▸ hr.1
      · exact hr
  · intro p c hc
    obtain ⟨h1, h2, h3, h4⟩ := hi.kid p c hc
    have := h1.1
    have := h2.1
    refine ⟨⟨by simp only; omega, h1.2⟩, ⟨by simp only; omega, h2.2⟩, h3, ?_⟩
    simp only
    rw [hht p h1.1, hht c h2.1]
    exact h4
  · simp only [Function.update_self]
    refine ⟨⟨by simp only; omega, h1.2⟩, ⟨by simp only; omega, u3⟩, by omega, ?_, ?_, ?_, u2, rfl⟩
    · simp only; rw [hht n hn, h2]
    · simp only [Function.update_self]
    · simp only; rw [Function.update_self, hlay n hn]

theorem inv_move {key : Nat → Nat → Nat} {i : Nat} {s : State} (hi : Inv key s) (n : Nat)
    (L : Leaflink.State) (hp : s.pc i = .unl n ∨ ∃ c, s.pc i = .link n c)
    (hL : Moves (key (s.lay n)) (s.lid n) (s.list (s.lay n)) L) :
    Inv key { s with list := update s.list (s.lay n) L } := by
  have hl : (s.pc i).listing = some n := by
    rcases hp with hp | ⟨c, hp⟩ <;> rw [hp] <;> rfl
  have f : Frame (fun _ => False) s { s with list := update s.list (s.lay n) L } :=
    ⟨Nat.le_refl _, fun _ _ => rfl, fun _ _ => rfl, fun _ _ => rfl, fun _ _ _ => Iff.rfl,
    fun _ _ _ _ => Iff.rfl, fun _ _ _ h => h, fun _ _ _ _ h _ => h⟩
  exact ⟨hi.held, hi.lockLt, hi.parLt, hi.deadLt, hi.layLt, hi.subLt, hi.kid, hi.par,
    fun j => f.loc (hi.loc j) (fun _ _ h => h) hi.layLt hi.parLt,
    hi.works (i := i) n L (fun _ _ => rfl) (fun _ _ => rfl) (hi.listing hl) (.inr hl) hl hL.others rfl,
    hi.reach _ L hL.step⟩

theorem inv_remove {key : Nat → Nat → Nat} {i : Nat} {s : State} (hi : Inv key s) (n : Nat)
    (L : Leaflink.State) (hp : s.pc i = .hold n) (hL : Starts (key (s.lay n)) (s.lid n) .u1 (s.list (s.lay n)) L) :
    Inv key { s with limbo := n :: s.limbo, list := update s.list (s.lay n) L, pc := update s.pc i (.unl n) } := by
  have hloc := hi.loc i
  rw [hp] at hloc
  refine hi.next (i := i) ⟨Nat.le_refl _, fun _ _ => rfl, fun _ _ => rfl, fun _ _ => rfl, fun _ _ _ => Iff.rfl,
    fun _ _ _ _ => Iff.rfl, fun _ _ _ h => h, fun _ _ _ _ h _ => h⟩
    (fun j hj => Function.update_of_ne hj ..) ?_ (fun _ _ _ => Iff.rfl) (fun q hq => hi.lockLt q i hq) hi.parLt hi.deadLt hi.layLt
    hi.subLt hi.kid hi.par ?_
    (hi.works (i := i) n L (fun j hj => Function.update_of_ne hj ..) (fun _ _ => rfl) hloc.1.1 (.inl (by rw [hp]; rfl))
      (by simp only [Function.update_self]; rfl) hL.others rfl) (hi.reach _ L hL.step)
  · intro q
    simp only [Function.update_self]
    rw [hi.mine hp]
    simp [PC.held]
  · simp only [Function.update_self]
    exact hloc

end Verif.LockOrder
