import Verif.LockOrder.OwnSteps

/-!
# New nodes and the second invariant
-/
namespace Verif.LockOrder

open Function (update)

variable {key : Nat → Nat → Nat} {i : Nat} {s : State}

theorem tree_twig (hi : Inv key s) (ht : Tree s) (n k : Nat) (hp : s.pc i = .hold n) :
    Tree { s with
      fresh := s.fresh + k + 1
      ht := fun x => if s.fresh ≤ x then 0 else s.ht x
      lay := fun x => if s.fresh ≤ x then x else s.lay x
      dep := fun l => if s.fresh ≤ l then s.dep (s.lay n) + 1 + (l - s.fresh) else s.dep l
      lock := update s.lock (s.fresh + k) (some i)
      sub := fun x r => s.sub x r ∨ (x = n ∧ r = s.fresh) ∨ (s.fresh ≤ x ∧ x < s.fresh + k ∧ r = x + 1)
      list := fun l => if s.fresh ≤ l then .init else s.list l
      pc := update s.pc i (.twig n (s.fresh + k)) } := by
  have hloc := hi.loc i
  rw [hp] at hloc
  obtain ⟨h1, h2⟩ := hloc
  have hn := h1.1
  have hnl : s.lock n = some i := (hi.mine hp n).mpr (by simp [PC.held])
  have h0 := ht.zero.1.1
  have hsub : ∀ x r, s.sub x r → x < s.fresh ∧ r < s.fresh ∧ s.lay r < s.fresh := fun x r h =>
    ⟨(hi.subLt x r h).1, (hi.subLt x r h).2.1, hi.layLt r (hi.subLt x r h).2.1⟩
  refine ht.grow hi (.twig n (s.fresh + k)) rfl ⟨by simp only; omega, ?_, ?_, fun _ _ _ => Iff.rfl, ?_, fun _ _ _ h => h⟩
    rfl rfl ?_ (fun _ _ => rfl) (by rw [hp]; rfl) ?_ ?_ ?_ ?_ ?_ ?_ trivial
  · intro x hx; simp only; rw [if_neg (by omega)]
  · intro x hx; simp only; rw [if_neg (by omega)]
  · intro x r hx hl
    simp only
    constructor
    · rintro (h | ⟨rfl, rfl⟩ | h)
      · exact h
      · exact absurd hnl hl
      · omega
    · exact .inl
  · simp only; rw [if_neg (by omega)]
  · intro x r h
    simp only [State.Live] at h ⊢
    rcases h with h | ⟨rfl, rfl⟩ | ⟨k1, k2, rfl⟩
    · obtain ⟨k1, k2⟩ := ht.subLive x r h
      rw [if_neg (by have := k1.1; omega)]
      exact ⟨⟨by have := k1.1; omega, k1.2⟩, k2⟩
    · rw [if_neg (by omega)]
      exact ⟨⟨by omega, h1.2⟩, h2⟩
    · rw [if_pos k1]
      exact ⟨⟨by omega, fun h => by have := hi.deadLt x h; omega⟩, rfl⟩
  · intro x r x' r' h h' e
    simp only at h h' e
    have hone := ht.subOne x r x' r'
    have hs := hsub x r
    have hs' := hsub x' r'
    grind
  · intro x r h
    simp only [State.Live] at h ⊢
    rcases h with h | ⟨rfl, rfl⟩ | ⟨k1, k2, rfl⟩
    · have := ht.subAlive x r h
      rw [if_neg (by have := hsub x r h; omega)]
      exact ⟨by have := this.1; omega, this.2⟩
    · rw [if_pos (Nat.le_refl _)]
      exact ⟨by omega, (hi.unused s.fresh (Nat.le_refl _)).2.2.1⟩
    · rw [if_pos (by omega)]
      exact ⟨by omega, fun h => by have := hi.deadLt _ h; omega⟩
  · intro a b k1 k2 k3 k4 k5 _ _ k6 k7
    have hla := hi.layLt a
    have hlb := hi.layLt b
    have htop := ht.top a b
    rw [loose_split i, loose_split (a := b) i, show (s.pc i).loose = none by rw [hp]; rfl] at htop
    replace htop := fun e1 e2 e3 e4 e5 e6 e7 => htop e1 e2 e3 e4 e5 ⟨e6, k6⟩ ⟨e7, k7⟩
    simp only [State.Live] at *
    grind
  · intro q h h'
    left
    simp only
    rw [if_pos h, if_pos h]
    exact ⟨rfl, rfl⟩
  · intro l h1 h2 h3
    simp only at h1 h2 ⊢
    by_cases hl : l < s.fresh
    · rw [if_neg (by omega)] at h2
      obtain ⟨m, x, h4, h5⟩ := ht.owned l ⟨hl, h1.2⟩ h2 h3
      exact ⟨m, x, .inl h4, by rw [if_neg (by have := hsub m x h4; omega)]; exact h5⟩
    · have := h1.1
      by_cases e : l = s.fresh
      · exact ⟨n, l, .inr (.inl ⟨rfl, e⟩), by rw [if_pos (by omega)]⟩
      · exact ⟨l - 1, l, .inr (.inr ⟨by omega, by simp only at this; omega, by omega⟩), by rw [if_pos (by omega)]⟩

theorem tree_split (hi : Inv key s) (ht : Tree s) (n : Nat) (f : Nat → Bool) (L : Leaflink.State) (hp : s.pc i = .hold n) :
    Tree { s with
      fresh := s.fresh + 1
      ht := update s.ht s.fresh 0
      lay := update s.lay s.fresh (s.lay n)
      lock := update s.lock s.fresh (some i)
      sub := update (update s.sub n (fun r => s.sub n r ∧ f r = false)) s.fresh (fun r => s.sub n r ∧ f r = true)
      list := update s.list (s.lay n) L
      pc := update s.pc i (.link n s.fresh) } := by
  have hloc := hi.loc i
  rw [hp] at hloc
  obtain ⟨h1, h2⟩ := hloc
  have hn := h1.1
  have hnl : s.lock n = some i := (hi.mine hp n).mpr (by simp [PC.held])
  have h0 := ht.zero.1.1
  have hsub : ∀ x r, s.sub x r → x < s.fresh ∧ r < s.fresh ∧ s.lay r < s.fresh := fun x r h =>
    ⟨(hi.subLt x r h).1, (hi.subLt x r h).2.1, hi.layLt r (hi.subLt x r h).2.1⟩
  obtain ⟨u1, u2, u3, u4, u5, u6⟩ := hi.unused s.fresh (Nat.le_refl _)
  have hlay : ∀ x, x < s.fresh → update s.lay s.fresh (s.lay n) x = s.lay x := fun x hx =>
    Function.update_of_ne (by omega) ..
  have hht : ∀ x, x < s.fresh → update s.ht s.fresh 0 x = s.ht x := fun x hx =>
    Function.update_of_ne (by omega) ..
  have hlive := ht.subLive
  have hone := ht.subOne
  have halive := ht.subAlive
  refine ht.grow hi (.link n s.fresh) rfl ⟨Nat.le_succ _, hht, hlay, fun _ _ _ => Iff.rfl, ?_, fun _ _ _ h => h⟩
    rfl rfl rfl (fun _ _ => rfl) (by rw [hp]; rfl) ?_ ?_ ?_ ?_ ?_ ?_ trivial
  · simp only [update2]; grind
  · simp only [update2, State.Live, Function.update_apply] at *; grind
  · simp only [update2, Function.update_apply] at *; grind
  · simp only [update2, Function.update_apply, State.Live] at *; grind
  · intro a b k1 k2 k3 k4 k5 k8 k9 k6 k7
    change some s.fresh ≠ some _ at k8 k9
    have htop := ht.top a b
    rw [loose_split i, loose_split (a := b) i, show (s.pc i).loose = none by rw [hp]; rfl] at htop
    replace htop := fun e1 e2 e3 e4 e5 e6 e7 => htop e1 e2 e3 e4 e5 ⟨e6, k6⟩ ⟨e7, k7⟩
    simp only [State.Live, Function.update_apply] at *
    grind
  · intro q h h'
    have : q = s.fresh := by simp only at h'; omega
    subst this
    exact .inr ⟨n, h1, by simp only; rw [Function.update_self]⟩
  · intro l k1 k2 k3
    have hl : l < s.fresh := by
      have := hi.layLt n hn
      simp only [State.Live, Function.update_apply] at *
      grind
    simp only at k2
    rw [hlay l hl] at k2
    obtain ⟨m, x, h4, h5⟩ := ht.owned l ⟨hl, k1.2⟩ k2 k3
    obtain ⟨g1, g2, _⟩ := hsub m x h4
    simp only [update2]
    by_cases hm : m = n ∧ f x = true
    · exact ⟨s.fresh, x, by rw [if_pos rfl]; exact ⟨hm.1 ▸ h4, hm.2⟩, by rw [hlay x g2, h5]⟩
    · refine ⟨m, x, ?_, by rw [hlay x g2, h5]⟩
      rw [if_neg (by omega)]
      split
      · rename_i e
        exact ⟨e ▸ h4, by simpa [e] using hm⟩
      · exact h4

/-- What `newRoot`, `between`, `insert` and `divide` have in common: the layer pointers stay. -/
theorem Tree.node {s' : State} (hi : Inv key s) (ht : Tree s) (n : Nat) (pc : PC) (hn : s.Live n)
    (hpc : s'.pc = update s.pc i pc) (hf : s'.fresh = s.fresh ∨ s'.fresh = s.fresh + 1)
    (hht : ∀ x, x < s.fresh → s'.ht x = s.ht x) (hlay : ∀ x, x < s.fresh → s'.lay x = s.lay x)
    (hnew : s'.fresh = s.fresh + 1 → s'.lay s.fresh = s.lay n)
    (hsub : s'.sub = s.sub) (hdead : s'.dead = s.dead) (hlimbo : s'.limbo = s.limbo) (hdep : s'.dep = s.dep)
    (hpar : ∀ x, s.dead x → s'.parent x = s.parent x)
    (hpar' : ∀ x, s.parent x ≠ none → s'.parent x ≠ none)
    (hgo : (s.pc i).going = none) (hgo' : pc.going = none)
    (top : ∀ a b, s'.Live a → s'.Live b → s'.parent a = none → s'.parent b = none → s'.lay a = s'.lay b →
      pc.loose ≠ some a → pc.loose ≠ some b → (∀ j, j ≠ i → (s.pc j).loose ≠ some a) →
      (∀ j, j ≠ i → (s.pc j).loose ≠ some b) → a = b)
    (own : s'.Own pc) : Tree s' := by
  have h0 := ht.zero.1.1
  have hle : s.fresh ≤ s'.fresh := by omega
  have hlive : ∀ x, s.Live x → s'.Live x := fun x h => ⟨Nat.lt_of_lt_of_le h.1 hle, hdead ▸ h.2⟩
  refine ht.grow hi pc hpc ⟨hle, hht, hlay, fun _ _ _ => by rw [hdead], fun _ _ _ _ => by rw [hsub], fun x _ _ h => hpar' x h⟩
    hdead hlimbo (by rw [hdep]) hpar (by rw [hgo, hgo']) ?_ ?_ ?_ top ?_ ?_ own
  · intro x r h
    rw [hsub] at h
    obtain ⟨h1, h2⟩ := ht.subLive x r h
    exact ⟨hlive x h1, by rw [hht x h1.1]; exact h2⟩
  · intro x r x' r' h h' e
    rw [hsub] at h h'
    rw [hlay _ (hi.subLt x r h).2.1, hlay _ (hi.subLt x' r' h').2.1] at e
    exact ht.subOne x r x' r' h h' e
  · intro x r h
    rw [hsub] at h
    rw [hlay _ (hi.subLt x r h).2.1]
    exact hlive _ (ht.subAlive x r h)
  · intro q h h'
    have : q = s.fresh := by omega
    subst this
    exact .inr ⟨n, hn, hnew (by omega)⟩
  · intro l k1 k2 k3
    have hl : l < s.fresh := by
      by_contra hl
      have hln := hi.layLt n hn.1
      have e : l = s.fresh := by have := k1.1; omega
      subst e
      have := hnew (by have := k1.1; omega)
      omega
    rw [hlay l hl] at k2
    obtain ⟨m, x, h4, h5⟩ := ht.owned l ⟨hl, hdead ▸ k1.2⟩ k2 k3
    exact ⟨m, x, hsub ▸ h4, by rw [hlay x (hi.subLt m x h4).2.1, h5]⟩

/-- The left half of a split is not loose. -/
theorem Tree.left (hi : Inv key s) (ht : Tree s) {n c : Nat} (hn : s.lock n = some i) (hc : (s.pc i).loose = some c)
    (hne : n ≠ c) (j : Nat) : (s.pc j).loose ≠ some n := by
  intro hj
  have := (ht.loose hi hj).1
  rw [hn] at this
  cases this
  rw [hc] at hj
  cases hj
  exact hne rfl

theorem tree_insert (hi : Inv key s) (ht : Tree s) (p n c : Nat) (t : Option Nat) (h : Nat)
    (hp : s.pc i = .mod p n c t h) :
    Tree { s with
      parent := update s.parent c (some p)
      kids := update s.kids p (fun q => s.kids p q ∨ q = c)
      pc := update s.pc i (.fin (some p) none n c t h) } := by
  obtain ⟨hH, hL, h2, h3, h4, h5⟩ := hi.mod hp
  obtain ⟨g1, g2, g3, g4, g5, g6, g7, g8⟩ := hH
  refine ht.node hi n (.fin (some p) none n c t h) g1 rfl (.inl rfl) (fun _ _ => rfl) (fun _ _ => rfl)
    (fun h => absurd h (by simp)) rfl rfl rfl rfl ?_ ?_ (by rw [hp]; rfl) rfl ?_ trivial
  · intro x hx
    exact Function.update_of_ne (by rintro rfl; exact g2.2 hx) ..
  · intro x hx; simp only [Function.update_apply]; split <;> simp [hx]
  · intro a b k1 k2 k3 k4 k5 k8 k9 k6 k7
    change none ≠ some _ at k8 k9
    have htop := ht.top a b
    rw [loose_split i, loose_split (a := b) i, show (s.pc i).loose = some c by rw [hp]; rfl] at htop
    replace htop := fun e1 e2 e3 e4 e5 e6 e7 => htop e1 e2 e3 e4 e5 ⟨e6, k6⟩ ⟨e7, k7⟩
    simp only [Function.update_apply] at k3 k4
    have ha : c ≠ a := by rintro rfl; simp at k3
    have hb : c ≠ b := by rintro rfl; simp at k4
    exact htop k1 k2 (by simpa [ha.symm] using k3) (by simpa [hb.symm] using k4) k5 (by simpa using ha) (by simpa using hb)

theorem tree_newRoot (hi : Inv key s) (ht : Tree s) (n c : Nat) (t : Option Nat) (h : Nat)
    (hp : s.pc i = .par n c t h) (hn : s.parent n = none) :
    Tree { s with
      fresh := s.fresh + 1
      ht := update s.ht s.fresh (h + 1)
      lay := update s.lay s.fresh (s.lay n)
      parent := update (update s.parent c (some s.fresh)) n (some s.fresh)
      kids := update s.kids s.fresh (fun q => q = n ∨ q = c)
      pc := update s.pc i (.fin none none n c t h) } := by
  have hH := hi.loc i
  rw [hp] at hH
  have hnl : s.lock n = some i := (hi.mine hp n).mpr (by simp [PC.held])
  obtain ⟨g1, g2, g3, g4, g5, g6, g7, g8⟩ := hH
  have hleft := ht.left hi (c := c) hnl (by rw [hp]; rfl) g3
  refine ht.node hi n (.fin none none n c t h) g1 rfl (.inr rfl) (fun x hx => Function.update_of_ne (by omega) ..)
    (fun x hx => Function.update_of_ne (by omega) ..) (fun _ => Function.update_self ..) rfl rfl rfl rfl ?_ ?_ (by rw [hp]; rfl)
    rfl ?_ trivial
  · intro x hx
    have := g1.2
    have := g2.2
    simp only [Function.update_apply]
    grind
  · intro x hx; simp only [Function.update_apply]; grind
  · intro a b k1 k2 k3 k4 k5 k8 k9 k6 k7
    change none ≠ some _ at k8 k9
    have htop := ht.top
    have e : (s.pc i).loose = some c := by rw [hp]; rfl
    have ha := fun e1 e1' e2 e2' e3 e4 e5 (e6 : c ≠ a) (e7 : c ≠ b) => htop a b ⟨e1, e1'⟩ ⟨e2, e2'⟩ e3 e4 e5 ((loose_split i).mpr ⟨by rw [e]; simpa using e6, k6⟩)
      ((loose_split i).mpr ⟨by rw [e]; simpa using e7, k7⟩)
    have hb := fun e1 e1' e2 e3 e4 e5 (e6 : c ≠ a) => htop a n ⟨e1, e1'⟩ e2 e3 e4 e5 ((loose_split i).mpr ⟨by rw [e]; simpa using e6, k6⟩) hleft
    have hc := fun e1 e1' e2 e3 e4 e5 (e6 : c ≠ b) => htop b n ⟨e1, e1'⟩ e2 e3 e4 e5 ((loose_split i).mpr ⟨by rw [e]; simpa using e6, k7⟩) hleft
    clear htop
    have := g1.1
    simp only [State.Live, Function.update_apply] at *
    grind

theorem tree_between (hi : Inv key s) (ht : Tree s) (p n c : Nat) (t : Option Nat) (h : Nat)
    (hp : s.pc i = .mod p n c t h) :
    Tree { s with
      fresh := s.fresh + 1
      ht := update s.ht s.fresh (h + 1)
      lay := update s.lay s.fresh (s.lay n)
      parent := update (update (update s.parent c (some s.fresh)) s.fresh (some p)) n (some s.fresh)
      kids := update (update s.kids p (fun q => (s.kids p q ∧ q ≠ n) ∨ q = s.fresh)) s.fresh (fun q => q = n ∨ q = c)
      pc := update s.pc i (.fin (some p) none n c t h) } := by
  obtain ⟨hH, hL, h2, h3, h4, h5⟩ := hi.mod hp
  obtain ⟨g1, g2, g3, g4, g5, g6, g7, g8⟩ := hH
  have hdead := hi.deadLt
  refine ht.node hi n (.fin (some p) none n c t h) g1 rfl (.inr rfl) (fun x hx => Function.update_of_ne (by omega) ..)
    (fun x hx => Function.update_of_ne (by omega) ..) (fun _ => Function.update_self ..) rfl rfl rfl rfl ?_ ?_ (by rw [hp]; rfl)
    rfl ?_ trivial
  · intro x hx
    have := g1.2
    have := g2.2
    have := hdead x hx
    simp only [Function.update_apply]
    grind
  · intro x hx; simp only [Function.update_apply]; grind
  · intro a b k1 k2 k3 k4 k5 k8 k9 k6 k7
    change none ≠ some _ at k8 k9
    have htop := ht.top a b
    rw [loose_split i, loose_split (a := b) i, show (s.pc i).loose = some c by rw [hp]; rfl] at htop
    replace htop := fun e1 e1' e2 e2' e3 e4 e5 (e6 : c ≠ a) (e7 : c ≠ b) =>
      htop ⟨e1, e1'⟩ ⟨e2, e2'⟩ e3 e4 e5 ⟨by simpa using e6, k6⟩ ⟨by simpa using e7, k7⟩
    simp only [State.Live, Function.update_apply] at *
    grind

theorem tree_divide (hi : Inv key s) (ht : Tree s) (p n c : Nat) (t : Option Nat) (h : Nat) (D : Nat → Bool)
    (hp : s.pc i = .mod p n c t h) (hD : ∀ q, D q = true → s.kids p q ∨ q = c) :
    Tree { s with
      fresh := s.fresh + 1
      ht := update s.ht s.fresh (h + 1)
      lay := update s.lay s.fresh (s.lay n)
      lock := update s.lock s.fresh (some i)
      parent := fun q => if D q then some s.fresh else if q = c then some p else s.parent q
      kids := update (update s.kids p (fun q => (s.kids p q ∨ q = c) ∧ D q = false)) s.fresh (fun q => D q = true)
      pc := update s.pc i (.fin (some p) (some s.fresh) n c t h) } := by
  obtain ⟨hH, hL, h2, h3, h4, h5⟩ := hi.mod hp
  obtain ⟨g1, g2, g3, g4, g5, g6, g7, g8⟩ := hH
  have hkid := hi.kid p
  refine ht.node hi n (.fin (some p) (some s.fresh) n c t h) g1 rfl (.inr rfl) (fun x hx => Function.update_of_ne (by omega) ..)
    (fun x hx => Function.update_of_ne (by omega) ..) (fun _ => Function.update_self ..) rfl rfl rfl rfl ?_ ?_ (by rw [hp]; rfl)
    rfl ?_ trivial
  · intro x hx
    have := g2.2
    have := hD x
    have := hkid x
    simp only [State.Live] at *
    grind
  · intro x hx; simp only; grind
  · intro a b k1 k2 k3 k4 k5 k8 k9 k6 k7
    change some s.fresh ≠ some _ at k8 k9
    have htop := ht.top a b
    rw [loose_split i, loose_split (a := b) i, show (s.pc i).loose = some c by rw [hp]; rfl] at htop
    replace htop := fun e1 e1' e2 e2' e3 e4 e5 (e6 : c ≠ a) (e7 : c ≠ b) =>
      htop ⟨e1, e1'⟩ ⟨e2, e2'⟩ e3 e4 e5 ⟨by simpa using e6, k6⟩ ⟨by simpa using e7, k7⟩
    simp only [State.Live, Function.update_apply] at *
    grind

end Verif.LockOrder
