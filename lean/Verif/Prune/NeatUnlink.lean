import Verif.Prune.NeatHush

/-!
# Unlinking a leaf, and deleting an internode
-/
namespace Verif.Prune

variable {G : Type} {up : List Nat → Nat → Nat}

/-- Some child is responsible. -/
theorem Links.cover {lo elo bd : Nat → Nat} {e h v : Nat} {K : List Nat} {C : List (Option Nat)} (hl : Links lo elo bd e K C h)
    (h1 : e ≤ v) (h2 : v < h) : ∃ c, Option.some c ∈ C ∧ elo c ≤ v ∧ v < bd c := by
  revert h1 h2
  refine Links.rec' (P := fun e _ C h => e ≤ v → v < h → ∃ c, Option.some c ∈ C ∧ elo c ≤ v ∧ v < bd c)
    (fun _ h1 h2 => by omega) (fun z K c C h _ _ _ _ ih h1 h2 => ?_) hl
  by_cases h3 : v < bd c
  · exact ⟨c, by simp, h1, h3⟩
  · obtain ⟨d, h4, h5⟩ := ih (by omega) h2
    exact ⟨d, List.mem_cons_of_mem _ h4, h5⟩

theorem Node.cover {lo elo bd : Nat → Nat} {l e h v : Nat} {K : List Nat} {D : List (Option Nat)} (hl : Node lo elo bd l e h K D)
    (h1 : e ≤ v) (h2 : v < h) : ∃ c, some c ∈ D ∧ elo c ≤ v ∧ v < bd c := by
  match D, hl with
  | some c :: C, hl =>
    have := hl.1
    by_cases h3 : v < bd c
    · exact ⟨c, by simp, by omega, h3⟩
    · obtain ⟨d, h4, h5⟩ := hl.2.2.cover (by omega) h2
      exact ⟨d, List.mem_cons_of_mem _ h4, h5⟩
  | .none :: C, hl =>
    obtain ⟨d, h4, h5⟩ := Links.cover hl h1 h2
    exact ⟨d, List.mem_cons_of_mem _ h4, h5⟩

/-- Some leaf below is responsible. -/
theorem leaf_below {s : State G} (h : Inv s) (hf : ∀ n, n < s.fresh → s.bd n = s.hi n) (hr : ∃ rk, s.Ranked rk) {n : Nat}
    (hln : s.leaf n = true)
    (hal : ∀ p q, p < s.fresh → s.leaf p = false → some q ∈ s.kids p → s.dead q = false ∨ q = n) {m v : Nat} (hm : m < s.fresh)
    (hd : s.dead m = false ∨ m = n) (h1 : s.elo m ≤ v) (h2 : v < s.bd m) :
    ∃ l, l < s.fresh ∧ s.leaf l = true ∧ s.gone l = false ∧ Anc s.parent l m ∧ s.lo l ≤ v ∧ v < s.hi l := by
  obtain ⟨rk, hr⟩ := hr
  generalize hk : rk m = k
  induction k using Nat.strongRecOn generalizing m with
  | ind k ih =>
    cases hl : s.leaf m with
    | true =>
      have hg : s.gone m = false := by
        cases hg : s.gone m with
        | false => rfl
        | true => have := (h.gone m hm hg).2.2; omega
      have := h.live m hm hl hg
      have := hf m hm
      exact ⟨m, hm, hl, hg, .refl, by omega, by omega⟩
    | false =>
      have hd' : s.dead m = false := by
        rcases hd with hd | rfl
        · exact hd
        · rw [hln] at hl; cases hl
      have := hf m hm
      obtain ⟨c, c1, c2, c3⟩ := (h.node m hm hl hd').cover (v := v) h1 (by omega)
      obtain ⟨c4, c5⟩ := h.kid m c hm hl c1
      have := hr.1 c m c4 c5
      obtain ⟨l, l1, l2, l3, l4, l5⟩ := ih (rk c) (by omega) c4 (hal m c hm hl c1) c2 c3 rfl
      exact ⟨l, l1, l2, l3, .up l4 c5, l5⟩

/-- The nodes on the way up are there. -/
theorem State.Tree.way {s : State G} {x : PC G} (h : Inv s) (ht : s.Tree x) (hr : x.Repl = none) {m : Nat} (hm : m < s.fresh)
    (hd : s.dead m = false ∨ x.Mid = some m) {a : Nat} (ha : Anc s.parent m a) :
    (s.dead a = false ∨ x.Mid = some a) ∧ ∀ q, s.parent a = some q → some a ∈ s.kids q := by
  have key : s.dead a = false ∨ x.Mid = some a := by
    induction ha with
    | refl => exact hd
    | up ha hq ih =>
      obtain ⟨q1, q2, _⟩ := h.parent _ _ (ha.lt h hm) hq
      exact Or.inl (h.has q1 q2 (ht.sub _ _ (ha.lt h hm) hq ih (by rw [hr]; simp)))
  exact ⟨key, fun q hq => ht.sub a q (ha.lt h hm) hq key (by rw [hr]; simp)⟩

theorem neat_unlink {s : State G} (h : Inv s) (hl : Lone s) (hn : Neat s) (i n q : Nat) (hp : s.pc i = .ulk n) :
    Neat ((s.unlink q n).to i (.rpar n none (s.lo n))) := by
  have h1 : (s.pc i).Removing := by rw [hp]; trivial
  obtain ⟨ht, _⟩ := hn.task i h1
  have hloc := h.loc i
  rw [hp] at ht hloc
  obtain ⟨l1, l2, l3, l4, l5, l6, l7⟩ := hloc
  have hf : ∀ n, n < s.fresh → s.bd n = s.hi n := fun n hn => hl.flat h h1 hn
  obtain ⟨e1, e2, e3⟩ := h.live n l1 l2 l4
  have ebd := hf n l1
  have hal : ∀ p q, p < s.fresh → s.leaf p = false → some q ∈ s.kids p → s.dead q = false ∨ q = n := by
    intro p q h2 h3 h4
    rcases ht.alive p q h2 h3 h4 with h5 | h5
    · exact Or.inl h5
    · cases h5; exact Or.inr rfl
  have hway : ∀ a, Anc s.parent n a → (s.dead a = false ∨ (PC.ulk n : PC G).Mid = some a) ∧
      ∀ q, s.parent a = some q → some a ∈ s.kids q := fun a ha => ht.way h rfl l1 (Or.inr rfl) ha
  have hrange : ∀ a, Anc s.parent n a → s.elo a ≤ s.elo n ∧ s.bd n ≤ s.bd a := fun a ha =>
    ha.range h hf l1 fun a q h1 h2 => (hway a h1).2 q h2
  have hlock : s.lock n = some i := h.own i n (by rw [hp]; rfl)
  -- what is responsible for a key of `n` is above it
  have habove : ∀ m v, m < s.fresh → (s.dead m = false ∨ m = n) → s.elo m ≤ v → v < s.bd m → s.lo n ≤ v → v < s.hi n →
      Anc s.parent n m := by
    intro m v m1 m2 m3 m4 m5 m6
    obtain ⟨l, k1, k2, k3, k4, k5, k6⟩ := leaf_below h hf hn.rank l2 hal m1 m2 m3 m4
    by_cases e : n = l
    · subst e; exact k4
    · have := (h.disj n l v l1 k1 e l2 k2 l4 k3 m5 m6 k5 k6).2.2
      unfold State.holder at this
      rw [hlock] at this
      simp only [hp] at this
      exact this.elim
  have hexact : ∀ p j z q, p < s.fresh → s.leaf p = false → (s.keys p)[j]? = some z → (s.kids p)[j + 1]? = some (some q) →
      z = s.elo q := by
    intro p j z q a1 a2 a3 a4
    exact (ht.exact p j z q a1 a2 a3 a4).resolve_right (by rintro ⟨m, hm, _⟩; cases hm)
  have hgap : ∀ m p, m < s.fresh → s.parent m = some p → s.dead m = false → s.elo m < s.bd m := by
    intro m p a1 a2 a3
    exact (ht.gap m p a1 a2 a3).resolve_right (by rintro ⟨m, hm, _⟩; cases hm)
  have ei : ((s.unlink q n).to i (.rpar n none (s.lo n))).pc i = .rpar n none (s.lo n) := by simp [State.to]
  refine neat_task (i := i) h hl hn rfl ?_ hn.root (fun k hk => by simp [State.to, State.unlink, hk]) h1
    (Or.inl (by rw [ei]; trivial)) ?_
  · obtain ⟨rk, hk⟩ := hn.rank
    exact ⟨rk, hk.1⟩
  · rw [ei]
    refine ⟨⟨ht.sub, ht.alive, fun m p a1 a2 a3 => ?_, fun p j z q a1 a2 a3 a4 => ?_⟩, ⟨fun a ha r hr => ?_, ?_⟩, ?_⟩
    · have hg := hgap m p a1 a2 a3
      by_cases hr : s.lo n ≤ s.elo m ∧ s.bd m ≤ s.hi n
      · right
        refine ⟨n, rfl, habove m (s.elo m) a1 (Or.inl a3) (Nat.le_refl _) hg hr.1 (by omega), ?_⟩
        simp only [State.to, State.unlink]
        rw [if_pos (by omega), if_pos (by omega)]
      · left
        simp only [State.to, State.unlink]
        split <;> split <;> omega
    · have hz := hexact p j z q a1 a2 a3 a4
      obtain ⟨q1, q2⟩ := h.kid p q a1 a2 (mem_of_get a4)
      by_cases hr : s.lo n ≤ s.elo q ∧ s.elo q < s.hi n
      · right
        have hq : s.elo q < s.bd q := by
          rcases hal p q a1 a2 (mem_of_get a4) with h3 | rfl
          · exact hgap q p q1 q2 h3
          · omega
        have ha := habove q (s.elo q) q1 (hal p q a1 a2 (mem_of_get a4)) (Nat.le_refl _) hq hr.1 hr.2
        have := hrange q ha
        refine ⟨n, rfl, ha, ?_⟩
        simp only [State.to, State.unlink]
        rw [if_pos (by omega), if_pos (by omega)]
      · left
        simp only [State.to, State.unlink]
        split <;> omega
    · change s.parent a = some r at hr
      have ha' : Anc s.parent n a := ha
      obtain ⟨r1, r2, _⟩ := h.parent a r (ha'.lt h l1) hr
      have hmem := (hway a ha').2 r hr
      obtain ⟨j, hj, e⟩ := List.mem_iff_getElem.1 hmem
      have hja : (s.kids r)[j]? = some (some a) := by rw [List.getElem?_eq_getElem hj, e]
      have hra := hrange a ha'
      refine ⟨j, hja, ?_, ?_⟩
      · rintro j' z rfl hz
        have := hexact r j' z a r1 r2 hz hja
        omega
      · intro z hz
        obtain ⟨b, b1, b2⟩ := (h.has' r1 r2 hmem).next hja hz
        have := hexact r j z b r1 r2 hz b1
        simp only [State.to, State.unlink]
        split <;> omega
    · simp only [State.to, State.unlink]
      rw [if_pos (by omega)]
      omega
    · intro c hc; cases hc

/-- A change elsewhere. -/
theorem State.Goods.frame {s s' : State G} {m k : Nat} (hp : ∀ a, Anc s.parent m a → s'.parent a = s.parent a)
    (hk : ∀ a q, Anc s.parent m a → s.parent a = some q → s'.kids q = s.kids q ∧ s'.keys q = s.keys q)
    (hb : ∀ a, Anc s.parent m a → s'.bd a = s.bd a) (h : s.Goods m k) : s'.Goods m k := by
  refine ⟨fun a ha q hq => ?_, by rw [hb m .refl]; exact h.2⟩
  have ha' := Anc.congr hp ha
  rw [hp a ha'] at hq
  rw [(hk a q ha' hq).1, (hk a q ha' hq).2, hb a ha']
  exact h.1 a ha' q hq

theorem neat_killNode {s : State G} (h : Inv s) (hl : Lone s) (hn : Neat s) (i p ik : Nat) (hp : s.pc i = .rnext p ik)
    (hk : s.keys p = []) :
    Neat (State.to
        { s with
          dead := Function.update s.dead p true
          dS := Function.update s.dS p true
          kids := Function.update s.kids p [none] } i (.rpar p ((s.kids p).headD none) ik)) := by
  have h1 : (s.pc i).Removing := by rw [hp]; trivial
  obtain ⟨ht, hg⟩ := hn.task i h1
  have hloc := h.loc i
  rw [hp] at ht hg hloc
  obtain ⟨l1, l2, l3⟩ := hloc
  obtain ⟨g1, g2⟩ := hg
  have hkids : s.kids p = [(s.kids p).headD none] := by
    have := (h.node p l1 l2 l3).length
    rw [hk] at this
    match hk' : s.kids p, this with
    | [a], _ => rfl
  generalize hr : (s.kids p).headD none = r at *
  have hdead : ∀ a, Function.update s.dead p true a = false → s.dead a = false := by
    intro a ha
    by_cases e : a = p
    · subst e; exact l3
    · rwa [Function.update_of_ne e] at ha
  have hne : ∀ a, a < s.fresh → s.parent a = some p → a ≠ p := by
    rintro a h1 h2 rfl
    exact Anc.not h hn.rank h1 h2 .refl
  generalize hs' : (State.to { s with
          dead := Function.update s.dead p true
          dS := Function.update s.dS p true
          kids := Function.update s.kids p [none] } i (.rpar p r ik)) = s'
  have ei : s'.pc i = .rpar p r ik := by rw [← hs']; simp [State.to]
  have hcur : ∀ m, s.Cur (.rnext p ik) = some m → s'.Cur (.rpar p r ik) = some m := by
    intro m hm
    simp only [State.Cur] at hm
    split at hm
    case isFalse => cases hm
    case isTrue e =>
      rw [hkids] at e
      simp at e
      subst e
      exact hm
  have hf : s'.fresh = s.fresh := by rw [← hs']; rfl
  have hpar : s'.parent = s.parent := by rw [← hs']; rfl
  have hkids' : ∀ q, q ≠ p → s'.kids q = s.kids q := fun q hq => by rw [← hs']; simp [State.to, hq]
  have hkp : s'.kids p = [none] := by rw [← hs']; simp [State.to]
  have hkeys : s'.keys = s.keys := by rw [← hs']; rfl
  have hleaf : s'.leaf = s.leaf := by rw [← hs']; rfl
  have helo : s'.elo = s.elo := by rw [← hs']; rfl
  have hbd : s'.bd = s.bd := by rw [← hs']; rfl
  have hd' : s'.dead = Function.update s.dead p true := by rw [← hs']; rfl
  refine neat_task (i := i) h hl hn hf ?_ ?_ (fun k hk => by rw [← hs']; simp [State.to, hk]) h1
    (Or.inl (by rw [ei]; trivial)) ?_
  · obtain ⟨rk, hk⟩ := hn.rank
    exact ⟨rk, by rw [hf, hpar]; exact hk.1⟩
  · intro a
    rw [hf, hleaf, hpar]
    intro a1 a2 a3
    have a3 : s.rt a = true := by rw [← hs'] at a3; exact a3
    refine (hn.root a a1 a2 a3).imp id fun h4 => ?_
    rw [← hs']
    change Function.update s.dS p true a = true
    by_cases e : a = p
    · subst e; simp
    · rwa [Function.update_of_ne e]
  · rw [ei]
    refine ⟨⟨fun m q => ?_, fun q m => ?_, fun m q => ?_, fun q j z m => ?_⟩, ?_, ?_⟩
    · rw [hf, hpar, hd']
      intro a1 a2 a3 a4
      have a3' : s.dead m = false := by
        rcases a3 with a3 | a3
        · exact hdead m a3
        · cases a3; exact l3
      have hm := ht.sub m q a1 a2 (Or.inl a3') (by simp [PC.Repl])
      by_cases e : q = p
      · subst e
        rw [hkids] at hm
        simp at hm
        exact absurd hm.symm a4
      · rw [hkids' q e]; exact hm
    · rw [hf, hleaf, hd']
      intro a1 a2 a3
      by_cases e : q = p
      · subst e
        rw [hkp] at a3; simp at a3
      · rw [hkids' q e] at a3
        by_cases e' : m = p
        · subst e'; exact Or.inr rfl
        · rw [Function.update_of_ne e']
          exact Or.inl ((ht.alive q m a1 a2 a3).resolve_right (by simp [PC.Mid]))
    · rw [hf, hpar, hd', helo, hbd]
      intro a1 a2 a3
      rcases ht.gap m q a1 a2 (hdead m a3) with h4 | ⟨b, h4, h5⟩
      · exact Or.inl h4
      · exact Or.inr ⟨b, hcur b h4, h5⟩
    · rw [hf, hpar, hleaf, hkeys, helo]
      intro a1 a2 a3 a4
      by_cases e : q = p
      · subst e
        rw [hkp] at a4; simp at a4
      · rw [hkids' q e] at a4
        rcases ht.exact q j z m a1 a2 a3 a4 with h4 | ⟨b, h4, h5⟩
        · exact Or.inl h4
        · exact Or.inr ⟨b, hcur b h4, h5⟩
    · refine g1.frame (fun a _ => by rw [hpar]) (fun a q ha hq => ?_) (fun a _ => by rw [hbd])
      have : q ≠ p := by
        rintro rfl
        exact Anc.not h hn.rank (ha.lt h l1) hq ha
      exact ⟨hkids' q this, by rw [hkeys]⟩
    · rintro c rfl
      have hc : some c ∈ s.kids p := by rw [hkids]; simp
      obtain ⟨c1, c2⟩ := h.kid p c l1 l2 hc
      rw [hd', Function.update_of_ne (hne c c1 c2)]
      exact (ht.alive p c l1 l2 hc).resolve_right (by simp [PC.Mid])

end Verif.Prune
