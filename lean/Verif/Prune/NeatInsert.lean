import Verif.Prune.NeatSplit
import Verif.Prune.SplitKid

/-!
# Inserting a child while nothing is removed
-/
namespace Verif.Prune

variable {G : Type} {up : List Nat → Nat → Nat}

/-- The keys stay exact. -/
theorem with_exact {s : State G} (h : Inv s) (ht : s.Plain) {p n c x : Nat} (hp : p < s.fresh) (hl : s.leaf p = false)
    (hj : (s.kids p)[up (s.keys p) x]? = some (some n)) (hx : s.elo c = x) {j z q : Nat}
    (h1 : (s.keysWith up p x)[j]? = some z) (h2 : (s.kidsWith up p c x)[j + 1]? = some (some q)) : z = s.elo q := by
  unfold State.keysWith at h1
  unfold State.kidsWith at h2
  have hlen := (h.has' hp hl (mem_of_get hj)).length
  have hkl := (List.getElem?_eq_some_iff.1 hj).1
  generalize up (s.keys p) x = kp at *
  rw [List.getElem?_insertIdx] at h1 h2
  by_cases e1 : j < kp
  · rw [if_pos e1] at h1
    rw [if_pos (by omega)] at h2
    exact ht.exact p j z q hp hl h1 h2
  · rw [if_neg e1] at h1
    rw [if_neg (by omega)] at h2
    by_cases e2 : j = kp
    · subst e2
      rw [if_pos rfl, if_pos (by omega)] at h1
      rw [if_pos rfl, if_pos (by omega)] at h2
      cases h1; cases h2; exact hx.symm
    · rw [if_neg e2] at h1
      rw [if_neg (by omega)] at h2
      obtain ⟨j', rfl⟩ : ∃ j', j = j' + 1 := ⟨j - 1, by omega⟩
      exact ht.exact p j' z q hp hl h1 h2

theorem neat_insertKid (hu : Counts up) {s : State G} (h : Inv s) (hl : Lone s) (hn : Neat s) (htd : Tidy up s) (i p n c x : Nat)
    (t : Option Nat) (hp : s.pc i = .mod p n c x t) : Neat ((s.insertKid up p n c x).to i (.fin (some p) none n c x t)) := by
  have hno := hl.nobody h (j := i) (n := n) (by rw [hp]; exact Or.inr (Or.inl rfl)) (by rw [hp]; exact id)
  have ht := (hn.tree hno).plain
  obtain ⟨hj, hxk⟩ := htd.mod i p n c x t hp
  have hloc := h.loc i
  rw [hp] at hloc
  have hO := hloc.1
  obtain ⟨⟨⟨p1, p2, p3, p4, p5, p6, p7, p8⟩, q1, q2⟩, q3, q4, q5, ⟨a1, a2⟩, q6, q7, q8, q9, q10⟩ := hloc
  obtain ⟨n1, n2, n3, n4, n5⟩ := hn.new i n c x (by rw [hp]; exact ⟨rfl, rfl, rfl⟩)
  obtain ⟨_, _, _, _, hgm⟩ := with_kid hu h (bd' := Function.update s.bd n (s.elo c)) hj hxk a1 a2 hO
    (fun q => by simp only [Function.update_apply])
  have hex := fun j z q => with_exact (j := j) (z := z) (q := q) h ht a1 a2 hj n1
  have hkid := h.kid
  have hroot := hn.root
  generalize hs' : (s.insertKid up p n c x).to i (.fin (some p) none n c x t) = s'
  have ef : s'.fresh = s.fresh := by rw [← hs']; rfl
  have ee : s'.elo = s.elo := by rw [← hs']; rfl
  have ed : s'.dead = s.dead := by rw [← hs']; rfl
  have el : s'.leaf = s.leaf := by rw [← hs']; rfl
  have er : s'.rt = s.rt := by rw [← hs']; rfl
  have es : s'.dS = s.dS := by rw [← hs']; rfl
  have ek : ∀ a, a ≠ p → s'.keys a = s.keys a := fun a ha => by rw [← hs']; exact Function.update_of_ne ha _ _
  have ekp : s'.keys p = s.keysWith up p x := by rw [← hs']; exact Function.update_self _ _ _
  have ec : ∀ a, a ≠ p → s'.kids a = s.kids a := fun a ha => by rw [← hs']; exact Function.update_of_ne ha _ _
  have ecp : s'.kids p = s.kidsWith up p c x := by rw [← hs']; exact Function.update_self _ _ _
  have ep : ∀ a, a ≠ c → s'.parent a = s.parent a := fun a ha => by rw [← hs']; exact Function.update_of_ne ha _ _
  have epc : s'.parent c = some p := by rw [← hs']; exact Function.update_self _ _ _
  have eb : ∀ a, a ≠ n → s'.bd a = s.bd a := fun a ha => by rw [← hs']; exact Function.update_of_ne ha _ _
  have ebn : s'.bd n = s.elo c := by rw [← hs']; exact Function.update_self _ _ _
  have hpc : s'.pc = Function.update s.pc i (.fin (some p) none n c x t) := by rw [← hs']; rfl
  clear hs'
  refine neat_free h hn hno hpc id (fun a ha => ⟨by rw [ee], by rw [ed], by rw [el], by rw [er]⟩) (fun rk hrk => ?_)
    (fun a b y hab => by cases hab.2) (fun a => ?_) ⟨fun a q => ?_, fun a q => ?_, fun a q => ?_, fun a j z q => ?_⟩
  · have hcn := hrk.2 i n c x (by rw [hp]; exact ⟨rfl, rfl, rfl⟩)
    have hnp := hrk.1 n p p1 q9
    refine ⟨rk, fun a b ha hb => id, fun a q => ?_, fun a b y hab => by cases hab.2⟩
    rw [ef]
    intro b1 b2
    by_cases e2 : a = c
    · subst e2
      rw [epc] at b2; cases b2; omega
    rw [ep a e2] at b2
    exact hrk.1 a q b1 b2
  · rw [ef, el, er, es]
    intro b1 b2 b3
    by_cases e2 : a = c
    · subst e2; rw [n5 b2] at b3; cases b3
    rw [ep a e2]
    exact hroot a b1 b2 b3
  · rw [ef, ed]
    intro b1 b2 b3
    by_cases e2 : a = c
    · subst e2
      rw [epc] at b2; cases b2
      rw [ecp]; exact (hgm _).2 (Or.inl rfl)
    rw [ep a e2] at b2
    have hm := ht.sub a q b1 b2 b3
    by_cases e3 : q = p
    · subst e3; rw [ecp]; exact (hgm _).2 (Or.inr hm)
    · rw [ec q e3]; exact hm
  · rw [ef, el, ed]
    intro b1 b2 b3
    by_cases e3 : a = p
    · subst e3
      rw [ecp] at b3
      rcases (hgm _).1 b3 with e4 | e4
      · cases e4; exact n4
      · exact ht.alive a q b1 b2 e4
    · rw [ec a e3] at b3
      exact ht.alive a q b1 b2 b3
  · rw [ef, ed, ee]
    intro b1 b2 b3
    by_cases e1 : a = n
    · subst e1; rw [ebn]; omega
    rw [eb a e1]
    by_cases e2 : a = c
    · subst e2; omega
    rw [ep a e2] at b2
    exact ht.gap a q b1 b2 b3
  · rw [ef, el, ee]
    intro b1 b2 b3 b4
    by_cases e3 : a = p
    · subst e3
      rw [ekp] at b3
      rw [ecp] at b4
      exact hex j z q b3 b4
    · rw [ek a e3] at b3
      rw [ec a e3] at b4
      exact ht.exact a j z q b1 b2 b3 b4

theorem neat_splitKid (hu : Counts up) {s : State G} (h : Inv s) (hl : Lone s) (hn : Neat s) (htd : Tidy up s)
    (i p n c x mid y d : Nat) (t : Option Nat) (hp : s.pc i = .mod p n c x t) (hm : 0 < mid)
    (hy : (s.keysWith up p x)[mid]? = some y) (hd : (s.kidsWith up p c x)[mid + 1]? = some (some d)) :
    Neat ((s.splitKid up i p n c x mid y d).to i (.fin (some p) (some (s.fresh, y)) n c x t)) := by
  have hno := hl.nobody h (j := i) (n := n) (by rw [hp]; exact Or.inr (Or.inl rfl)) (by rw [hp]; exact id)
  have ht := (hn.tree hno).plain
  obtain ⟨hj, hxk⟩ := htd.mod i p n c x t hp
  have hloc := h.loc i
  rw [hp] at hloc
  have hO := hloc.1
  have hL := hloc.2.1
  obtain ⟨⟨⟨p1, p2, p3, p4, p5, p6, p7, p8⟩, q1, q2⟩, q3, q4, q5, ⟨a1, a2⟩, q6, q7, q8, q9, q10⟩ := hloc
  obtain ⟨n1, n2, n3, n4, n5⟩ := hn.new i n c x (by rw [hp]; exact ⟨rfl, rfl, rfl⟩)
  obtain ⟨_, b2', _⟩ := halves h hO hL
  obtain ⟨hg, hgs, _, hgd, hgm⟩ := with_kid hu h (bd' := Function.update s.bd n (s.elo c)) hj hxk a1 a2 hO
    (fun q => by simp only [Function.update_apply])
  have hex := fun j z q => with_exact (j := j) (z := z) (q := q) h ht a1 a2 hj n1
  have hkid := h.kid
  have hroot := hn.root
  have hal := h.has a1 a2 (mem_of_get hj)
  have hmem : ∀ q, some q ∈ s.kidsWith up p c x → q < s.fresh ∧ (q = c ∨ s.parent q = some p) ∧ s.dead q = false := by
    intro q hq
    rcases (hgm (some q)).mp hq with hq | hq
    · cases hq; exact ⟨p2, Or.inl rfl, n4⟩
    · have := h.kid p q a1 a2 hq
      exact ⟨this.1, Or.inr this.2, ht.alive p q a1 a2 hq⟩
  -- the new key is larger than the first
  have hyd : y = s.elo d := hex mid y d hy hd
  have hpy : s.elo p < y := by
    obtain ⟨m1, m2⟩ := List.getElem?_eq_some_iff.1 hy
    obtain ⟨z, hz⟩ : ∃ z, (s.keysWith up p x)[0]? = some z := ⟨(s.keysWith up p x)[0]'(by omega), by simp⟩
    have hlen := hg.length
    obtain ⟨q, hq⟩ : ∃ q, (s.kidsWith up p c x)[0 + 1]? = some (some q) := by
      cases hc1 : (s.kidsWith up p c x)[0 + 1]? with
      | none => rw [List.getElem?_eq_none_iff] at hc1; omega
      | some o =>
        cases o with
        | some d => exact ⟨d, rfl⟩
        | none => exact absurd hc1 hg.none
    have h1 := hex 0 z q hz hq
    have h2 : z < y := by
      have := List.pairwise_iff_getElem.1 hgs 0 mid (by omega) m1 hm
      rw [m2] at this
      obtain ⟨_, e⟩ := List.getElem?_eq_some_iff.1 hz
      rw [e] at this; exact this
    have h3 := (hg.order (fun q hq => by
      have := (h.rng q (hmem q hq).1).1
      rw [Function.update_apply]
      split
      · next e => subst e; exact b2'
      · exact this)).2 q (mem_of_get hq)
    omega
  have up_ne : ∀ {α : Type} (f : Nat → α) (v : α) (a : Nat), a < s.fresh → Function.update f s.fresh v a = f a :=
    fun f v a ha => Function.update_of_ne (by omega) _ _
  generalize hs' : (s.splitKid up i p n c x mid y d).to i (.fin (some p) (some (s.fresh, y)) n c x t) = s'
  have ef : s'.fresh = s.fresh + 1 := by rw [← hs']; rfl
  have ee : ∀ a, a < s.fresh → s'.elo a = s.elo a := fun a ha => by rw [← hs']; exact up_ne _ _ a ha
  have eer : s'.elo s.fresh = s.elo d := by rw [← hs']; exact Function.update_self _ _ _
  have ed : ∀ a, a < s.fresh → s'.dead a = s.dead a := fun a ha => by rw [← hs']; exact up_ne _ _ a ha
  have edr : s'.dead s.fresh = false := by rw [← hs']; exact Function.update_self _ _ _
  have el : ∀ a, a < s.fresh → s'.leaf a = s.leaf a := fun a ha => by rw [← hs']; exact up_ne _ _ a ha
  have er : ∀ a, a < s.fresh → s'.rt a = s.rt a := fun a ha => by rw [← hs']; exact up_ne _ _ a ha
  have err : s'.rt s.fresh = false := by rw [← hs']; exact Function.update_self _ _ _
  have esp : s'.dS p = true := by rw [← hs']; exact Function.update_self _ _ _
  have es : ∀ a, a < s.fresh → a ≠ p → s'.dS a = s.dS a := fun a ha h1 => by
    rw [← hs']
    change Function.update (Function.update s.dS s.fresh _) p true a = _
    rw [Function.update_of_ne h1, up_ne _ _ a ha]
  have ek : ∀ a, a < s.fresh → a ≠ p → s'.keys a = s.keys a := fun a ha h1 => by
    rw [← hs']
    change Function.update (Function.update s.keys s.fresh _) p _ a = _
    rw [Function.update_of_ne h1, up_ne _ _ a ha]
  have ekp : s'.keys p = (s.keysWith up p x).take mid := by rw [← hs']; exact Function.update_self _ _ _
  have ekr : s'.keys s.fresh = (s.keysWith up p x).drop (mid + 1) := by
    rw [← hs']
    change Function.update (Function.update s.keys s.fresh _) p _ s.fresh = _
    rw [Function.update_of_ne (by omega), Function.update_self]
  have ec : ∀ a, a < s.fresh → a ≠ p → s'.kids a = s.kids a := fun a ha h1 => by
    rw [← hs']
    change Function.update (Function.update s.kids s.fresh _) p _ a = _
    rw [Function.update_of_ne h1, up_ne _ _ a ha]
  have ecp : s'.kids p = (s.kidsWith up p c x).take (mid + 1) := by rw [← hs']; exact Function.update_self _ _ _
  have ecr : s'.kids s.fresh = (s.kidsWith up p c x).drop (mid + 1) := by
    rw [← hs']
    change Function.update (Function.update s.kids s.fresh _) p _ s.fresh = _
    rw [Function.update_of_ne (by omega), Function.update_self]
  have ep : ∀ a, s'.parent a = if some a ∈ (s.kidsWith up p c x).drop (mid + 1) then some s.fresh else if a = c then some p else
      if a = s.fresh then none else s.parent a := fun a => by rw [← hs']; rfl
  have eb : ∀ a, a < s.fresh → a ≠ n → s'.bd a = s.bd a := fun a ha h1 => by
    rw [← hs']
    change Function.update (Function.update s.bd n (s.elo c)) s.fresh (s.bd p) a = _
    rw [up_ne _ _ a ha, Function.update_of_ne h1]
  have ebn : s'.bd n = s.elo c := by
    rw [← hs']
    change Function.update (Function.update s.bd n (s.elo c)) s.fresh (s.bd p) n = _
    rw [up_ne _ _ n p1, Function.update_self]
  have hpc : s'.pc = Function.update s.pc i (.fin (some p) (some (s.fresh, y)) n c x t) := by rw [← hs']; rfl
  clear hs'
  have hfresh : some s.fresh ∉ (s.kidsWith up p c x).drop (mid + 1) := fun hf =>
    absurd (hmem _ (List.mem_of_mem_drop hf)).1 (Nat.lt_irrefl _)
  have epr : s'.parent s.fresh = none := by rw [ep, if_neg hfresh, if_neg (by omega), if_pos rfl]
  -- who has a parent had one before, or is the new child
  have hpar : ∀ a q, a < s.fresh → s'.parent a = some q → a ≠ c → ∃ q', s.parent a = some q' := by
    intro a q ha h1 h2
    rw [ep] at h1
    split at h1
    case isTrue e =>
      rcases (hmem a (List.mem_of_mem_drop e)).2.1 with e' | e'
      · exact absurd e' h2
      · exact ⟨p, e'⟩
    case isFalse =>
      rw [if_neg (by omega)] at h1
      exact ⟨q, h1⟩
  have hrank : ∀ rk, s.Ranked rk → ∀ q, some q ∈ s.kidsWith up p c x → rk q < rk p := by
    intro rk hrk q hq
    have hcn := hrk.2 i n c x (by rw [hp]; exact ⟨rfl, rfl, rfl⟩)
    have hnp := hrk.1 n p p1 q9
    rcases (hmem q hq).2.1 with rfl | e
    · omega
    · exact hrk.1 q p (hmem q hq).1 e
  have hcin : some c ∈ s.kidsWith up p c x := (hgm _).2 (Or.inl rfl)
  have hsplit : ∀ q, some q ∈ s.kidsWith up p c x → some q ∉ (s.kidsWith up p c x).drop (mid + 1) →
      some q ∈ (s.kidsWith up p c x).take (mid + 1) := by
    intro q h1 h2
    rw [← List.take_append_drop (mid + 1) (s.kidsWith up p c x), List.mem_append] at h1
    exact h1.resolve_right h2
  refine neat_free h hn hno hpc id (fun a ha => ⟨ee a ha, ed a ha, el a ha, er a ha⟩) (fun rk hrk => ?_)
    ?_ (fun a => ?_) ⟨fun a q => ?_, fun a q => ?_, fun a q => ?_, fun a j z q => ?_⟩
  · refine ⟨Function.update rk s.fresh (rk p), fun a b ha hb => ?_, fun a q => ?_, ?_⟩
    · rw [up_ne _ _ a ha, up_ne _ _ b hb]; exact id
    · rw [ef]
      intro b1 b2
      by_cases e : a = s.fresh
      · subst e; rw [epr] at b2; cases b2
      have ha : a < s.fresh := by omega
      rw [up_ne _ _ a ha]
      rw [ep] at b2
      split at b2
      case isTrue e1 =>
        cases b2
        rw [Function.update_self]
        exact hrank rk hrk a (List.mem_of_mem_drop e1)
      case isFalse e1 =>
        by_cases e2 : a = c
        · subst e2
          rw [if_pos rfl] at b2; cases b2
          rw [up_ne _ _ p a1]
          exact hrank rk hrk a hcin
        · rw [if_neg e2] at b2
          rw [up_ne _ _ q (h.parent a q ha b2).1]
          exact hrk.1 a q ha b2
    · rintro a b z ⟨e1, e2⟩
      cases e1; cases e2
      rw [Function.update_self, up_ne _ _ p a1]
      exact Nat.le_refl _
  · rintro a b z ⟨e1, e2⟩
    cases e1; cases e2
    refine ⟨by rw [eer, hyd], by rw [ee p a1]; exact hpy, by rw [ed p a1]; exact hal, edr, fun _ => err⟩
  · rw [ef]
    intro b1 b2 b3
    by_cases e : a = s.fresh
    · subst e; rw [err] at b3; cases b3
    have ha : a < s.fresh := by omega
    rw [el a ha] at b2
    rw [er a ha] at b3
    by_cases e1 : a = p
    · subst e1; exact Or.inr esp
    rw [es a ha e1]
    by_cases e2 : a = c
    · subst e2; rw [n5 b2] at b3; cases b3
    rw [ep]
    split
    case isTrue e3 =>
      rcases hroot a ha b2 b3 with e4 | e4
      · rcases (hmem a (List.mem_of_mem_drop e3)).2.1 with e5 | e5
        · exact absurd e5 e2
        · rw [e4] at e5; cases e5
      · exact Or.inr e4
    case isFalse =>
      exact hroot a ha b2 b3
  · rw [ef]
    intro b1 b2 b3
    by_cases e : a = s.fresh
    · subst e; rw [epr] at b2; cases b2
    have ha : a < s.fresh := by omega
    rw [ed a ha] at b3
    rw [ep] at b2
    split at b2
    case isTrue e1 => cases b2; rw [ecr]; exact e1
    case isFalse e1 =>
      by_cases e2 : a = c
      · subst e2
        rw [if_pos rfl] at b2; cases b2
        rw [ecp]; exact hsplit a hcin e1
      · rw [if_neg e2] at b2
        have hm := ht.sub a q ha b2 b3
        by_cases e3 : q = p
        · subst e3; rw [ecp]; exact hsplit a ((hgm _).2 (Or.inr hm)) e1
        · rw [ec q (h.parent a q ha b2).1 e3]; exact hm
  · rw [ef]
    intro b1 b2 b3
    have key : some q ∈ s.kidsWith up p c x → s'.dead q = false := fun hq => by
      rw [ed q (hmem q hq).1]; exact (hmem q hq).2.2
    by_cases e : a = s.fresh
    · subst e; rw [ecr] at b3; exact key (List.mem_of_mem_drop b3)
    have ha : a < s.fresh := by omega
    by_cases e3 : a = p
    · subst e3; rw [ecp] at b3; exact key (List.mem_of_mem_take b3)
    rw [el a ha] at b2
    rw [ec a ha e3] at b3
    rw [ed q (hkid a q ha b2 b3).1]
    exact ht.alive a q ha b2 b3
  · rw [ef]
    intro b1 b2 b3
    by_cases e : a = s.fresh
    · subst e; rw [epr] at b2; cases b2
    have ha : a < s.fresh := by omega
    rw [ed a ha] at b3
    rw [ee a ha]
    by_cases e1 : a = n
    · subst e1; rw [ebn]; omega
    rw [eb a ha e1]
    by_cases e2 : a = c
    · subst e2; omega
    obtain ⟨q', hq'⟩ := hpar a q ha b2 e2
    exact ht.gap a q' ha hq' b3
  · rw [ef]
    intro b1 b2 b3 b4
    by_cases e : a = s.fresh
    · subst e
      rw [ekr, List.getElem?_drop] at b3
      rw [ecr, List.getElem?_drop, show mid + 1 + (j + 1) = mid + 1 + j + 1 by omega] at b4
      rw [ee q (hmem q (mem_of_get b4)).1]
      exact hex _ z q b3 b4
    have ha : a < s.fresh := by omega
    by_cases e3 : a = p
    · subst e3
      rw [ekp] at b3
      rw [ecp] at b4
      have hjm : j < mid := by
        have := (List.getElem?_eq_some_iff.1 b3).1
        simp at this; omega
      rw [List.getElem?_take_of_lt hjm] at b3
      rw [List.getElem?_take_of_lt (by omega)] at b4
      rw [ee q (hmem q (mem_of_get b4)).1]
      exact hex _ z q b3 b4
    rw [el a ha] at b2
    rw [ek a ha e3] at b3
    rw [ec a ha e3] at b4
    rw [ee q (hkid a q ha b2 (mem_of_get b4)).1]
    exact ht.exact a j z q ha b2 b3 b4

end Verif.Prune
