import Verif.Prune.NeatLight
import Verif.Prune.Wedge

/-!
# Splits and new internodes while nothing is removed
-/
namespace Verif.Prune

variable {G : Type} {up : List Nat → Nat → Nat}

/-- The shape of the tree while nothing is removed. -/
structure State.Plain (s : State G) : Prop where
  sub : ∀ n p, n < s.fresh → s.parent n = some p → s.dead n = false → some n ∈ s.kids p
  alive : ∀ p q, p < s.fresh → s.leaf p = false → some q ∈ s.kids p → s.dead q = false
  gap : ∀ n p, n < s.fresh → s.parent n = some p → s.dead n = false → s.elo n < s.bd n
  exact : ∀ p j z q, p < s.fresh → s.leaf p = false → (s.keys p)[j]? = some z → (s.kids p)[j + 1]? = some (some q) → z = s.elo q

theorem State.Tree.plain {s : State G} (h : s.Tree .idle) : s.Plain :=
  ⟨fun n p h1 h2 h3 => h.sub n p h1 h2 (Or.inl h3) (by simp [PC.Repl]),
    fun p q h1 h2 h3 => (h.alive p q h1 h2 h3).resolve_right (by simp [PC.Mid]),
    fun n p h1 h2 h3 => (h.gap n p h1 h2 h3).resolve_right (by rintro ⟨m, hm, _⟩; cases hm),
    fun p j z q h1 h2 h3 h4 => (h.exact p j z q h1 h2 h3 h4).resolve_right (by rintro ⟨m, hm, _⟩; cases hm)⟩

theorem State.Plain.tree {s : State G} (h : s.Plain) : s.Tree .idle :=
  ⟨fun n p h1 h2 h3 _ => h.sub n p h1 h2 (h3.resolve_right (by simp [PC.Mid])),
    fun p q h1 h2 h3 => Or.inl (h.alive p q h1 h2 h3), fun n p h1 h2 h3 => Or.inl (h.gap n p h1 h2 h3),
    fun p j z q h1 h2 h3 h4 => Or.inl (h.exact p j z q h1 h2 h3 h4)⟩

theorem Pending.owns_left {x : PC G} {n c y : Nat} (h : x.Pending n c y) : x.Owns n := by
  cases x <;> simp [PC.Pending] at h <;> simp [PC.Owns, h]

theorem neat_free {s s' : State G} {i : Nat} {x' : PC G} (h : Inv s) (hn : Neat s) (hno : ∀ k, ¬ (s.pc k).Removing)
    (hpc : s'.pc = Function.update s.pc i x') (hx : ¬ x'.Removing)
    (hold : ∀ a, a < s.fresh → s'.elo a = s.elo a ∧ s'.dead a = s.dead a ∧ s'.leaf a = s.leaf a ∧ s'.rt a = s.rt a)
    (hrk : ∀ rk, s.Ranked rk → ∃ rk' : Nat → Nat, (∀ a b, a < s.fresh → b < s.fresh → rk a ≤ rk b → rk' a ≤ rk' b) ∧
      (∀ n p, n < s'.fresh → s'.parent n = some p → rk' n < rk' p) ∧ ∀ n c y, x'.Pending n c y → rk' c ≤ rk' n)
    (hnew : ∀ n c y, x'.Pending n c y → s'.New n c y) (hroot : s'.Root) (ht : s'.Plain) : Neat s' := by
  have hlt : ∀ k a, (s.pc k).Owns a → a < s.fresh := by
    intro k a ho
    by_contra hge
    have h1 := h.own k a ho
    rw [h.alloc a (by omega)] at h1
    cases h1
  have hno' : ∀ k, ¬ (s'.pc k).Removing := by
    intro k
    rw [hpc]
    by_cases e : k = i
    · subst e; rw [Function.update_self]; exact hx
    · rw [Function.update_of_ne e]; exact hno k
  refine ⟨?_, fun k n c y hp => ?_, hroot, fun _ => ht.tree, fun k hk => absurd hk (hno' k)⟩
  · obtain ⟨rk, hr⟩ := hn.rank
    obtain ⟨rk', r1, r2, r3⟩ := hrk rk hr
    refine ⟨rk', r2, fun k n c y hp => ?_⟩
    rw [hpc] at hp
    by_cases e : k = i
    · subst e; rw [Function.update_self] at hp; exact r3 n c y hp
    · rw [Function.update_of_ne e] at hp
      exact r1 _ _ (hlt k c (Pending.owns hp)) (hlt k n (Pending.owns_left hp)) (hr.2 k n c y hp)
  · rw [hpc] at hp
    by_cases e : k = i
    · subst e; rw [Function.update_self] at hp; exact hnew n c y hp
    · rw [Function.update_of_ne e] at hp
      obtain ⟨a1, a2, a3, a4, a5⟩ := hn.new k n c y hp
      obtain ⟨b1, b2, b3, b4⟩ := hold n (hlt k n (Pending.owns_left hp))
      obtain ⟨c1, c2, c3, c4⟩ := hold c (hlt k c (Pending.owns hp))
      unfold State.New
      rw [b1, b2, c1, c2, c3, c4]
      exact ⟨a1, a2, a3, a4, a5⟩

theorem neat_split {s : State G} (h : Inv s) (hl : Lone s) (hn : Neat s) (i n x : Nat) (hp : s.pc i = .hold n) (hx : s.lo n < x) :
    Neat ((s.splitLeaf i n x).to i (.par n s.fresh x none)) := by
  have hno := hl.nobody h (j := i) (n := n) (by rw [hp]; rfl) (by rw [hp]; exact id)
  have ht := (hn.tree hno).plain
  have hloc := h.loc i
  rw [hp] at hloc
  obtain ⟨t1, t2, t3, t4, t5, t6⟩ := hloc
  have hlive := h.live n t1 t2 t6
  have hkid := h.kid
  have hroot := hn.root
  have up_ne : ∀ {α : Type} (f : Nat → α) (v : α) (a : Nat), a < s.fresh → Function.update f s.fresh v a = f a :=
    fun f v a ha => Function.update_of_ne (by omega) _ _
  refine neat_free h hn hno rfl id (fun a ha => ?_) (fun rk hrk => ?_) ?_ (fun a => ?_) ⟨fun a q => ?_, fun a q => ?_, fun a q => ?_, fun a j z q => ?_⟩
  · simp only [State.to, State.splitLeaf, up_ne _ _ a ha, and_self]
  · refine ⟨Function.update rk s.fresh (rk n), fun a b ha hb => ?_, fun a q => ?_, ?_⟩
    · rw [up_ne _ _ a ha, up_ne _ _ b hb]; exact id
    · simp only [State.to, State.splitLeaf]
      intro a1 a2
      by_cases e : a = s.fresh
      · subst e; simp at a2
      · have ha : a < s.fresh := by omega
        rw [up_ne _ _ a ha] at a2
        rw [up_ne _ _ a ha, up_ne _ _ q (h.parent a q ha a2).1]
        exact hrk.1 a q ha a2
    · rintro a b y ⟨rfl, rfl, rfl⟩
      rw [Function.update_self, up_ne _ _ _ t1]
      exact Nat.le_refl _
  · rintro a b y ⟨rfl, rfl, rfl⟩
    simp only [State.New, State.to, State.splitLeaf, Function.update_self, up_ne _ _ _ t1]
    exact ⟨trivial, by omega, t5, trivial, fun e => by cases e⟩
  · simp only [State.to, State.splitLeaf]
    intro a1 a2 a3
    by_cases e : a = s.fresh
    · subst e; simp at a2
    · have ha : a < s.fresh := by omega
      rw [up_ne _ _ a ha] at a2 a3 ⊢
      rw [up_ne _ _ a ha]
      exact hroot a ha a2 a3
  · simp only [State.to, State.splitLeaf]
    intro a1 a2 a3
    by_cases e : a = s.fresh
    · subst e; simp at a2
    · have ha : a < s.fresh := by omega
      rw [up_ne _ _ a ha] at a2 a3
      exact ht.sub a q ha a2 a3
  · simp only [State.to, State.splitLeaf]
    intro a1 a2 a3
    by_cases e : a = s.fresh
    · subst e; simp at a2
    · have ha : a < s.fresh := by omega
      rw [up_ne _ _ a ha] at a2
      rw [up_ne _ _ q (hkid a q ha a2 a3).1]
      exact ht.alive a q ha a2 a3
  · simp only [State.to, State.splitLeaf]
    intro a1 a2 a3
    by_cases e : a = s.fresh
    · subst e; simp at a2
    · have ha : a < s.fresh := by omega
      rw [up_ne _ _ a ha] at a2 a3 ⊢
      rw [up_ne _ _ a ha]
      exact ht.gap a q ha a2 a3
  · simp only [State.to, State.splitLeaf]
    intro a1 a2 a3 a4
    by_cases e : a = s.fresh
    · subst e; simp at a2
    · have ha : a < s.fresh := by omega
      rw [up_ne _ _ a ha] at a2
      rw [up_ne _ _ q (hkid a q ha a2 (mem_of_get a4)).1]
      exact ht.exact a j z q ha a2 a3 a4

theorem neat_newRoot {s : State G} (h : Inv s) (hl : Lone s) (hn : Neat s) (i n c x : Nat) (t : Option Nat)
    (hp : s.pc i = .par n c x t) (hpar : s.parent n = none) : Neat ((s.newRoot n c x).to i (.fin none none n c x t)) := by
  have hno := hl.nobody h (j := i) (n := n) (by rw [hp]; exact Or.inl rfl) (by rw [hp]; exact id)
  have ht := (hn.tree hno).plain
  have hloc := h.loc i
  rw [hp] at hloc
  obtain ⟨⟨⟨p1, p2, p3, p4, p5, p6, p7, p8⟩, q1, q2⟩, q3, q4, q5⟩ := hloc
  obtain ⟨n1, n2, n3, n4, n5⟩ := hn.new i n c x (by rw [hp]; exact ⟨rfl, rfl, rfl⟩)
  have hkid := h.kid
  have hroot := hn.root
  have hdS : s.leaf n = false → s.dS n = true := by
    intro e
    cases t with
    | none => rw [q3.1] at e; cases e
    | some l => exact q3.2.1
  have up_ne : ∀ {α : Type} (f : Nat → α) (v : α) (a : Nat), a < s.fresh → Function.update f s.fresh v a = f a :=
    fun f v a ha => Function.update_of_ne (by omega) _ _
  generalize hs' : (s.newRoot n c x).to i (.fin none none n c x t) = s'
  have ef : s'.fresh = s.fresh + 1 := by rw [← hs']; rfl
  have ee : ∀ a, a < s.fresh → s'.elo a = s.elo a := fun a ha => by rw [← hs']; exact up_ne _ _ a ha
  have ed : ∀ a, a < s.fresh → s'.dead a = s.dead a := fun a ha => by rw [← hs']; exact up_ne _ _ a ha
  have el : ∀ a, a < s.fresh → s'.leaf a = s.leaf a := fun a ha => by rw [← hs']; exact up_ne _ _ a ha
  have er : ∀ a, a < s.fresh → s'.rt a = s.rt a := fun a ha => by rw [← hs']; exact up_ne _ _ a ha
  have es : ∀ a, a < s.fresh → s'.dS a = s.dS a := fun a ha => by rw [← hs']; exact up_ne _ _ a ha
  have ek : ∀ a, a < s.fresh → s'.keys a = s.keys a := fun a ha => by rw [← hs']; exact up_ne _ _ a ha
  have ec : ∀ a, a < s.fresh → s'.kids a = s.kids a := fun a ha => by rw [← hs']; exact up_ne _ _ a ha
  have ekr : s'.keys s.fresh = [x] := by rw [← hs']; exact Function.update_self _ _ _
  have ecr : s'.kids s.fresh = [some n, some c] := by rw [← hs']; exact Function.update_self _ _ _
  have ep : ∀ a, a < s.fresh → a ≠ n → a ≠ c → s'.parent a = s.parent a := fun a ha h1 h2 => by
    rw [← hs']
    change Function.update (Function.update (Function.update s.parent s.fresh none) c (some s.fresh)) n (some s.fresh) a = _
    rw [Function.update_of_ne h1, Function.update_of_ne h2, up_ne _ _ a ha]
  have epn : s'.parent n = some s.fresh := by rw [← hs']; exact Function.update_self _ _ _
  have epc : s'.parent c = some s.fresh := by
    rw [← hs']
    change Function.update (Function.update (Function.update s.parent s.fresh none) c (some s.fresh)) n (some s.fresh) c = _
    rw [Function.update_of_ne (Ne.symm p3), Function.update_self]
  have epr : s'.parent s.fresh = none := by
    rw [← hs']
    change Function.update (Function.update (Function.update s.parent s.fresh none) c (some s.fresh)) n (some s.fresh) s.fresh = _
    rw [Function.update_of_ne (by omega), Function.update_of_ne (by omega), Function.update_self]
  have eb : ∀ a, a < s.fresh → a ≠ n → s'.bd a = s.bd a := fun a ha h1 => by
    rw [← hs']
    change Function.update (Function.update s.bd s.fresh (s.bd n)) n (s.elo c) a = _
    rw [Function.update_of_ne h1, up_ne _ _ a ha]
  have ebn : s'.bd n = s.elo c := by rw [← hs']; exact Function.update_self _ _ _
  have hpc : s'.pc = Function.update s.pc i (.fin none none n c x t) := by rw [← hs']; rfl
  clear hs'
  refine neat_free h hn hno hpc id (fun a ha => ⟨ee a ha, ed a ha, el a ha, er a ha⟩) (fun rk hrk => ?_)
    (fun a b y hab => by cases hab.1) (fun a => ?_) ⟨fun a q => ?_, fun a q => ?_, fun a q => ?_, fun a j z q => ?_⟩
  · have hcn := hrk.2 i n c x (by rw [hp]; exact ⟨rfl, rfl, rfl⟩)
    refine ⟨Function.update rk s.fresh (rk n + 1), fun a b ha hb => ?_, fun a q => ?_, fun a b y hab => by cases hab.1⟩
    · rw [up_ne _ _ a ha, up_ne _ _ b hb]; exact id
    · rw [ef]
      intro a1 a2
      by_cases e : a = s.fresh
      · subst e; rw [epr] at a2; cases a2
      have ha : a < s.fresh := by omega
      by_cases e1 : a = n
      · subst e1
        rw [epn] at a2; cases a2
        rw [Function.update_self, up_ne _ _ _ ha]; omega
      by_cases e2 : a = c
      · subst e2
        rw [epc] at a2; cases a2
        rw [Function.update_self, up_ne _ _ _ ha]; omega
      rw [ep a ha e1 e2] at a2
      rw [up_ne _ _ a ha, up_ne _ _ q (h.parent a q ha a2).1]
      exact hrk.1 a q ha a2
  · rw [ef]
    intro a1 a2 a3
    by_cases e : a = s.fresh
    · subst e; exact Or.inl epr
    have ha : a < s.fresh := by omega
    rw [el a ha] at a2
    rw [er a ha] at a3
    rw [es a ha]
    by_cases e1 : a = n
    · subst e1; exact Or.inr (hdS a2)
    by_cases e2 : a = c
    · subst e2; rw [n5 a2] at a3; cases a3
    rw [ep a ha e1 e2]
    exact hroot a ha a2 a3
  · rw [ef]
    intro a1 a2 a3
    by_cases e : a = s.fresh
    · subst e; rw [epr] at a2; cases a2
    have ha : a < s.fresh := by omega
    by_cases e1 : a = n
    · subst e1
      rw [epn] at a2; cases a2
      rw [ecr]; simp
    by_cases e2 : a = c
    · subst e2
      rw [epc] at a2; cases a2
      rw [ecr]; simp
    rw [ep a ha e1 e2] at a2
    rw [ed a ha] at a3
    rw [ec q (h.parent a q ha a2).1]
    exact ht.sub a q ha a2 a3
  · rw [ef]
    intro a1 a2 a3
    by_cases e : a = s.fresh
    · subst e
      rw [ecr] at a3
      simp at a3
      rcases a3 with rfl | rfl
      · rw [ed _ p1]; exact n3
      · rw [ed _ p2]; exact n4
    have ha : a < s.fresh := by omega
    rw [el a ha] at a2
    rw [ec a ha] at a3
    rw [ed q (hkid a q ha a2 a3).1]
    exact ht.alive a q ha a2 a3
  · rw [ef]
    intro a1 a2 a3
    by_cases e : a = s.fresh
    · subst e; rw [epr] at a2; cases a2
    have ha : a < s.fresh := by omega
    rw [ee a ha]
    by_cases e1 : a = n
    · subst e1; rw [ebn]; omega
    rw [eb a ha e1]
    by_cases e2 : a = c
    · subst e2; omega
    rw [ep a ha e1 e2] at a2
    rw [ed a ha] at a3
    exact ht.gap a q ha a2 a3
  · rw [ef]
    intro a1 a2 a3 a4
    by_cases e : a = s.fresh
    · subst e
      rw [ekr] at a3
      rw [ecr] at a4
      match j with
      | 0 =>
        simp at a3 a4
        subst a3 a4
        rw [ee _ p2, n1]
      | j + 1 => simp at a3
    have ha : a < s.fresh := by omega
    rw [el a ha] at a2
    rw [ek a ha] at a3
    rw [ec a ha] at a4
    rw [ee q (hkid a q ha a2 (mem_of_get a4)).1]
    exact ht.exact a j z q ha a2 a3 a4

theorem neat_wedge {s : State G} (h : Inv s) (hl : Lone s) (hn : Neat s) (htd : Tidy up s) (i p n c x : Nat) (t : Option Nat)
    (hp : s.pc i = .mod p n c x t) : Neat ((s.wedge up p n c x).to i (.fin (some p) none n c x t)) := by
  have hno := hl.nobody h (j := i) (n := n) (by rw [hp]; exact Or.inr (Or.inl rfl)) (by rw [hp]; exact id)
  have ht := (hn.tree hno).plain
  have hloc := h.loc i
  rw [hp] at hloc
  obtain ⟨⟨⟨p1, p2, p3, p4, p5, p6, p7, p8⟩, q1, q2⟩, q3, q4, q5, ⟨a1, a2⟩, q6, q7, q8, q9, q10⟩ := hloc
  obtain ⟨n1, n2, n3, n4, n5⟩ := hn.new i n c x (by rw [hp]; exact ⟨rfl, rfl, rfl⟩)
  obtain ⟨hj, _⟩ := htd.mod i p n c x t hp
  have hkid := h.kid
  have hroot := hn.root
  have hnd := h.nodup p a1 a2
  have hdS : s.leaf n = false → s.dS n = true := by
    intro e
    cases t with
    | none => rw [q3.1] at e; cases e
    | some l => exact q3.2.1
  have up_ne : ∀ {α : Type} (f : Nat → α) (v : α) (a : Nat), a < s.fresh → Function.update f s.fresh v a = f a :=
    fun f v a ha => Function.update_of_ne (by omega) _ _
  generalize hs' : (s.wedge up p n c x).to i (.fin (some p) none n c x t) = s'
  have ef : s'.fresh = s.fresh + 1 := by rw [← hs']; rfl
  have ee : ∀ a, a < s.fresh → s'.elo a = s.elo a := fun a ha => by rw [← hs']; exact up_ne _ _ a ha
  have eer : s'.elo s.fresh = s.elo n := by rw [← hs']; exact Function.update_self _ _ _
  have ed : ∀ a, a < s.fresh → s'.dead a = s.dead a := fun a ha => by rw [← hs']; exact up_ne _ _ a ha
  have edr : s'.dead s.fresh = false := by rw [← hs']; exact Function.update_self _ _ _
  have el : ∀ a, a < s.fresh → s'.leaf a = s.leaf a := fun a ha => by rw [← hs']; exact up_ne _ _ a ha
  have er : ∀ a, a < s.fresh → s'.rt a = s.rt a := fun a ha => by rw [← hs']; exact up_ne _ _ a ha
  have err : s'.rt s.fresh = false := by rw [← hs']; exact Function.update_self _ _ _
  have es : ∀ a, a < s.fresh → s'.dS a = s.dS a := fun a ha => by rw [← hs']; exact up_ne _ _ a ha
  have ek : ∀ a, a < s.fresh → s'.keys a = s.keys a := fun a ha => by rw [← hs']; exact up_ne _ _ a ha
  have ec : ∀ a, a < s.fresh → a ≠ p → s'.kids a = s.kids a := fun a ha h1 => by
    rw [← hs']
    change Function.update (Function.update s.kids p _) s.fresh _ a = _
    rw [up_ne _ _ a ha, Function.update_of_ne h1]
  have ecp : s'.kids p = (s.kids p).set (up (s.keys p) x) (some s.fresh) := by
    rw [← hs']
    change Function.update (Function.update s.kids p _) s.fresh _ p = _
    rw [up_ne _ _ p a1, Function.update_self]
  have ekr : s'.keys s.fresh = [x] := by rw [← hs']; exact Function.update_self _ _ _
  have ecr : s'.kids s.fresh = [some n, some c] := by rw [← hs']; exact Function.update_self _ _ _
  have ep : ∀ a, a < s.fresh → a ≠ n → a ≠ c → s'.parent a = s.parent a := fun a ha h1 h2 => by
    rw [← hs']
    change Function.update (Function.update (Function.update s.parent s.fresh _) c (some s.fresh)) n (some s.fresh) a = _
    rw [Function.update_of_ne h1, Function.update_of_ne h2, up_ne _ _ a ha]
  have epn : s'.parent n = some s.fresh := by rw [← hs']; exact Function.update_self _ _ _
  have epc : s'.parent c = some s.fresh := by
    rw [← hs']
    change Function.update (Function.update (Function.update s.parent s.fresh _) c (some s.fresh)) n (some s.fresh) c = _
    rw [Function.update_of_ne (Ne.symm p3), Function.update_self]
  have epr : s'.parent s.fresh = some p := by
    rw [← hs']
    change Function.update (Function.update (Function.update s.parent s.fresh (some p)) c (some s.fresh)) n (some s.fresh) s.fresh = _
    rw [Function.update_of_ne (by omega), Function.update_of_ne (by omega), Function.update_self]
  have eb : ∀ a, a < s.fresh → a ≠ n → s'.bd a = s.bd a := fun a ha h1 => by
    rw [← hs']
    change Function.update (Function.update s.bd s.fresh (s.bd n)) n (s.elo c) a = _
    rw [Function.update_of_ne h1, up_ne _ _ a ha]
  have ebn : s'.bd n = s.elo c := by rw [← hs']; exact Function.update_self _ _ _
  have ebr : s'.bd s.fresh = s.bd n := by
    rw [← hs']
    change Function.update (Function.update s.bd s.fresh (s.bd n)) n (s.elo c) s.fresh = _
    rw [Function.update_of_ne (by omega), Function.update_self]
  have hpc : s'.pc = Function.update s.pc i (.fin (some p) none n c x t) := by rw [← hs']; rfl
  clear hs'
  generalize up (s.keys p) x = kp at *
  have hkl : kp < (s.kids p).length := (List.getElem?_eq_some_iff.1 hj).1
  refine neat_free h hn hno hpc id (fun a ha => ⟨ee a ha, ed a ha, el a ha, er a ha⟩) (fun rk hrk => ?_)
    (fun a b y hab => by cases hab.2) (fun a => ?_) ⟨fun a q => ?_, fun a q => ?_, fun a q => ?_, fun a j z q => ?_⟩
  · have hcn := hrk.2 i n c x (by rw [hp]; exact ⟨rfl, rfl, rfl⟩)
    have hnp := hrk.1 n p p1 q9
    refine ⟨Function.update (fun a => 2 * rk a) s.fresh (2 * rk n + 1), fun a b ha hb => ?_, fun a q => ?_,
      fun a b y hab => by cases hab.2⟩
    · rw [up_ne _ _ a ha, up_ne _ _ b hb]; intro hab; omega
    · rw [ef]
      intro a1' a2'
      by_cases e : a = s.fresh
      · subst e; rw [epr] at a2'; cases a2'
        rw [Function.update_self, up_ne _ _ _ a1]; omega
      have ha : a < s.fresh := by omega
      by_cases e1 : a = n
      · subst e1
        rw [epn] at a2'; cases a2'
        rw [Function.update_self, up_ne _ _ _ ha]; omega
      by_cases e2 : a = c
      · subst e2
        rw [epc] at a2'; cases a2'
        rw [Function.update_self, up_ne _ _ _ ha]; omega
      rw [ep a ha e1 e2] at a2'
      rw [up_ne _ _ a ha, up_ne _ _ q (h.parent a q ha a2').1]
      have := hrk.1 a q ha a2'
      omega
  · rw [ef]
    intro b1 b2 b3
    by_cases e : a = s.fresh
    · subst e; rw [err] at b3; cases b3
    have ha : a < s.fresh := by omega
    rw [el a ha] at b2
    rw [er a ha] at b3
    rw [es a ha]
    by_cases e1 : a = n
    · subst e1; exact Or.inr (hdS b2)
    by_cases e2 : a = c
    · subst e2; rw [n5 b2] at b3; cases b3
    rw [ep a ha e1 e2]
    exact hroot a ha b2 b3
  · rw [ef]
    intro b1 b2 b3
    by_cases e : a = s.fresh
    · subst e; rw [epr] at b2; cases b2
      rw [ecp]; exact List.mem_set hkl _
    have ha : a < s.fresh := by omega
    by_cases e1 : a = n
    · subst e1
      rw [epn] at b2; cases b2
      rw [ecr]; simp
    by_cases e2 : a = c
    · subst e2
      rw [epc] at b2; cases b2
      rw [ecr]; simp
    rw [ep a ha e1 e2] at b2
    rw [ed a ha] at b3
    have hm := ht.sub a q ha b2 b3
    by_cases e3 : q = p
    · subst e3
      rw [ecp]
      obtain ⟨b, hb, e4⟩ := List.mem_iff_getElem.1 hm
      have hbk : kp ≠ b := by
        rintro rfl
        rw [List.getElem?_eq_getElem hb, e4] at hj
        cases hj; exact e1 rfl
      refine List.mem_of_getElem? (i := b) ?_
      rw [List.getElem?_set_ne hbk, List.getElem?_eq_getElem hb, e4]
    · rw [ec q (h.parent a q ha b2).1 e3]; exact hm
  · rw [ef]
    intro b1 b2 b3
    by_cases e : a = s.fresh
    · subst e
      rw [ecr] at b3
      simp at b3
      rcases b3 with rfl | rfl
      · rw [ed _ p1]; exact n3
      · rw [ed _ p2]; exact n4
    have ha : a < s.fresh := by omega
    rw [el a ha] at b2
    by_cases e3 : a = p
    · subst e3
      rw [ecp] at b3
      rcases mem_set_of hnd hj b3 with e4 | e4
      · cases e4; exact edr
      · rw [ed q (hkid a q ha b2 e4.1).1]
        exact ht.alive a q ha b2 e4.1
    · rw [ec a ha e3] at b3
      rw [ed q (hkid a q ha b2 b3).1]
      exact ht.alive a q ha b2 b3
  · rw [ef]
    intro b1 b2 b3
    by_cases e : a = s.fresh
    · subst e; rw [eer, ebr]; omega
    have ha : a < s.fresh := by omega
    rw [ee a ha]
    by_cases e1 : a = n
    · subst e1; rw [ebn]; omega
    rw [eb a ha e1]
    by_cases e2 : a = c
    · subst e2; omega
    rw [ep a ha e1 e2] at b2
    rw [ed a ha] at b3
    exact ht.gap a q ha b2 b3
  · rw [ef]
    intro b1 b2 b3 b4
    by_cases e : a = s.fresh
    · subst e
      rw [ekr] at b3
      rw [ecr] at b4
      match j with
      | 0 =>
        simp at b3 b4
        subst b3 b4
        rw [ee _ p2, n1]
      | j + 1 => simp at b3
    have ha : a < s.fresh := by omega
    rw [el a ha] at b2
    rw [ek a ha] at b3
    by_cases e3 : a = p
    · subst e3
      rw [ecp] at b4
      by_cases ej : kp = j + 1
      · subst ej
        rw [List.getElem?_set_self hkl] at b4
        cases b4
        rw [eer]
        exact ht.exact a j z n ha b2 b3 hj
      · rw [List.getElem?_set_ne ej] at b4
        rw [ee q (hkid a q ha b2 (mem_of_get b4)).1]
        exact ht.exact a j z q ha b2 b3 b4
    · rw [ec a ha e3] at b4
      rw [ee q (hkid a q ha b2 (mem_of_get b4)).1]
      exact ht.exact a j z q ha b2 b3 b4

end Verif.Prune
