import Verif.Prune.Steps

/-!
# Runs in which a leaf is removed by one thread alone

While a thread removes a leaf, from marking it deleted to the end, no other thread has a node locked.  Then every key on the
left of a child is the smallest for which the child is responsible, except, during a removal, on the way up from the removed
node.
-/
namespace Verif.Prune

variable {G : Type}

/-- The thread removes a leaf. -/
def PC.Removing : PC G → Prop
  | .ulk _ => True
  | .rpar _ _ _ => True
  | .rgot _ _ _ _ => True
  | .rmod _ _ _ _ => True
  | .dpar _ _ _ _ _ => True
  | .dgot _ _ _ _ _ _ => True
  | .dset _ _ _ _ _ _ => True
  | .dtop _ _ _ _ => True
  | .rend _ _ _ => True
  | .rnext _ _ => True
  | _ => False

/-- While a thread removes a leaf, no other thread has a node locked. -/
def Lone (s : State G) : Prop := ∀ i j n, (s.pc i).Removing → s.lock n = some j → j = i

/-- `c`, split off `n` at `x`, is not in a parent yet. -/
def PC.Pending : PC G → Nat → Nat → Nat → Prop
  | .par n c x _, a, b, y => a = n ∧ b = c ∧ y = x
  | .got _ n c x _, a, b, y => a = n ∧ b = c ∧ y = x
  | .mod _ n c x _, a, b, y => a = n ∧ b = c ∧ y = x
  | .fin p nx _ _ _ _, a, b, y => p = some a ∧ nx = some (b, y)
  | .cut p nx _ _ _, a, b, y => p = some a ∧ nx = some (b, y)
  | .rel p nx _ _, a, b, y => p = some a ∧ nx = some (b, y)
  | _, _, _, _ => False

/-- The deleted node that is still in its parent. -/
def PC.Mid : PC G → Option Nat
  | .ulk n => some n
  | .rpar n _ _ => some n
  | .rgot _ n _ _ => some n
  | .rmod _ n _ _ => some n
  | _ => none

/-- Its replacement, which is not. -/
def PC.Repl : PC G → Option Nat
  | .rpar _ r _ => r
  | .rgot _ _ r _ => r
  | .rmod _ _ r _ => r
  | _ => none

/-- The node from which on upwards keys may be too small. -/
def State.Cur (s : State G) : PC G → Option Nat
  | .rpar n none _ => some n
  | .rgot _ n none _ => some n
  | .rmod _ n none _ => some n
  | .dpar q _ _ _ _ => some q
  | .dgot _ q _ _ _ _ => some q
  | .dset _ q _ _ _ _ => some q
  | .rend p _ _ => if s.kids p = [none] then some p else none
  | .rnext p _ => if s.kids p = [none] then some p else none
  | _ => none

/-- `a` is `m` or above it. -/
inductive Anc (P : Nat → Option Nat) (m : Nat) : Nat → Prop where
  | refl : Anc P m m
  | up {a q : Nat} (h : Anc P m a) (hq : P a = some q) : Anc P m q

/-- The shape of the tree while a thread is at `x`. -/
structure State.Tree (s : State G) (x : PC G) : Prop where
  sub : ∀ n p, n < s.fresh → s.parent n = some p → (s.dead n = false ∨ x.Mid = some n) → x.Repl ≠ some n → some n ∈ s.kids p
  alive : ∀ p q, p < s.fresh → s.leaf p = false → some q ∈ s.kids p → s.dead q = false ∨ x.Mid = some q
  gap : ∀ n p, n < s.fresh → s.parent n = some p → s.dead n = false →
    s.elo n < s.bd n ∨ ∃ m, s.Cur x = some m ∧ Anc s.parent m n ∧ s.elo m = s.bd m
  exact : ∀ p j z q, p < s.fresh → s.leaf p = false → (s.keys p)[j]? = some z → (s.kids p)[j + 1]? = some (some q) →
    z = s.elo q ∨ ∃ m, s.Cur x = some m ∧ Anc s.parent m q ∧ s.elo q = s.elo m

/-- The root bit of an internode that has a parent is about to go. -/
def State.Root (s : State G) : Prop :=
  ∀ p, p < s.fresh → s.leaf p = false → s.rt p = true → s.parent p = none ∨ s.dS p = true

/-- A search for `k`, or for a larger key of `a`, finds `a` in its parent. -/
def State.Good (s : State G) (a k : Nat) : Prop :=
  ∀ q, s.parent a = some q → ∃ j, (s.kids q)[j]? = some (some a) ∧ (∀ j' z, j = j' + 1 → (s.keys q)[j']? = some z → z ≤ k) ∧
    ∀ z, (s.keys q)[j]? = some z → s.bd a ≤ z

/-- So it is from `m` on upwards. -/
def State.Goods (s : State G) (m k : Nat) : Prop := (∀ a, Anc s.parent m a → s.Good a k) ∧ k < s.bd m

/-- What is known while a leaf is removed. -/
def State.Task (s : State G) : PC G → Prop
  | .rpar n r ik => s.Goods n ik ∧ ∀ c, r = some c → s.dead c = false
  | .rgot p n r ik => s.Goods n ik ∧ (∀ c, r = some c → s.dead c = false) ∧ s.dS p = false
  | .rmod p n r ik => s.Goods n ik ∧ (∀ c, r = some c → s.dead c = false) ∧ s.dS p = false
  | .dpar q p _ ik y => s.Goods q ik ∧ s.Goods p y ∧ Anc s.parent p q ∧ s.elo q = y ∧ s.dS p = false
  | .dgot _ q p _ ik y => s.Goods q ik ∧ s.Goods p y ∧ Anc s.parent p q ∧ s.elo q = y ∧ s.dS p = false
  | .dset _ q p _ ik y => s.Goods q ik ∧ s.Goods p y ∧ Anc s.parent p q ∧ s.elo q = y ∧ s.dS p = false
  | .dtop _ p _ y => s.Goods p y ∧ s.dS p = false
  | .rend p _ ik => s.Goods p ik ∧ s.dS p = false
  | .rnext p ik => s.Goods p ik ∧ s.dS p = false
  | _ => True

/-- What is known of a node that was split off. -/
def State.New (s : State G) (n c x : Nat) : Prop :=
  s.elo c = x ∧ s.elo n < x ∧ s.dead n = false ∧ s.dead c = false ∧ (s.leaf c = false → s.rt c = false)

/-- Nodes are below their parents. -/
def State.Ranked (s : State G) (rk : Nat → Nat) : Prop :=
  (∀ n p, n < s.fresh → s.parent n = some p → rk n < rk p) ∧ ∀ i n c x, (s.pc i).Pending n c x → rk c ≤ rk n

structure Neat (s : State G) : Prop where
  rank : ∃ rk, s.Ranked rk
  new : ∀ i n c x, (s.pc i).Pending n c x → s.New n c x
  root : s.Root
  tree : (∀ i, ¬ (s.pc i).Removing) → s.Tree .idle
  task : ∀ i, (s.pc i).Removing → s.Tree (s.pc i) ∧ s.Task (s.pc i)

theorem init_neat {s : State G} (h : Init s) : Neat s := by
  have hp : ∀ n p, n < s.fresh → s.parent n ≠ some p := by
    intro n p hn
    rw [h.fresh] at hn
    obtain rfl : n = 0 := by omega
    rw [h.parent]; simp
  have hl : ∀ p, p < s.fresh → s.leaf p ≠ false := by
    intro p hp
    rw [h.fresh] at hp
    obtain rfl : p = 0 := by omega
    rw [h.leaf]; simp
  refine ⟨⟨fun _ => 0, fun n p h1 h2 => absurd h2 (hp n p h1), fun i n c x hx => ?_⟩, fun i n c x hx => ?_,
    fun p h1 h2 => absurd h2 (hl p h1), fun _ => ?_, fun i hx => ?_⟩
  · rw [h.pc] at hx; exact hx.elim
  · rw [h.pc] at hx; exact hx.elim
  · exact ⟨fun n p h1 h2 => absurd h2 (hp n p h1), fun p q h1 h2 => absurd h2 (hl p h1), fun n p h1 h2 => absurd h2 (hp n p h1),
      fun p j z q h1 h2 => absurd h2 (hl p h1)⟩
  · rw [h.pc] at hx; exact hx.elim

/-! ### The way up -/

section
variable {P P' : Nat → Option Nat}

theorem Anc.head {m a : Nat} (h : Anc P m a) : a = m ∨ ∃ p, P m = some p ∧ Anc P p a := by
  induction h with
  | refl => exact Or.inl rfl
  | up h hq ih =>
    rcases ih with rfl | ⟨p, h1, h2⟩
    · exact Or.inr ⟨_, hq, .refl⟩
    · exact Or.inr ⟨p, h1, .up h2 hq⟩

theorem Anc.step {m p a : Nat} (hp : P m = some p) (h : Anc P p a) : Anc P m a := by
  induction h with
  | refl => exact .up .refl hp
  | up h hq ih => exact .up ih hq

theorem Anc.trans {m p a : Nat} (h1 : Anc P m p) (h : Anc P p a) : Anc P m a := by
  induction h with
  | refl => exact h1
  | up h hq ih => exact .up ih hq

/-- Parents that are changed only elsewhere. -/
theorem Anc.congr {m a : Nat} (hP : ∀ a, Anc P m a → P' a = P a) (h : Anc P' m a) : Anc P m a := by
  induction h with
  | refl => exact .refl
  | up h hq ih => exact .up ih (by rw [← hP _ ih]; exact hq)

theorem Anc.congr' {m a : Nat} (hP : ∀ a, Anc P m a → P' a = P a) (h : Anc P m a) : Anc P' m a := by
  induction h with
  | refl => exact .refl
  | up h hq ih => exact .up ih (by rw [hP _ h]; exact hq)

end

theorem Anc.lt {s : State G} (h : Inv s) {m a : Nat} (hm : m < s.fresh) (ha : Anc s.parent m a) : a < s.fresh := by
  induction ha with
  | refl => exact hm
  | up _ hq ih => exact (h.parent _ _ ih hq).1

theorem Anc.rank {s : State G} (h : Inv s) {rk : Nat → Nat} (hr : s.Ranked rk) {m a : Nat} (hm : m < s.fresh)
    (ha : Anc s.parent m a) : rk m ≤ rk a := by
  induction ha with
  | refl => exact Nat.le_refl _
  | up ha hq ih => have := hr.1 _ _ (ha.lt h hm) hq; omega

/-- Nothing is above itself. -/
theorem Anc.not {s : State G} (h : Inv s) (hn : ∃ rk, s.Ranked rk) {q p : Nat} (hq : q < s.fresh) (hp : s.parent q = some p)
    (ha : Anc s.parent p q) : False := by
  obtain ⟨rk, hr⟩ := hn
  have h1 := hr.1 _ _ hq hp
  have := ha.rank h hr (h.parent _ _ hq hp).1
  omega

/-- Two nodes on a way up have not the same parent. -/
theorem Anc.one {s : State G} (h : Inv s) (hn : ∃ rk, s.Ranked rk) {m a b p : Nat} (hm : m < s.fresh) (ha : Anc s.parent m a)
    (hb : Anc s.parent m b) (h1 : s.parent a = some p) (h2 : s.parent b = some p) : a = b := by
  have key : ∀ a, Anc s.parent m a → ∀ b, Anc s.parent m b → Anc s.parent a b ∨ Anc s.parent b a := by
    intro a ha
    induction ha with
    | refl => exact fun b hb => Or.inl hb
    | up ha hq ih =>
      intro b hb
      rcases ih b hb with h3 | h3
      · rcases h3.head with rfl | ⟨p, h4, h5⟩
        · exact Or.inr (.up .refl hq)
        · rw [hq] at h4; cases h4; exact Or.inl h5
      · exact Or.inr (.up h3 hq)
  rcases key a ha b hb with h3 | h3
  · rcases h3.head with rfl | ⟨p', h4, h5⟩
    · rfl
    · rw [h1] at h4; cases h4
      exact (h5.not h hn (hb.lt h hm) h2).elim
  · rcases h3.head with rfl | ⟨p', h4, h5⟩
    · rfl
    · rw [h2] at h4; cases h4
      exact (h5.not h hn (ha.lt h hm) h1).elim

/-! ### Nobody else -/

theorem Removing.owns {x : PC G} (h : x.Removing) : ∃ n, x.Owns n := by
  cases x <;> first | exact h.elim | exact ⟨_, rfl⟩ | exact ⟨_, Or.inl rfl⟩

theorem Lone.other {s : State G} (h : Inv s) (hl : Lone s) {i j : Nat} (hi : (s.pc i).Removing) {n : Nat}
    (ho : (s.pc j).Owns n) : j = i := hl i j n hi (h.own j n ho)

theorem Pending.owns {x : PC G} {n c y : Nat} (h : x.Pending n c y) : x.Owns c := by
  cases x <;> simp [PC.Pending] at h <;> simp [PC.Owns, h]

theorem Lone.holder {s : State G} (hl : Lone s) {i : Nat} (hi : (s.pc i).Removing) (n : Nat) :
    s.holder n = .idle ∨ s.holder n = s.pc i := by
  unfold State.holder
  cases hk : s.lock n with
  | none => exact Or.inl rfl
  | some j => rw [hl i j n hi hk]; exact Or.inr rfl

theorem Removing.skew {x : PC G} (h : x.Removing) (n : Nat) : ¬ x.Skew n := by
  cases x <;> first | exact h.elim | exact id

theorem Removing.pending {x : PC G} (h : x.Removing) {a b y : Nat} : ¬ x.Pending a b y := by
  cases x <;> first | exact h.elim | exact id

theorem Lone.flat {s : State G} (h : Inv s) (hl : Lone s) {i : Nat} (hi : (s.pc i).Removing) {n : Nat} (hn : n < s.fresh) :
    s.bd n = s.hi n := by
  rcases h.skew n hn with h1 | h1
  · exact h1
  · rcases hl.holder hi n with h2 | h2 <;> rw [h2] at h1
    · exact h1.elim
    · exact (Removing.skew hi n h1).elim

/-! ### Places -/

theorem Node.next {lo elo bd : Nat → Nat} {l e h : Nat} {K : List Nat} {D : List (Option Nat)} (hl : Node lo elo bd l e h K D)
    {j a z : Nat} (ha : D[j]? = some (some a)) (hz : K[j]? = some z) : ∃ q, D[j + 1]? = some (some q) ∧ elo q = bd a := by
  have key : ∀ (K : List Nat) (C : List (Option Nat)) (c j : Nat), Links lo elo bd (bd c) K C h →
      (some c :: C)[j]? = some (some a) → K[j]? = some z → ∃ q, C[j]? = some (some q) ∧ elo q = bd a := by
    intro K
    induction K with
    | nil => intro C c j _ _ h3; simp at h3
    | cons y K ih =>
      intro C c j h1 h2 h3
      match C, h1 with
      | some d :: C, h1 =>
        match j with
        | 0 => simp at h2; subst h2; exact ⟨d, rfl, h1.1.symm⟩
        | j + 1 => exact ih C d j h1.2.2.2.2 (by simpa using h2) (by simpa using h3)
  match D, hl with
  | some c :: C, hl => exact key K C c j hl.2.2 ha hz
  | none :: C, hl =>
    match K, C, j, hl with
    | [], _, _, _ => simp at hz
    | _ :: _, _, 0, _ => simp at ha
    | y :: K, some d :: C, j + 1, hl => exact key K C d j hl.2.2.2.2 (by simpa using ha) (by simpa using hz)

theorem Node.none {lo elo bd : Nat → Nat} {l e h : Nat} {K : List Nat} {D : List (Option Nat)} (hl : Node lo elo bd l e h K D)
    {j : Nat} : D[j + 1]? ≠ some none := by
  intro hj
  match D, hl with
  | some c :: C, hl => exact hl.2.2.some (List.mem_of_getElem? (by simpa using hj))
  | .none :: C, hl => exact Links.some hl (List.mem_of_getElem? (by simpa using hj))

/-- A sorted list searched for its place `j`. -/
theorem count_at {K : List Nat} {j k : Nat} (hs : K.Pairwise (· < ·)) (hj : j ≤ K.length)
    (h1 : ∀ j' z, j = j' + 1 → K[j']? = some z → z ≤ k) (h2 : ∀ z, K[j]? = some z → k < z) : K.countP (· ≤ k) = j := by
  induction K generalizing j with
  | nil => simp at hj ⊢; omega
  | cons y K ih =>
    rw [count_cons hs]
    match j with
    | 0 =>
      have := h2 y rfl
      rw [if_neg (by omega)]
    | j + 1 =>
      have hp := List.pairwise_cons.mp hs
      have hy : y ≤ k := by
        have h3 := h1 j
        match j with
        | 0 => exact h3 y rfl rfl
        | j + 1 =>
          have hj' : j < K.length := by simp at hj; omega
          have := h3 (K[j]) rfl (by simp [hj'])
          have := hp.1 K[j] (List.getElem_mem hj')
          omega
      rw [if_pos hy, ih hp.2 (by simpa using hj) (fun j' z e hz => h1 (j' + 1) z (by omega) (by simpa using hz))
        (fun z hz => h2 z (by simpa using hz))]

/-- The key looked for is not there. -/
theorem not_mem_at {K : List Nat} {j k : Nat} (hs : K.Pairwise (· < ·)) (hj : j ≤ K.length)
    (h1 : ∀ j' z, j = j' + 1 → K[j']? = some z → z < k) (h2 : ∀ z, K[j]? = some z → k < z) : k ∉ K := by
  intro hk
  obtain ⟨a, ha, e⟩ := List.mem_iff_getElem.1 hk
  have hs' := List.pairwise_iff_getElem.1 hs
  rcases Nat.lt_or_ge a j with h3 | h3
  · obtain ⟨j', rfl⟩ : ∃ j', j = j' + 1 := ⟨j - 1, by omega⟩
    have h4 := h1 j' K[j'] rfl (by simp)
    rcases Nat.lt_or_eq_of_le (Nat.le_of_lt_succ h3) with h5 | h5
    · have := hs' a j' ha (by omega) h5; omega
    · subst h5; omega
  · have hj' : j < K.length := by omega
    have h4 := h2 K[j] (by simp [hj'])
    rcases Nat.lt_or_eq_of_le h3 with h5 | h5
    · have := hs' j a hj' ha h5; omega
    · subst h5; omega

end Verif.Prune
