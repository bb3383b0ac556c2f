import Verif.Prune.Lists

/-!
# Invariant of a layer with removals

It holds as long as the changes of internodes are tidy: the search for the place of a change finds the child meant.
-/
namespace Verif.Prune

variable {G : Type}

/-- The search counts the keys up to the one looked for, if the keys are sorted. -/
def Counts (up : List Nat → Nat → Nat) : Prop := ∀ K k, K.Pairwise (· < ·) → up K k = K.countP (· ≤ k)

/-- Whenever a thread is about to change an internode, the search has found the child meant, and the new key is between its
neighbours. -/
structure Tidy (up : List Nat → Nat → Nat) (s : State G) : Prop where
  /-- Not asserted in the code. -/
  mod : ∀ i p n c x t, s.pc i = .mod p n c x t → (s.kids p)[up (s.keys p) x]? = some (some n) ∧ x ∉ s.keys p
  /-- /repo/masstree_remove.hh:224. -/
  rmod : ∀ i p n r ik, s.pc i = .rmod p n r ik → (s.kids p)[up (s.keys p) ik]? = some (some n)
  /-- /repo/masstree_remove.hh:268; the rest is not asserted in the code. -/
  dset : ∀ i u q p n ik y, s.pc i = .dset u q p n ik y → (s.kids u)[up (s.keys u) ik]? = some (some q) ∧
    ∀ j, up (s.keys u) ik = j + 1 →
      (∀ z, (s.keys u)[j]? = some z → z ≤ y) ∧ ∀ z, (s.keys u)[j + 1]? = some z → y < z

/-- The nodes a thread has locked. -/
def PC.Owns : PC G → Nat → Prop
  | .hold n, q => q = n
  | .pub n, q => q = n
  | .par n c _ t, q => q = n ∨ q = c ∨ t = some q
  | .got p n c _ t, q => q = p ∨ q = n ∨ q = c ∨ t = some q
  | .mod p n c _ t, q => q = p ∨ q = n ∨ q = c ∨ t = some q
  | .fin p nx n c _ t, q => p = some q ∨ nx.map Prod.fst = some q ∨ q = n ∨ q = c ∨ t = some q
  | .cut p nx n c _, q => p = some q ∨ nx.map Prod.fst = some q ∨ q = n ∨ q = c
  | .rel p nx n t, q => p = some q ∨ nx.map Prod.fst = some q ∨ q = n ∨ q = t
  | .unl p t, q => q = p ∨ q = t
  | .ulk n, q => q = n
  | .rpar n _ _, q => q = n
  | .rgot p n _ _, q => q = p ∨ q = n
  | .rmod p n _ _, q => q = p ∨ q = n
  | .dpar a p n _ _, q => q = a ∨ q = p ∨ q = n
  | .dgot u a p n _ _, q => q = u ∨ q = a ∨ q = p ∨ q = n
  | .dset u _ p n _ _, q => q = u ∨ q = p ∨ q = n
  | .dtop u p n _, q => q = u ∨ q = p ∨ q = n
  | .rend p n _, q => q = p ∨ q = n
  | .rnext p _, q => q = p
  | _, _ => False

/-- The nodes whose parent does not know yet where they end now, or knows it before they do. -/
def PC.Skew : PC G → Nat → Prop
  | .par n _ _ t, q => q = n ∧ t ≠ none
  | .got _ n _ _ t, q => q = n ∧ t ≠ none
  | .mod _ n _ _ t, q => q = n ∧ t ≠ none
  | .fin p nx n _ _ t, q => q = n ∧ t = none ∨ p = some q ∧ nx ≠ none
  | .cut p nx n _ _, q => q = n ∨ p = some q ∧ nx ≠ none
  | .rel p nx _ _, q => p = some q ∧ nx ≠ none
  | _, _ => False

/-- The node that is not in a parent yet. -/
def PC.Loose : PC G → Nat → Prop
  | .par _ c _ _, q => q = c
  | .got _ _ c _ _, q => q = c
  | .mod _ _ c _ _, q => q = c
  | .fin _ nx _ _ _ _, q => nx.map Prod.fst = some q
  | .cut _ nx _ _ _, q => nx.map Prod.fst = some q
  | .rel _ nx _ _, q => nx.map Prod.fst = some q
  | _, _ => False

/-- A leaf split is going on and the left leaf is not stripped yet. -/
def PC.Pre : PC G → Prop
  | .par _ _ _ t => t = none
  | .got _ _ _ _ t => t = none
  | .mod _ _ _ _ t => t = none
  | .fin _ _ _ _ _ t => t = none
  | .cut _ _ _ _ _ => True
  | _ => False

/-- Where the holder of a lock is. -/
def State.holder (s : State G) (n : Nat) : PC G :=
  match s.lock n with
  | some i => s.pc i
  | none => .idle

/-- A reader with version `vs` of `n` is right to look for `k` there. -/
def State.In (s : State G) (n k vs : Nat) : Prop :=
  n < s.fresh ∧ s.lo n ≤ k ∧ vs ≤ s.spl n ∧ (s.spl n = vs → s.dS n = false → s.dead n = false → k < s.hi n)

/-- `l` is the leaf for `k`. -/
def State.Target (s : State G) (k l : Nat) : Prop :=
  l < s.fresh ∧ s.leaf l = true ∧ s.lo l ≤ k ∧ k < s.hi l ∧ s.dead l = false ∧ s.gone l = false

/-- `c` was split off `n` at `x`. -/
def State.Pair (s : State G) (n c x : Nat) : Prop :=
  n < s.fresh ∧ c < s.fresh ∧ n ≠ c ∧ 0 < x ∧ s.lo c = x ∧ x ≤ s.elo c ∧ x < s.bd c ∧ s.leaf c = s.leaf n

/-- The parent does not know that yet. -/
def State.Open (s : State G) (n c x : Nat) : Prop :=
  s.Pair n c x ∧ s.bd c = s.bd n ∧ s.parent c = none

/-- What is known of the nodes and the leaf for the new key. -/
def State.Level (s : State G) (k n c x : Nat) : Option Nat → Prop
  | none => s.leaf n = true ∧ s.lo n ≤ k ∧ k < s.hi n ∧ s.next n = some c ∧ s.lo n < x ∧ s.hi n = s.hi c ∧ x < s.hi n ∧
      s.dead n = false ∧ s.gone n = false ∧ s.dead c = false ∧ s.gone c = false
  | some l => s.leaf n = false ∧ s.dS n = true ∧ s.hi n = s.elo c ∧ s.Target k l

/-- The parent, and the internode split off it. -/
def State.Above (s : State G) : Option Nat → Option (Nat × Nat) → Prop
  | none, nx => nx = none
  | some p, none => p < s.fresh ∧ s.leaf p = false
  | some p, some (c, y) => s.leaf p = false ∧ s.dS p = true ∧ s.hi p = s.elo c ∧ s.Open p c y

/-- `n` is deleted and may be taken out of its parent in favour of the other node. -/
def State.Out (s : State G) (n : Nat) : Option Nat → Prop
  | none => n < s.fresh ∧ s.dead n = true ∧ s.dS n = true ∧ s.elo n = s.bd n ∧ (s.leaf n = true → s.gone n = true)
  | some c => n < s.fresh ∧ s.dead n = true ∧ s.dS n = true ∧ s.leaf n = false ∧ c < s.fresh ∧ s.parent c = some n ∧
      s.elo c = s.elo n ∧ s.bd c = s.bd n ∧ s.lo c ≤ s.lo n

/-- The internode that has lost a child. -/
def State.Inner (s : State G) (p n : Nat) : Prop := p < s.fresh ∧ s.leaf p = false ∧ s.dead p = false ∧ p ≠ n ∧ n < s.fresh

/-- The key on the left of `q` may become `y`. -/
def State.Shift (s : State G) (q y : Nat) : Prop :=
  q < s.fresh ∧ s.leaf q = false ∧ 0 < y ∧ y ≤ s.elo q ∧ y < s.bd q

/-- What a thread knows. -/
def State.Loc (s : State G) (k : Nat) : PC G → Prop
  | .idle => True
  | .up n => n < s.fresh ∧ s.lo n = 0
  | .at_ n vi vs => s.In n k vs ∧ vi ≤ s.ins n
  | .pick n vi vs c => s.In n k vs ∧ vi ≤ s.ins n ∧ s.leaf n = false ∧
      (s.same n vi vs → c < s.fresh ∧ s.parent c = some n ∧ s.lo c ≤ k ∧ k < s.bd c)
  | .picked n vi vs c ci cs => s.In n k vs ∧ vi ≤ s.ins n ∧ s.leaf n = false ∧
      (s.same n vi vs → s.In c k cs ∧ ci ≤ s.ins c)
  | .cmp n vi vs => n < s.fresh ∧ s.lo n ≤ k ∧ vs ≤ s.spl n ∧ vi ≤ s.ins n
  | .adv n vi vs => n < s.fresh ∧ s.lo n ≤ k ∧ vs ≤ s.spl n ∧ vi ≤ s.ins n ∧ s.leaf n = true
  | .go n => n < s.fresh ∧ s.lo n ≤ k ∧ s.leaf n = true
  | .read n vi vs _ => s.In n k vs ∧ vi ≤ s.ins n ∧ s.leaf n = true ∧ (s.spl n = vs → s.dS n = false → s.dead n = false)
  | .done _ => True
  | .hold n => s.Target k n
  | .pub n => s.Target k n
  | .par n c x t => s.Open n c x ∧ s.Level k n c x t ∧ t ≠ some n ∧ t ≠ some c
  | .got p n c x t => s.Open n c x ∧ s.Level k n c x t ∧ t ≠ some n ∧ t ≠ some c ∧ s.Above (some p) none ∧ p ≠ n ∧ p ≠ c ∧
      t ≠ some p
  | .mod p n c x t => s.Open n c x ∧ s.Level k n c x t ∧ t ≠ some n ∧ t ≠ some c ∧ s.Above (some p) none ∧ p ≠ n ∧ p ≠ c ∧
      t ≠ some p ∧ s.parent n = some p ∧ s.dI p = true
  | .fin p nx n c x t => s.Pair n c x ∧ s.bd n = s.elo c ∧ s.Level k n c x t ∧ t ≠ some n ∧ t ≠ some c ∧ s.Above p nx ∧
      p ≠ some n ∧ p ≠ some c ∧ (p = t → p = none) ∧ nx.map Prod.fst ≠ some n ∧ nx.map Prod.fst ≠ some c ∧
      (nx.map Prod.fst = t → t = none)
  | .cut p nx n c x => s.Pair n c x ∧ s.bd n = s.elo c ∧ s.Level k n c x none ∧ s.dS n = true ∧ s.Above p nx ∧
      p ≠ some n ∧ p ≠ some c ∧ nx.map Prod.fst ≠ some n ∧ nx.map Prod.fst ≠ some c
  | .rel p nx q t => s.Target k t ∧ q < s.fresh ∧ q ≠ t ∧ s.Above p nx ∧
      p ≠ some q ∧ p ≠ some t ∧ nx.map Prod.fst ≠ some q ∧ nx.map Prod.fst ≠ some t
  | .unl p t => s.Target k t ∧ s.Above (some p) none ∧ p ≠ t
  | .ulk n => n < s.fresh ∧ s.leaf n = true ∧ s.dead n = true ∧ s.gone n = false ∧ s.lo n ≠ 0 ∧ s.dS n = true ∧
      ∀ k, s.items n k = none
  | .rpar n r _ => s.Out n r
  | .rgot p n r _ => s.Out n r ∧ s.Above (some p) none ∧ p ≠ n
  | .rmod p n r _ => s.Out n r ∧ s.Above (some p) none ∧ p ≠ n ∧ s.parent n = some p ∧ s.dI p = true
  | .dpar q p n _ y => s.Inner p n ∧ s.Shift q y ∧ q ≠ n
  | .dgot u q p n _ y => s.Inner p n ∧ s.Shift q y ∧ q ≠ n ∧ s.Above (some u) none ∧ u ≠ p ∧ u ≠ n ∧ u ≠ q
  | .dset u q p n _ y => s.Inner p n ∧ s.Shift q y ∧ s.Above (some u) none ∧ u ≠ p ∧ u ≠ n ∧ s.parent q = some u
  | .dtop u p n _ => s.Inner p n ∧ s.Above (some u) none ∧ u ≠ p ∧ u ≠ n
  | .rend p n _ => s.Inner p n
  | .rnext p _ => p < s.fresh ∧ s.leaf p = false ∧ s.dead p = false

structure Inv (s : State G) : Prop where
  own : ∀ i n, (s.pc i).Owns n → s.lock n = some i
  lck : ∀ i n, s.lock n = some i → (s.pc i).Owns n
  dirty : ∀ n, s.lock n = none → s.dI n = false ∧ s.dS n = false
  alloc : ∀ n, s.fresh ≤ n → s.lock n = none
  rng : ∀ n, n < s.fresh → s.elo n ≤ s.bd n ∧ s.elo n ≤ s.hi n ∧ s.bd n ≤ top ∧ s.hi n ≤ top
  live : ∀ n, n < s.fresh → s.leaf n = true → s.gone n = false → s.elo n = s.lo n ∧ s.lo n < s.bd n ∧ s.lo n < s.hi n
  gone : ∀ n, n < s.fresh → s.gone n = true → s.leaf n = true ∧ s.dead n = true ∧ s.elo n = s.bd n
  skew : ∀ n, n < s.fresh → s.bd n = s.hi n ∨ (s.holder n).Skew n
  att : ∀ n, n < s.fresh → s.parent n = none → (s.lo n = 0 ∧ s.bd n = top) ∨ (s.holder n).Loose n
  parent : ∀ n p, n < s.fresh → s.parent n = some p → p < s.fresh ∧ s.leaf p = false ∧ (s.lo n = 0 → s.lo p = 0)
  node : ∀ p, p < s.fresh → s.leaf p = false → s.dead p = false →
    Node s.lo s.elo s.bd (s.lo p) (s.elo p) (s.hi p) (s.keys p) (s.kids p)
  deadNode : ∀ p, p < s.fresh → s.leaf p = false → s.dead p = true → s.keys p = [] ∧ s.kids p = [none]
  keys : ∀ p z, p < s.fresh → s.leaf p = false → z ∈ s.keys p → 0 < z ∧ z < s.hi p
  sorted : ∀ p, p < s.fresh → s.leaf p = false → (s.keys p).Pairwise (· < ·)
  kid : ∀ p q, p < s.fresh → s.leaf p = false → some q ∈ s.kids p → q < s.fresh ∧ s.parent q = some p
  nodup : ∀ p, p < s.fresh → s.leaf p = false → (s.kids p).Nodup
  rt : ∀ n, n < s.fresh → s.rt n = true → s.lo n = 0 → s.dS n = false → s.hi n = top
  root : s.root < s.fresh ∧ s.lo s.root = 0
  base : ∀ i, s.pc i ≠ .idle → s.base i < s.fresh ∧ s.lo (s.base i) = 0
  key : ∀ i, s.pc i ≠ .idle → s.key i < top
  val : ∀ n k, n < s.fresh → s.leaf n = true → s.gone n = false → s.lo n ≤ k → k < s.hi n → s.items n k = s.m k
  dom : ∀ n k, n < s.fresh → s.leaf n = true → s.gone n = false → s.items n k ≠ none → s.lo n ≤ k ∧ k < s.hi n
  disj : ∀ a b k, a < s.fresh → b < s.fresh → a ≠ b → s.leaf a = true → s.leaf b = true → s.gone a = false → s.gone b = false →
    s.lo a ≤ k → k < s.hi a → s.lo b ≤ k → k < s.hi b → s.lock a ≠ none ∧ s.lock a = s.lock b ∧ (s.holder a).Pre
  last : ∀ n, n < s.fresh → s.leaf n = true → s.gone n = false → s.next n = none → s.hi n = top
  next : ∀ n r, n < s.fresh → s.leaf n = true → s.next n = some r →
    r < s.fresh ∧ s.leaf r = true ∧ (s.gone n = false → s.lo r ≤ s.hi n)
  loc : ∀ i, s.Loc (s.key i) (s.pc i)

theorem init_inv {s : State G} (h : Init s) : Inv s := by
  obtain ⟨h1, h2, h3, h4, h5, h6, ⟨h7, h7'⟩, h8, h9, h10, ⟨h11, h11', h11''⟩, h12, h13, h14⟩ := h
  have htop : 0 < top := by unfold top; omega
  have hz : ∀ n, n < s.fresh → n = 0 := by omega
  constructor
  case rng => intro n hn; obtain rfl := hz n hn; omega
  case live => intro n hn; obtain rfl := hz n hn; omega
  case gone => intro n hn; obtain rfl := hz n hn; grind
  case skew => intro n hn; obtain rfl := hz n hn; omega
  case att => intro n hn; obtain rfl := hz n hn; intro _; exact Or.inl ⟨h10, h11'⟩
  case root => rw [h2]; omega
  case dirty => exact fun n _ => h5 n
  case last => intro n hn; obtain rfl := hz n hn; intros; exact h11
  case rt => intro n hn; obtain rfl := hz n hn; intros; exact h11
  case val => intro n k hn; obtain rfl := hz n hn; intros; rw [h12]
  case dom =>
    intro n k hn; obtain rfl := hz n hn
    intro _ _ hk
    rw [h12] at hk
    have := h13 k hk
    omega
  all_goals grind [State.clean, PC.Owns, State.Loc, State.holder]

end Verif.Prune
