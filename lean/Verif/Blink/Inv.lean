import Verif.Blink.Lists

/-!
# Invariant of a layer under concurrent operations
-/
namespace Verif.Blink

variable {G : Type}

/-- The nodes a thread has locked. -/
def PC.Owns : PC G → Nat → Prop
  | .hold n, q => q = n
  | .pub n, q => q = n
  | .par n c _ t, q => q = n ∨ q = c ∨ t = some q
  | .got p n c _ t, q => q = p ∨ q = n ∨ q = c ∨ t = some q
  | .mrk p n c _ t, q => q = p ∨ q = n ∨ q = c ∨ t = some q
  | .mod p n c _ t, q => q = p ∨ q = n ∨ q = c ∨ t = some q
  | .fin p nx n c _ t, q => p = some q ∨ nx.map Prod.fst = some q ∨ q = n ∨ q = c ∨ t = some q
  | .cut p nx n c _, q => p = some q ∨ nx.map Prod.fst = some q ∨ q = n ∨ q = c
  | .rel p nx n t, q => p = some q ∨ nx.map Prod.fst = some q ∨ q = n ∨ q = t
  | .unl p t, q => q = p ∨ q = t
  | _, _ => False

/-- The node of which the parent knows already that it has split, but which is not cut yet. -/
def PC.Half : PC G → Nat → Prop
  | .fin _ _ n _ _ _, q => q = n
  | .cut _ _ n _ _, q => q = n
  | _, _ => False

/-- The node that is not in a parent yet. -/
def PC.Loose : PC G → Nat → Prop
  | .par _ c _ _, q => q = c
  | .got _ _ c _ _, q => q = c
  | .mrk _ _ c _ _, q => q = c
  | .mod _ _ c _ _, q => q = c
  | .fin _ nx _ _ _ _, q => nx.map Prod.fst = some q
  | .cut _ nx _ _ _, q => nx.map Prod.fst = some q
  | .rel _ nx _ _, q => nx.map Prod.fst = some q
  | _, _ => False

/-- A leaf split is going on and the left leaf is not stripped yet. -/
def PC.Pre : PC G → Prop
  | .par _ _ _ t => t = none
  | .got _ _ _ _ t => t = none
  | .mrk _ _ _ _ t => t = none
  | .mod _ _ _ _ t => t = none
  | .fin _ _ _ _ _ t => t = none
  | .cut _ _ _ _ _ => True
  | _ => False

/-- Where the holder of a lock is. -/
def State.holder (s : State G) (n : Nat) : PC G :=
  match s.lock n with
  | some i => s.pc i
  | none => .idle

/-- A reader with version `vs` of `n` is right to look for `k` there. -/
def State.In (s : State G) (n k vs : Nat) : Prop :=
  n < s.fresh ∧ s.lo n ≤ k ∧ vs ≤ s.spl n ∧ (s.spl n = vs → s.dS n = false → k < s.hi n)

/-- `l` is the leaf for `k`. -/
def State.Target (s : State G) (k l : Nat) : Prop :=
  l < s.fresh ∧ s.leaf l = true ∧ s.lo l ≤ k ∧ k < s.hi l

/-- `c` was split off `n` at `x`. -/
def State.Pair (s : State G) (n c x : Nat) : Prop :=
  n < s.fresh ∧ c < s.fresh ∧ n ≠ c ∧ s.lo n < x ∧ s.lo c = x ∧ x < s.hi n ∧ s.hi c = s.hi n ∧ s.phi c = s.hi n ∧
  s.chi c = s.hi n ∧ s.leaf c = s.leaf n

/-- The parent does not know that yet. -/
def State.Open (s : State G) (n c x : Nat) : Prop :=
  s.Pair n c x ∧ s.phi n = s.hi n ∧ s.parent c = none

/-- What is known of the nodes and the leaf for the new key. -/
def State.Level (s : State G) (k n c x : Nat) : Option Nat → Prop
  | none => s.leaf n = true ∧ s.lo n ≤ k ∧ k < s.hi n ∧ s.next n = some c
  | some l => s.leaf n = false ∧ s.dS n = true ∧ s.chi n = x ∧ s.Target k l

/-- The parent, and the internode split off it. -/
def State.Above (s : State G) : Option Nat → Option (Nat × Nat) → Prop
  | none, nx => nx = none
  | some p, none => p < s.fresh ∧ s.leaf p = false ∧ s.dS p = false
  | some p, some (c, y) => s.leaf p = false ∧ s.dS p = true ∧ s.chi p = y ∧ s.Open p c y

/-- What a thread knows. -/
def State.Loc (s : State G) (k : Nat) : PC G → Prop
  | .idle => True
  | .up n => n < s.fresh ∧ s.lo n = 0
  | .at_ n vi vs => s.In n k vs ∧ vi ≤ s.ins n
  | .pick n vi vs c => s.In n k vs ∧ vi ≤ s.ins n ∧ s.leaf n = false ∧
      (s.same n vi vs → c = routeOf (s.keys n) (s.kids n) k)
  | .picked n vi vs c ci cs => s.In n k vs ∧ vi ≤ s.ins n ∧ s.leaf n = false ∧
      (s.same n vi vs → s.In c k cs ∧ ci ≤ s.ins c)
  | .cmp n vi vs => n < s.fresh ∧ s.lo n ≤ k ∧ vs ≤ s.spl n ∧ vi ≤ s.ins n
  | .adv n vi vs => n < s.fresh ∧ s.lo n ≤ k ∧ vs ≤ s.spl n ∧ vi ≤ s.ins n ∧ s.leaf n = true
  | .go n => n < s.fresh ∧ s.lo n ≤ k ∧ s.leaf n = true
  | .read n vi vs _ => s.In n k vs ∧ vi ≤ s.ins n ∧ s.leaf n = true
  | .done _ => True
  | .hold n => s.Target k n
  | .pub n => s.Target k n
  | .par n c x t => s.Open n c x ∧ s.Level k n c x t ∧ t ≠ some n ∧ t ≠ some c
  | .got p n c x t => s.Open n c x ∧ s.Level k n c x t ∧ t ≠ some n ∧ t ≠ some c ∧ s.Above (some p) none ∧ p ≠ n ∧ p ≠ c ∧
      t ≠ some p ∧ s.dI p = false
  | .mrk p n c x t => s.Open n c x ∧ s.Level k n c x t ∧ t ≠ some n ∧ t ≠ some c ∧ s.Above (some p) none ∧ p ≠ n ∧ p ≠ c ∧
      t ≠ some p ∧ s.parent n = some p
  | .mod p n c x t => s.Open n c x ∧ s.Level k n c x t ∧ t ≠ some n ∧ t ≠ some c ∧ s.Above (some p) none ∧ p ≠ n ∧ p ≠ c ∧
      t ≠ some p ∧ s.parent n = some p ∧ s.dI p = true
  | .fin p nx n c x t => s.Pair n c x ∧ s.phi n = x ∧ s.Level k n c x t ∧ t ≠ some n ∧ t ≠ some c ∧ s.Above p nx ∧
      p ≠ some n ∧ p ≠ some c ∧ (p = t → p = none) ∧ nx.map Prod.fst ≠ some n ∧ nx.map Prod.fst ≠ some c ∧
      (nx.map Prod.fst = t → t = none)
  | .cut p nx n c x => s.Pair n c x ∧ s.phi n = x ∧ s.Level k n c x none ∧ s.dS n = true ∧ s.Above p nx ∧
      p ≠ some n ∧ p ≠ some c ∧ nx.map Prod.fst ≠ some n ∧ nx.map Prod.fst ≠ some c
  | .rel p nx q t => s.Target k t ∧ q < s.fresh ∧ q ≠ t ∧ s.chi q = s.hi q ∧ s.Above p nx ∧
      p ≠ some q ∧ p ≠ some t ∧ nx.map Prod.fst ≠ some q ∧ nx.map Prod.fst ≠ some t
  | .unl p t => s.Target k t ∧ s.Above (some p) none ∧ p ≠ t

structure Inv (s : State G) : Prop where
  own : ∀ i n, (s.pc i).Owns n → s.lock n = some i
  lck : ∀ i n, s.lock n = some i → (s.pc i).Owns n
  dirty : ∀ n, s.lock n = none → s.dI n = false ∧ s.dS n = false
  alloc : ∀ n, s.fresh ≤ n → s.lock n = none
  rng : ∀ n, n < s.fresh → s.lo n < s.phi n ∧ s.phi n ≤ s.hi n ∧ s.hi n ≤ top ∧ s.lo n < s.chi n ∧ s.chi n ≤ s.hi n
  leafChi : ∀ n, n < s.fresh → s.leaf n = true → s.chi n = s.hi n
  chi : ∀ n, n < s.fresh → s.dS n = false → s.chi n = s.hi n
  phi : ∀ n, n < s.fresh → s.phi n = s.hi n ∨ (s.holder n).Half n
  att : ∀ n, n < s.fresh → s.parent n = none → (s.lo n = 0 ∧ s.phi n = top) ∨ (s.holder n).Loose n
  parent : ∀ n p, n < s.fresh → s.parent n = some p → p < s.fresh ∧ s.leaf p = false
  slot : ∀ n p, n < s.fresh → s.parent n = some p → ∀ k, s.lo n ≤ k → k < s.phi n →
    s.lo p ≤ k ∧ k < s.chi p ∧ routeOf (s.keys p) (s.kids p) k = n
  good : ∀ p, p < s.fresh → s.leaf p = false → Good (s.lo p) (s.chi p) (s.keys p) (s.kids p)
  kid : ∀ p q, p < s.fresh → s.leaf p = false → q ∈ s.kids p → q < s.fresh ∧ s.parent q = some p
  kidRng : ∀ p k, p < s.fresh → s.leaf p = false → s.lo p ≤ k → k < s.chi p →
    s.lo (routeOf (s.keys p) (s.kids p) k) ≤ k ∧ k < s.phi (routeOf (s.keys p) (s.kids p) k)
  rt : ∀ n, n < s.fresh → s.rt n = true → s.lo n = 0 → s.dS n = false → s.hi n = top
  root : s.root < s.fresh ∧ s.lo s.root = 0
  base : ∀ i, s.pc i ≠ .idle → s.base i < s.fresh ∧ s.lo (s.base i) = 0
  key : ∀ i, s.pc i ≠ .idle → s.key i < top
  val : ∀ n k, n < s.fresh → s.leaf n = true → s.lo n ≤ k → k < s.hi n → s.items n k = s.m k
  dom : ∀ n k, n < s.fresh → s.leaf n = true → s.items n k ≠ none → s.lo n ≤ k ∧ k < s.hi n
  disj : ∀ a b k, a < s.fresh → b < s.fresh → a ≠ b → s.leaf a = true → s.leaf b = true → s.lo a ≤ k → k < s.hi a →
    s.lo b ≤ k → k < s.hi b → s.lock a ≠ none ∧ s.lock a = s.lock b ∧ (s.holder a).Pre
  last : ∀ n, n < s.fresh → s.leaf n = true → s.next n = none → s.hi n = top
  next : ∀ n r, n < s.fresh → s.leaf n = true → s.next n = some r → r < s.fresh ∧ s.leaf r = true ∧ s.lo r ≤ s.hi n
  loc : ∀ i, s.Loc (s.key i) (s.pc i)

theorem init_inv {s : State G} (h : Init s) : Inv s := by
  obtain ⟨h1, h2, h3, h4, h5, h6, h7, h8, h9, ⟨h10, h10', h10''⟩, h11, h12, h13⟩ := h
  have htop : 0 < top := by unfold top; omega
  have hz : ∀ n, n < s.fresh → n = 0 := by omega
  constructor
  case rng => intro n hn; obtain rfl := hz n hn; omega
  case leafChi => intro n hn; obtain rfl := hz n hn; omega
  case chi => intro n hn; obtain rfl := hz n hn; omega
  case phi => intro n hn; obtain rfl := hz n hn; omega
  case att => intro n hn; obtain rfl := hz n hn; intro _; exact Or.inl ⟨h9, h10'⟩
  case root => rw [h2]; omega
  case dirty => exact fun n _ => h5 n
  case last => intro n hn; obtain rfl := hz n hn; intros; exact h10
  case rt => intro n hn; obtain rfl := hz n hn; intros; exact h10
  case val => intro n k hn; obtain rfl := hz n hn; intros; rw [h11]
  case dom =>
    intro n k hn; obtain rfl := hz n hn
    intro _ hk
    rw [h11] at hk
    have := h12 k hk
    omega
  all_goals grind [State.clean, PC.Owns, State.Loc, State.holder]

end Verif.Blink
