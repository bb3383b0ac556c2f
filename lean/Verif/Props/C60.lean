import Verif.Tso.Leaf
import Verif.Props.C09
import Mathlib.Data.List.Permutation

/-!
# C60: store buffers

The processors the code runs on delay stores.  Locks, versions and validated lookups work all the same; that a `put` is in the tree
when it returns does not.

Theorems about `Run k` are about all programs that store to objects only while they have the lock, taken by compare-and-exchange.
-/
namespace Verif.Props.C60

open Verif.Tso Verif.NodeVersion

variable {S : Type} {k : Kind S}

/-! ### Locks -/

/-- Two threads never have the same object locked, although the store that unlocks may be late. -/
theorem exclusive (r : Run k) (n : Nat) {t t' o : Nat} (h : (r.at_ n).holds t o) (h' : (r.at_ n).holds t' o) : t = t' :=
  (r.inv n).one _ _ _ (.inl h) (.inl h')

/-- Nor is an object locked by one thread while the stores of another to it are still on their way. -/
theorem drained (r : Run k) (n : Nat) {t t' o : Nat} (h : (r.at_ n).holds t o) (hne : t' ≠ t) {f : S → S} :
    (o, f) ∉ (r.at_ n).buf t' := by
  intro hm
  refine hne ((r.inv n).one _ _ _ (.inr ?_) (.inl h))
  intro hp
  generalize (r.at_ n).buf t' = b at hm hp
  induction b with
  | nil => cases hm
  | cons a b ih =>
    obtain ⟨o', g⟩ := a
    simp only [proj] at hp
    split at hp
    · cases hp
    · rcases List.mem_cons.mp hm with e | hm
      · cases e; contradiction
      · exact ih hm hp

/-- A thread that has the lock sees what others see in memory, and its own stores: nobody else changes what it sees. -/
theorem undisturbed (r : Run k) (n : Nat) {t o : Nat} (h : (r.at_ n).holds t o) :
    (r.at_ (n + 1)).view t o = (r.at_ n).view t o ∨
    ∃ f, (r.at_ (n + 1)).buf t = (r.at_ n).buf t ++ [(o, f)] ∧ (r.at_ (n + 1)).view t o = f ((r.at_ n).view t o) := by
  rcases r.step n with e | hs
  · left; rw [e]
  · exact (r.inv n).own hs (.inl h)

/-! ### Memory is what a machine without buffers would have -/

/-- Locked objects without buffers: memory and who has locked what. -/
structure Sc (S : Type) where
  mem : Nat → S
  owns : Nat → Nat → Prop

inductive ScStep (k : Kind S) : Sc S → Sc S → Prop where
  | acquire {s : Sc S} (t o : Nat) (x : S) (hn : ∀ t', ¬ s.owns t' o) (ha : k.acq (s.mem o) x) :
      ScStep k s ⟨Function.update s.mem o x, fun t' o' => (t' = t ∧ o' = o) ∨ s.owns t' o'⟩
  | work {s : Sc S} (t o : Nat) (x : S) (hh : s.owns t o) (hw : k.work (s.mem o) x) :
      ScStep k s ⟨Function.update s.mem o x, fun t' o' => s.owns t' o' ∧ (t' = t → o' = o → ¬ k.free x)⟩

/-- Memory, and for each object the thread that has it locked or whose stores to it are on their way. -/
def sequential (s : State S) : Sc S := ⟨s.mem, s.Claims⟩

theorem sequential_step {s s' : State S} (h : Inv k s) (h' : Inv k s') (hs : Step k s s') :
    sequential s' = sequential s ∨ ScStep k (sequential s) (sequential s') := by
  unfold sequential
  have push : ∀ {t o : Nat} {f : S → S} {hs : Nat → Nat → Prop}, s.holds t o →
      (∀ t' o', ¬ (t' = t ∧ o' = o) → (hs t' o' ↔ s.holds t' o')) →
      State.Claims ⟨s.mem, Function.update s.buf t (s.buf t ++ [(o, f)]), hs⟩ = s.Claims := by
    intro t o f hs hh h1
    funext t' o'
    refine propext ?_
    unfold State.Claims
    by_cases hne : t' = t ∧ o' = o
    · obtain ⟨rfl, rfl⟩ := hne
      simp [proj_append, proj, hh]
    · simp only [h1 t' o' hne]
      by_cases ht : t' = t
      · subst ht
        have : o ≠ o' := fun e => hne ⟨rfl, e.symm⟩
        simp [proj_append, proj, this]
      · simp [Function.update_of_ne ht]
  cases hs with
  | acquire t o x hb ha =>
    right
    have : (⟨Function.update s.mem o x, State.Claims ⟨Function.update s.mem o x, s.buf,
        fun t' o' => (t' = t ∧ o' = o) ∨ s.holds t' o'⟩⟩ : Sc S) =
        ⟨Function.update s.mem o x, fun t' o' => (t' = t ∧ o' = o) ∨ s.Claims t' o'⟩ := by
      congr 1
      funext t' o'
      simp only [State.Claims, or_assoc]
    rw [this]
    exact .acquire (s := ⟨s.mem, s.Claims⟩) t o x (fun t' hc => h.lock t' o hc (k.acq_free ha).1) ha
  | store t o f hh hw hf =>
    left
    have := push (f := f) hh (hs := s.holds) (fun _ _ _ => Iff.rfl)
    simp only [this]
  | release t o f hh hw hf =>
    left
    have := push (f := f) hh (hs := fun t' o' => s.holds t' o' ∧ ¬ (t' = t ∧ o' = o))
      (fun t' o' hne => ⟨fun hh => hh.1, fun hh => ⟨hh, hne⟩⟩)
    simp only [this]
  | commit t o f l hb =>
    right
    have hc : s.Claims t o := .inr (by rw [hb]; simp [proj])
    have hw := (h.commit hb).2.2
    have hcl : ∀ t' o', State.Claims ⟨Function.update s.mem o (f (s.mem o)), Function.update s.buf t l, s.holds⟩ t' o' ↔
        s.Claims t' o' ∧ (t' = t → o' = o → ¬ k.free (f (s.mem o))) := by
      intro t' o'
      by_cases hne : t' = t ∧ o' = o
      · obtain ⟨rfl, rfl⟩ := hne
        constructor
        · intro g
          have := h'.lock _ _ g
          simp only [Function.update_self] at this
          exact ⟨hc, fun _ _ => this⟩
        · rintro ⟨_, g⟩
          obtain ⟨t1, ht1⟩ := h'.kept o' (by simpa only [Function.update_self] using g rfl rfl)
          have : s.Claims t1 o' := by
            by_cases ht : t1 = t'
            · subst ht; exact hc
            · unfold State.Claims at ht1 ⊢
              simpa [Function.update_of_ne ht] using ht1
          have e := h.one _ _ _ hc this
          subst e
          exact ht1
      · have : proj o' (Function.update s.buf t l t') = proj o' (s.buf t') := by
          by_cases ht : t' = t
          · subst ht
            have : o ≠ o' := fun e => hne ⟨rfl, e.symm⟩
            simp [hb, proj, this]
          · rw [Function.update_of_ne ht]
        simp only [State.Claims, this]
        refine ⟨fun g => ⟨g, fun h1 h2 => absurd ⟨h1, h2⟩ hne⟩, fun g => g.1⟩
    have : State.Claims ⟨Function.update s.mem o (f (s.mem o)), Function.update s.buf t l, s.holds⟩ =
        fun t' o' => s.Claims t' o' ∧ (t' = t → o' = o → ¬ k.free (f (s.mem o))) := by
      funext t' o'; exact propext (hcl t' o')
    simp only [this]
    exact .work (s := ⟨s.mem, s.Claims⟩) t o _ hc hw

/-- Memory goes through the states of a run of that machine: a step of the machine with buffers is a step of that machine, by the
thread whose store arrives, or none. -/
theorem memory_sequential (r : Run k) : ∃ q : Nat → Sc S, (∀ n, (q n).mem = (r.at_ n).mem) ∧
    (∀ n t o, (r.at_ n).holds t o → (q n).owns t o) ∧
    ∀ n, q (n + 1) = q n ∨ ScStep k (q n) (q (n + 1)) := by
  refine ⟨fun n => sequential (r.at_ n), fun _ => rfl, fun _ _ _ h => .inl h, fun n => ?_⟩
  rcases r.step n with e | hs
  · left; simp only [e]
  · exact sequential_step (r.inv n) (r.inv (n + 1)) hs

/-! ### What threads see -/

/-- Whatever a thread sees of an object is in memory then or later, at the latest when its buffer has drained. -/
theorem seen_in_memory (r : Run k) {n m : Nat} (hm : n ≤ m) {t o : Nat} (hb : (r.at_ m).buf t = []) :
    ∃ i, n ≤ i ∧ i ≤ m ∧ (r.at_ i).mem o = (r.at_ n).view t o := by
  rcases r.leads (t := t) (o := o) (n := n) (m - n) with ⟨i, h1, h2, h3⟩ | ⟨l, l', e, hx⟩
  · exact ⟨i, h1, by omega, h3⟩
  · rw [show n + (m - n) = m by omega] at e hx
    rw [hb] at e
    have : l = [] := (List.append_eq_nil_iff.mp e.symm).1
    subst this
    exact ⟨m, hm, Nat.le_refl m, hx⟩

/-- Stores become visible in order: when memory of `o'` shows something (`Q`) that a thread stored there after it had seen the object
`o` in some state, `o` has been in that state in memory.  So whoever finds the pointer to a new node finds the node complete. -/
theorem in_order (r : Run k) {n m : Nat} (hm : n ≤ m) {t o o' : Nat} {Q : S → Prop}
    (hq : ∀ p, p <+: proj o' ((r.at_ n).buf t) → ¬ Q (apply p ((r.at_ n).mem o')))
    (hc : ∀ i, n ≤ i → i < m → (r.at_ i).Claims t o') (hQ : Q ((r.at_ m).mem o')) :
    ∃ i, n ≤ i ∧ i < m ∧ (r.at_ i).mem o = (r.at_ n).view t o := by
  rcases r.before (o := o) hq (m - n) (fun i h1 h2 => hc i h1 (by omega)) with ⟨i, h1, h2, h3⟩ | ⟨l, l', _, _, h3⟩
  · exact ⟨i, h1, by omega, h3⟩
  · rw [show n + (m - n) = m by omega] at h3
    exact absurd hQ (h3 [] List.nil_prefix)

/-! ### Leaves -/

section Leaf

variable {V : Type}

/-- A lookup that validates, by any thread, finds in the leaf what the thread sees in it at some instant of the lookup (C09). -/
theorem found (r : Run (leafKind V)) {t o : Nat} (hi : LeafRead.Init ((r.at_ 0).mem o)) {a tp b : Nat}
    (h : C09.Validated (r.seen t o hi) a tp b) {p : Nat} (hp : p ∈ ((r.at_ tp).view t o).mem.perm) {x l : Nat}
    {suf : List UInt8} {v : V} {t1 t2 t3 t4 t5 : Nat} (h1 : tp ≤ t1 ∧ t1 ≤ b) (h2 : tp ≤ t2 ∧ t2 ≤ b)
    (h34 : tp ≤ t3 ∧ t3 ≤ t4 ∧ t4 ≤ b) (h5 : tp ≤ t5 ∧ t5 ≤ b) (hx : ((r.at_ t1).view t o).mem.ikey p = x)
    (hl : ((r.at_ t2).view t o).mem.lenx p = l)
    (hs : l = LeafRead.ksufLenx → ((r.at_ t4).view t o).mem.bag ((r.at_ t3).view t o).mem.cur p = suf)
    (hv : ((r.at_ t5).view t o).mem.lv p = v) : ∃ i, a ≤ i ∧ i ≤ b ∧ C09.Entry ((r.at_ i).view t o) x l suf v :=
  C09.found h hp h1 h2 h34 h5 hx hl hs hv

/-- The same for keys that are not found. -/
theorem missing (r : Run (leafKind V)) {t o : Nat} (hi : LeafRead.Init ((r.at_ 0).mem o)) {a tp b : Nat}
    (h : C09.Validated (r.seen t o hi) a tp b) {x l : Nat} {suf : List UInt8}
    (hm : ∀ p ∈ ((r.at_ tp).view t o).mem.perm,
      (∃ i, tp ≤ i ∧ i ≤ b ∧ ((r.at_ i).view t o).mem.ikey p ≠ x) ∨ (∃ i, tp ≤ i ∧ i ≤ b ∧ ((r.at_ i).view t o).mem.lenx p ≠ l) ∨
      (l = LeafRead.ksufLenx ∧ ∃ tc i, tp ≤ tc ∧ tc ≤ i ∧ i ≤ b ∧
        ((r.at_ i).view t o).mem.bag ((r.at_ tc).view t o).mem.cur p ≠ suf)) :
    ¬ ∃ v, C09.Entry ((r.at_ tp).view t o) x l suf v :=
  C09.missing h hm

/-- What was found is in memory during the lookup or later, at the latest when the reader's buffer has drained.  If the buffer was
empty before the lookup began and a lookup makes no stores, this is during the lookup. -/
theorem found_in_memory (r : Run (leafKind V)) {t o : Nat} {a m i : Nat} (h1 : a ≤ i) (hm : i ≤ m)
    (hb : (r.at_ m).buf t = []) {x l : Nat} {suf : List UInt8} {v : V} (he : C09.Entry ((r.at_ i).view t o) x l suf v) :
    ∃ j, a ≤ j ∧ j ≤ m ∧ C09.Entry ((r.at_ j).mem o) x l suf v := by
  obtain ⟨j, g1, g2, g3⟩ := seen_in_memory r hm (o := o) hb
  exact ⟨j, by omega, g2, by rw [g3]; exact he⟩

/-- The lock bit is clear in memory exactly if the compare-and-exchange of a thread with an empty buffer succeeds. -/
theorem lockable (r : Run (leafKind V)) {o : Nat} (h : Agree ((r.at_ 0).mem o)) (n t : Nat) (hb : (r.at_ n).buf t = []) :
    locked ((r.at_ n).mem o).v = false ↔
    ∃ s', Step (leafKind V) (r.at_ n) s' ∧ s'.holds t o ∧ (s'.mem o).v = lockWord ((r.at_ n).mem o).v ∧
      ¬ (r.at_ n).holds t o := by
  constructor
  · intro hl
    refine ⟨_, .acquire t o _ hb ⟨hl, (r.agree h n).mp hl, rfl⟩, .inl ⟨rfl, rfl⟩, by simp, fun hh => ?_⟩
    exact (r.inv n).lock t o (.inl hh) hl
  · rintro ⟨s', hs, hh, hv, hno⟩
    generalize r.at_ n = s at *
    cases hs with
    | acquire t1 o1 x hb' ha =>
      rcases hh with ⟨rfl, rfl⟩ | hh
      · exact ha.1
      · exact absurd hh hno
    | store => exact absurd hh hno
    | release => exact absurd hh.1 hno
    | commit => exact absurd hh hno

/-- If the buffers are empty when the lookups read the permutations, at least one of two threads finds the key the other has put
before: `n` and `n'` are the times at which the keys are in memory for good. -/
theorem fenced (r : Run (leafKind V)) {t t' o o' x x' l l' n n' a tp b a' tp' b' : Nat} {suf suf' : List UInt8}
    (hi : LeafRead.Init ((r.at_ 0).mem o)) (hi' : LeafRead.Init ((r.at_ 0).mem o'))
    (hk : ∀ m, n ≤ m → ∃ v, C09.Entry ((r.at_ m).mem o) x l suf v)
    (hk' : ∀ m, n' ≤ m → ∃ v, C09.Entry ((r.at_ m).mem o') x' l' suf' v)
    (h : C09.Validated (r.seen t o' hi') a tp b) (ha : n ≤ a) (he : (r.at_ tp).buf t = [])
    (h' : C09.Validated (r.seen t' o hi) a' tp' b') (ha' : n' ≤ a') (he' : (r.at_ tp').buf t' = []) :
    (∃ v, C09.Entry ((r.at_ tp).view t o') x' l' suf' v) ∨ ∃ v, C09.Entry ((r.at_ tp').view t' o) x l suf v := by
  have e : (r.at_ tp).view t o' = (r.at_ tp).mem o' := by simp [State.view, he, proj, apply]
  have e' : (r.at_ tp').view t' o = (r.at_ tp').mem o := by simp [State.view, he', proj, apply]
  have := h.order
  have := h'.order
  rw [e, e']
  by_cases hn : n ≤ n'
  · exact .inr (hk _ (by omega))
  · exact .inl (hk' _ (by omega))

end Leaf

/-! ### What does not hold -/

/-- An empty leaf. -/
def leaf : LeafRead.State Nat :=
  { v := 0x80000000#32, removing := false, work := .free, next := 1, sessions := 0,
    mem := { perm := [], ikey := fun _ => 0, lenx := fun _ => 0, lv := fun _ => 0, cur := 0, bag := fun _ _ => [] } }

/-- The stores of a `put` of the key with first bytes `x` into an empty leaf, before the one that unlocks. -/
def store1 (s : LeafRead.State Nat) : LeafRead.State Nat := { s with work := .writing 0 }
def store2 (x : Nat) (s : LeafRead.State Nat) : LeafRead.State Nat :=
  { s with mem := { s.mem with ikey := LeafRead.upd s.mem.ikey 0 x } }
def store3 (s : LeafRead.State Nat) : LeafRead.State Nat := { s with mem := { s.mem with lenx := LeafRead.upd s.mem.lenx 0 8 } }
def store4 (x : Nat) (s : LeafRead.State Nat) : LeafRead.State Nat :=
  { s with mem := { s.mem with lv := LeafRead.upd s.mem.lv 0 (x + 100) } }
def store5 (s : LeafRead.State Nat) : LeafRead.State Nat :=
  { s with mem := { s.mem with perm := s.mem.perm.insertIdx 0 0 }, work := .held }

def stores (x : Nat) : List (LeafRead.State Nat → LeafRead.State Nat) := [store1, store2 x, store3, store4 x, store5]

/-- The store that unlocks. -/
def unlockStore (s : LeafRead.State Nat) : LeafRead.State Nat :=
  { s with v := unlockWord s.v, work := .free, sessions := s.sessions + 1 }

/-- The leaf with the lock taken, in memory while the stores are still on their way. -/
def lockedLeaf : LeafRead.State Nat := { leaf with v := lockWord leaf.v, work := .held }

theorem prefix_stores {x : Nat} {p : List (LeafRead.State Nat → LeafRead.State Nat)} (hp : p <+: stores x) :
    locked (apply p lockedLeaf).v = true := by
  have hk : ∀ f ∈ stores x, ∀ s, (f s).v = s.v := by
    intro f hf s
    simp only [stores, List.mem_cons, List.not_mem_nil, or_false] at hf
    rcases hf with rfl | rfl | rfl | rfl | rfl <;> rfl
  have : ∀ (p : List (LeafRead.State Nat → LeafRead.State Nat)), (∀ f ∈ p, ∀ s, (f s).v = s.v) →
      ∀ s, (apply p s).v = s.v := by
    intro p
    induction p with
    | nil => exact fun _ _ => rfl
    | cons f p ih =>
      intro h s
      show (apply p (f s)).v = _
      rw [ih (fun g hg => h g (List.mem_cons_of_mem _ hg)), h f List.mem_cons_self]
  rw [this p (fun f hf => hk f (hp.subset hf))]
  decide

theorem path_stores (x : Nat) : Path (leafKind Nat) lockedLeaf (stores x) := by
  have hl : locked lockedLeaf.v = true := by decide
  exact ⟨⟨hl, .begin (s := lockedLeaf) 0 rfl rfl (by decide)⟩,
   ⟨hl, .ikey (s := store1 lockedLeaf) 0 x rfl⟩,
   ⟨hl, .lenx (s := store2 x (store1 lockedLeaf)) 0 8 rfl⟩,
   ⟨hl, .fill (s := store3 (store2 x (store1 lockedLeaf))) 0 (x + 100) rfl⟩,
   ⟨hl, .publish (s := store4 x (store3 (store2 x (store1 lockedLeaf)))) 0 0 rfl⟩, trivial⟩

/-- The leaf after the `put`. -/
def fullLeaf (x : Nat) : LeafRead.State Nat := unlockStore (apply (stores x) lockedLeaf)

/-- A thread with an empty buffer puts a key in an empty leaf: everything but the taking of the lock is in its buffer. -/
theorem reach_put {s : State (LeafRead.State Nat)} {t o : Nat} (x : Nat) (hb : s.buf t = []) (hm : s.mem o = leaf) :
    ∃ hs, Reach (leafKind Nat) s ⟨Function.update s.mem o lockedLeaf,
      Function.update s.buf t ((stores x ++ [unlockStore]).map (o, ·)), hs⟩ ∧
      ∀ t' o', hs t' o' ↔ s.holds t' o' ∧ ¬ (t' = t ∧ o' = o) := by
  let s1 : State (LeafRead.State Nat) :=
    { s with mem := Function.update s.mem o lockedLeaf, holds := fun t' o' => (t' = t ∧ o' = o) ∨ s.holds t' o' }
  have h1 : Reach (leafKind Nat) s s1 := .tail .refl (.acquire t o lockedLeaf hb (by rw [hm]; exact ⟨by decide, rfl, rfl⟩))
  have hv1 : s1.view t o = lockedLeaf := by simp [s1, State.view, hb, proj, apply]
  have h2 := reach_stores (k := leafKind Nat) (t := t) (o := o) (stores x) s1 (.inl ⟨rfl, rfl⟩)
    (by rw [hv1]; exact path_stores x)
    (fun p hp => by rw [hv1]; show ¬ locked _ = false; rw [prefix_stores hp]; decide)
  generalize hs2 : ({ s1 with buf := Function.update s1.buf t (s1.buf t ++ (stores x).map (o, ·)) } :
    State (LeafRead.State Nat)) = s2 at h2
  have hv2 : s2.view t o = apply (stores x) lockedLeaf := by
    rw [← hs2]
    have : ∀ l : List (LeafRead.State Nat → LeafRead.State Nat), proj o (l.map (o, ·)) = l := by
      intro l; induction l with
      | nil => rfl
      | cons a l ih => simp [proj, ih]
    simp [s1, State.view, hb, this]
  have h3 : Step (leafKind Nat) s2 _ := .release t o unlockStore (by rw [← hs2]; exact .inl ⟨rfl, rfl⟩)
    (by rw [hv2]; exact ⟨prefix_stores (List.prefix_refl _), .unlock rfl⟩) (by rw [hv2]; exact locked_unlockWord _)
  have h4 := Reach.tail (h1.trans h2) h3
  refine ⟨fun t' o' => s2.holds t' o' ∧ ¬ (t' = t ∧ o' = o), ?_, ?_⟩
  · have e : (⟨Function.update s.mem o lockedLeaf, Function.update s.buf t ((stores x ++ [unlockStore]).map (o, ·)),
        fun t' o' => s2.holds t' o' ∧ ¬ (t' = t ∧ o' = o)⟩ : State (LeafRead.State Nat)) =
        { s2 with
          buf := Function.update s2.buf t (s2.buf t ++ [(o, unlockStore)])
          holds := fun t' o' => s2.holds t' o' ∧ ¬ (t' = t ∧ o' = o) } := by
      rw [← hs2]; simp [s1, hb]
    rw [e]; exact h4
  · intro t' o'
    rw [← hs2]
    simp only [s1]
    by_cases h : t' = t ∧ o' = o <;> simp [h]

/-- Operations of the two clients on two keys. -/
inductive Op where
  | put (key : Nat)
  | get (key : Nat)
deriving DecidableEq

/-- The answers to the gets when the operations are done one after the other. -/
def answers : List Op → List Nat → List (Nat × Bool)
  | [], _ => []
  | .put x :: l, m => answers l (x :: m)
  | .get x :: l, m => (x, decide (x ∈ m)) :: answers l m

/-- Whatever the order, if each client gets the other's key after it has put its own, one of them finds it. -/
theorem one_finds (l : List Op) (hl : l.Perm [.put 1, .get 2, .put 2, .get 1]) (h1 : [.put 1, .get 2].Sublist l)
    (h2 : [.put 2, .get 1].Sublist l) : (1, true) ∈ answers l [] ∨ (2, true) ∈ answers l [] := by
  have hm : l ∈ [Op.put 1, .get 2, .put 2, .get 1].permutations' := List.mem_permutations'.mpr hl
  have key : ∀ l ∈ [Op.put 1, .get 2, .put 2, .get 1].permutations', [.put 1, .get 2].Sublist l → [.put 2, .get 1].Sublist l →
      (1, true) ∈ answers l [] ∨ (2, true) ∈ answers l [] := by decide +kernel
  exact key l hm h1 h2

/-- Thread 0 puts the key 1 in leaf 0, and then looks for the key 2 in leaf 1; thread 1 puts the key 2 in leaf 1, and then looks for
the key 1 in leaf 0.  Both lookups validate and neither finds its key.  By `one_finds` no order of the operations explains this:
`put` and `get` are not linearizable, unless something between them empties the buffer. -/
theorem both_miss : ∃ (r : Run (leafKind Nat)) (n : Nat) (hi : ∀ o, LeafRead.Init ((r.at_ 0).mem o)),
    (∀ o x l suf v, ¬ C09.Entry ((r.at_ 0).mem o) x l suf v) ∧
    (∀ t o, ¬ (r.at_ n).holds t o) ∧
    C09.Entry ((r.at_ n).view 0 0) 1 8 [] 101 ∧ C09.Entry ((r.at_ n).view 1 1) 2 8 [] 102 ∧
    (C09.Validated (r.seen 0 1 (hi 1)) n (n + 1) (n + 2) ∧ ((r.at_ (n + 1)).view 0 1).mem.perm = []) ∧
    (C09.Validated (r.seen 1 0 (hi 0)) n (n + 1) (n + 2) ∧ ((r.at_ (n + 1)).view 1 0).mem.perm = []) := by
  let s0 : State (LeafRead.State Nat) := ⟨fun _ => leaf, fun _ => [], fun _ _ => False⟩
  have hi : Init (leafKind Nat) s0 :=
    ⟨fun _ => rfl, fun _ _ h => h.elim, fun _ _ _ h => h.elim, fun _ h => absurd (show locked leaf.v = false by decide) h⟩
  obtain ⟨hs1, h1, g1⟩ := reach_put (s := s0) (t := 0) (o := 0) 1 rfl rfl
  obtain ⟨hs2, h2, g2⟩ := reach_put (s := ⟨Function.update s0.mem 0 lockedLeaf,
    Function.update s0.buf 0 ((stores 1 ++ [unlockStore]).map (0, ·)), hs1⟩) (t := 1) (o := 1) 2 (by simp [s0]) (by simp [s0])
  obtain ⟨r, n, h0, hn⟩ := Reach.run (h1.trans h2) hi
  have hl : LeafRead.Init leaf := ⟨by simp [leaf], by simp [leaf], by decide⟩
  have e : ∀ m, r.at_ (n + m) = _ := fun m => hn (n + m) (by omega)
  have v00 : (r.at_ n).view 0 0 = fullLeaf 1 := by rw [show n = n + 0 from rfl, e]; rfl
  have v11 : (r.at_ n).view 1 1 = fullLeaf 2 := by rw [show n = n + 0 from rfl, e]; rfl
  have v01 : ∀ m, (r.at_ (n + m)).view 0 1 = lockedLeaf := fun m => by rw [e]; rfl
  have v10 : ∀ m, (r.at_ (n + m)).view 1 0 = lockedLeaf := fun m => by rw [e]; rfl
  have clean : isDirty lockedLeaf.v = false ∧ hasChanged lockedLeaf.v lockedLeaf.v = false ∧
      lockedLeaf.sessions < lockedLeaf.sessions + 2 ^ 19 ∧ lockedLeaf.mem.perm = [] := by decide
  refine ⟨r, n, fun o => by rw [h0]; exact hl, ?_, ?_, ?_, ?_, ⟨⟨by omega, ?_, ?_, ?_⟩, ?_⟩, ⟨⟨by omega, ?_, ?_, ?_⟩, ?_⟩⟩
  · rintro o x l suf v ⟨p, hp, _⟩
    rw [h0] at hp
    cases hp
  · intro t o h
    rw [show n = n + 0 from rfl, e] at h
    exact ((g1 t o).mp ((g2 t o).mp h).1).1
  · rw [v00]; exact ⟨0, by decide, by decide, by decide, by decide, by decide⟩
  · rw [v11]; exact ⟨0, by decide, by decide, by decide, by decide, by decide⟩
  · show isDirty ((r.at_ (n + 0)).view 0 1).v = false
    rw [v01]; exact clean.1
  · show hasChanged ((r.at_ (n + 2)).view 0 1).v ((r.at_ (n + 0)).view 0 1).v = false
    rw [v01, v01]; exact clean.2.1
  · show ((r.at_ (n + 2)).view 0 1).sessions < ((r.at_ (n + 0)).view 0 1).sessions + _
    rw [v01, v01]; exact clean.2.2.1
  · rw [v01]; exact clean.2.2.2
  · show isDirty ((r.at_ (n + 0)).view 1 0).v = false
    rw [v10]; exact clean.1
  · show hasChanged ((r.at_ (n + 2)).view 1 0).v ((r.at_ (n + 0)).view 1 0).v = false
    rw [v10, v10]; exact clean.2.1
  · show ((r.at_ (n + 2)).view 1 0).sessions < ((r.at_ (n + 0)).view 1 0).sessions + _
    rw [v10, v10]; exact clean.2.2.1
  · rw [v10]; exact clean.2.2.2

/-! ### Cases -/

/-- Thread 0 locks leaf 0 and puts the key 1 in it; then its buffer drains; then thread 1 takes the lock. -/
theorem put_drain_lock : ∃ (r : Run (leafKind Nat)) (n m : Nat), n ≤ m ∧ LeafRead.Init ((r.at_ 0).mem 0) ∧
    (r.at_ 0).mem 0 = leaf ∧ (r.at_ n).mem 0 = lockedLeaf ∧ (r.at_ n).view 0 0 = fullLeaf 1 ∧
    (r.at_ n).view 1 0 = lockedLeaf ∧ (∀ i, m ≤ i → (r.at_ i).buf 0 = [] ∧ (r.at_ i).buf 1 = [] ∧ (r.at_ i).holds 1 0 ∧
      (r.at_ i).view 1 0 = { fullLeaf 1 with v := lockWord (fullLeaf 1).v, work := .held }) := by
  let s0 : State (LeafRead.State Nat) := ⟨fun _ => leaf, fun _ => [], fun _ _ => False⟩
  have hi : Init (leafKind Nat) s0 :=
    ⟨fun _ => rfl, fun _ _ h => h.elim, fun _ _ _ h => h.elim, fun _ h => absurd (show locked leaf.v = false by decide) h⟩
  obtain ⟨hs1, h1, g1⟩ := reach_put (s := s0) (t := 0) (o := 0) 1 rfl rfl
  obtain ⟨s2, h2, b0, b1, m2, e2⟩ := reach_drain (k := leafKind Nat) (t := 0) _ _ (rfl : (⟨Function.update s0.mem 0 lockedLeaf,
    Function.update s0.buf 0 ((stores 1 ++ [unlockStore]).map (0, ·)), hs1⟩ : State (LeafRead.State Nat)).buf 0 = _)
  have hm : s2.mem 0 = fullLeaf 1 := by rw [m2]; rfl
  have b1' : s2.buf 1 = [] := by rw [b1 1 (by decide)]; rfl
  have h3 : Step (leafKind Nat) s2 _ := .acquire 1 0 { fullLeaf 1 with v := lockWord (fullLeaf 1).v, work := .held } b1'
    (by rw [hm]; exact ⟨by decide, rfl, rfl⟩)
  obtain ⟨r, n, m, hnm, r0, rn, rm⟩ := Reach.run_through h1 (h2.tail h3) hi
  refine ⟨r, n, m, hnm, ?_, by rw [r0], by rw [rn]; rfl, by rw [rn]; rfl, by rw [rn]; rfl, fun i hm' => ?_⟩
  · rw [r0]; exact ⟨by simp [s0, leaf], by simp [s0, leaf], by decide⟩
  · rw [rm i hm']
    refine ⟨b0, b1', .inl ⟨rfl, rfl⟩, ?_⟩
    simp [State.view, b1', proj, apply]

/-- What thread 0 sees of its leaf, and nobody else, gets to memory. -/
example : ∃ r : Run (leafKind Nat), ∃ n m, (r.at_ n).mem 0 ≠ (r.at_ n).view 0 0 ∧
    ∃ i, n ≤ i ∧ i ≤ m ∧ (r.at_ i).mem 0 = (r.at_ n).view 0 0 := by
  obtain ⟨r, n, m, h1, _, _, h2, h3, _, h4⟩ := put_drain_lock
  refine ⟨r, n, m, ?_, seen_in_memory r h1 (h4 m (Nat.le_refl m)).1⟩
  rw [h2, h3]
  intro e
  have := congrArg (fun s => s.mem.perm) e
  revert this; decide

/-- Thread 1 has the lock, so nothing of thread 0 is on its way, and thread 0 does not have it. -/
example : ∃ r : Run (leafKind Nat), ∃ m, (r.at_ m).holds 1 0 ∧ ¬ (r.at_ m).holds 0 0 ∧ (0, unlockStore) ∉ (r.at_ m).buf 0 := by
  obtain ⟨r, n, m, h1, _, _, h2, h3, _, h4⟩ := put_drain_lock
  obtain ⟨_, _, h5, _⟩ := h4 m (Nat.le_refl m)
  exact ⟨r, m, h5, fun h => absurd (exclusive r m h h5) (by decide), drained r m h5 (by decide)⟩

/-- Thread 1 finds the key. -/
example : ∃ (r : Run (leafKind Nat)) (m : Nat), ∃ j, m ≤ j ∧ j ≤ m + 2 ∧ C09.Entry ((r.at_ j).mem 0) 1 8 [] 101 := by
  obtain ⟨r, n, m, h1, hi, _, h2, h3, _, h4⟩ := put_drain_lock
  have hv : ∀ i, m ≤ i → (r.at_ i).view 1 0 = { fullLeaf 1 with v := lockWord (fullLeaf 1).v, work := .held } :=
    fun i hm => (h4 i hm).2.2.2
  have hval : C09.Validated (r.seen 1 0 hi) m (m + 1) (m + 2) := by
    refine ⟨by omega, ?_, ?_, ?_⟩
    · show isDirty ((r.at_ m).view 1 0).v = false
      rw [hv m (by omega)]; decide
    · show hasChanged ((r.at_ (m + 2)).view 1 0).v ((r.at_ m).view 1 0).v = false
      rw [hv m (by omega), hv (m + 2) (by omega)]; decide
    · show ((r.at_ (m + 2)).view 1 0).sessions < ((r.at_ m).view 1 0).sessions + _
      rw [hv m (by omega), hv (m + 2) (by omega)]; decide
  have e := hv (m + 1) (by omega)
  obtain ⟨i, g1, g2, g3⟩ := found r hi hval (p := 0) (x := 1) (l := 8) (suf := []) (v := 101) (t1 := m + 1) (t2 := m + 1)
    (t3 := m + 1) (t4 := m + 1) (t5 := m + 1) (by rw [e]; decide) (by omega) (by omega) (by omega) (by omega) (by rw [e]; decide)
    (by rw [e]; decide) (fun h => absurd h (by decide)) (by rw [e]; decide)
  obtain ⟨j, k1, k2, k3⟩ := found_in_memory r g1 g2 (h4 (m + 2) (by omega)).2.1 g3
  exact ⟨r, m, j, k1, k2, k3⟩

/-- Thread 1 goes on to see what it saw. -/
example : ∃ r : Run (leafKind Nat), ∃ m, (r.at_ (m + 1)).view 1 0 = (r.at_ m).view 1 0 ∧ (r.at_ m).holds 1 0 := by
  obtain ⟨r, n, m, h1, _, _, h2, h3, _, h4⟩ := put_drain_lock
  obtain ⟨_, _, h5, h6⟩ := h4 m (Nat.le_refl m)
  obtain ⟨_, h7, _, _⟩ := h4 (m + 1) (by omega)
  refine ⟨r, m, (undisturbed r m h5).resolve_right ?_, h5⟩
  rintro ⟨f, h8, _⟩
  rw [h7] at h8
  simp at h8

/-- Numbers as objects: 0 is free, and who has the lock may store any number. -/
def numbers : Kind Nat where
  free s := s = 0
  acq s s' := s = 0 ∧ s' = 1
  work s _ := s ≠ 0
  acq_free := by rintro s s' ⟨rfl, rfl⟩; decide
  work_held h := h

/-- Thread 0, which has all objects locked, stores 7 in object 0 and then 9 in object 1. -/
def w0 : State Nat := ⟨fun _ => 1, fun _ => [], fun t _ => t = 0⟩
def w1 : State Nat := { w0 with buf := Function.update w0.buf 0 [(0, fun _ => 7)] }
def w2 : State Nat := { w1 with buf := Function.update w1.buf 0 [(0, fun _ => 7), (1, fun _ => 9)] }
def w3 : State Nat := { w2 with mem := Function.update w2.mem 0 7, buf := Function.update w2.buf 0 [(1, fun _ => 9)] }
def w4 : State Nat := { w3 with mem := Function.update w3.mem 1 9, buf := Function.update w3.buf 0 [] }

def two : Nat → State Nat
  | 0 => w0
  | 1 => w1
  | 2 => w2
  | 3 => w3
  | _ => w4

def twoRun : Run numbers where
  at_ := two
  init := ⟨fun _ => rfl, fun _ _ _ => show ¬ (1 : Nat) = 0 by decide,
    fun _ _ _ h h' => (show _ = 0 from h).trans (show _ = 0 from h').symm, fun _ _ => ⟨0, rfl⟩⟩
  step
    | 0 => .inr (.store (s := w0) 0 0 (fun _ => 7) rfl (show (1 : Nat) ≠ 0 by decide) (show ¬ (7 : Nat) = 0 by decide))
    | 1 => .inr (.store (s := w1) 0 1 (fun _ => 9) rfl (show (1 : Nat) ≠ 0 by decide) (show ¬ (9 : Nat) = 0 by decide))
    | 2 => .inr (.commit (s := w2) 0 0 (fun _ => 7) [(1, fun _ => 9)] rfl)
    | 3 => .inr (.commit (s := w3) 0 1 (fun _ => 9) [] rfl)
    | _ + 4 => .inl rfl

/-- When the 9 is in memory the 7 has been there. -/
example : ∃ i, 1 ≤ i ∧ i < 4 ∧ (two i).mem 0 = 7 := by
  refine in_order twoRun (n := 1) (m := 4) (by decide) (t := 0) (o := 0) (o' := 1) (Q := (· = 9)) ?_ ?_ rfl
  · intro p hp
    have : p = [] := List.prefix_nil.mp (show p <+: [] from hp)
    subst this
    decide
  · intro i h1 h2
    left
    match i, h2 with
    | 0, _ | 1, _ | 2, _ | 3, _ => rfl

end Verif.Props.C60
