import Verif.Prune.Alone
import Verif.Props.C47

/-!
# C48: with one writer, or with removals of leaves alone, the assertions hold and nothing gets lost

C46 has a run that loses a key, and C47 assumes that whenever an internode is changed, the search finds the child meant.  Here
the assumption is only that while a thread removes a leaf, from marking it deleted to the end, no other thread has a node
locked.  Other threads may search meanwhile, whether for lookups or for updates, and there may be any number of lookups and of
updates that split nodes at all other times.  In particular there may be any number of readers and one writer at a time.
-/
namespace Verif.Props.C48

open Verif.Prune

variable {G : Type} {up : List Nat → Nat → Nat}

/-- There is one history of the map, which begins with the contents of the layer and changes only by publications, each of
which applies the update of its thread to the current value of its key, which is in the leaf the thread has locked.  Every
lookup returns a value that was current during the lookup, and every update that returns takes effect exactly once, during the
update. -/
def Linearizable (r : Nat → State G) : Prop := ∃ M : Nat → Nat → Option G,
  M 0 = (r 0).items 0 ∧
  (∀ t, (M (t + 1) = M t ∧ ∀ i f, ¬ Publishes (r t) (r (t + 1)) i f) ∨
    ∃ i f, Publishes (r t) (r (t + 1)) i f ∧
      M (t + 1) = Function.update (M t) ((r t).key i) (f (M t ((r t).key i))) ∧
      (∃ n, (r t).pc i = .hold n ∧ (r t).items n ((r t).key i) = M t ((r t).key i)) ∧
      ∀ j g, Publishes (r t) (r (t + 1)) j g → j = i) ∧
  (∀ i a b v, Op r i a b → (r b).pc i = .done v → ∃ t, a < t ∧ t ≤ b ∧ M t ((r b).key i) = v) ∧
  ∀ i a b f, Op r i a b → (r b).fn i = some f → (r (b + 1)).pc i = .idle →
    ∃ t, a < t ∧ t < b ∧ (r t).key i = (r b).key i ∧ Publishes (r t) (r (t + 1)) i f ∧
      ∀ u g, a ≤ u → u ≤ b → Publishes (r u) (r (u + 1)) i g → u = t

/-- If leaves are removed by one thread alone, the run is linearizable. -/
theorem alone (hu : Counts up) {r : Nat → State G} (h : Run up r) (hl : ∀ t, Lone (r t)) : Linearizable r :=
  C47.linearizable (h.alone hu hl)

/-- With one writer at a time and any number of readers, the run is linearizable. -/
theorem one_writer (hu : Counts up) {r : Nat → State G} (h : Run up r) (hw : OneWriter r) : Linearizable r :=
  C47.linearizable (h.oneWriter hu hw)

/-- The assertion of `remove_leaf` at /repo/masstree_remove.hh:224: the search finds the node that is removed. -/
theorem remove_assert (hu : Counts up) {r : Nat → State G} (h : Run up r) (hl : ∀ t, Lone (r t)) {t i p n ik : Nat}
    {c : Option Nat} (hp : (r t).pc i = .rmod p n c ik) : ((r t).kids p)[up ((r t).keys p) ik]? = some (some n) :=
  ((h.alone hu hl).tidy t).rmod i p n c ik hp

/-- The assertion of `redirect` at /repo/masstree_remove.hh:268: the search finds the node from which it comes. -/
theorem redirect_assert (hu : Counts up) {r : Nat → State G} (h : Run up r) (hl : ∀ t, Lone (r t)) {t i u q p n ik y : Nat}
    (hp : (r t).pc i = .dset u q p n ik y) : ((r t).kids u)[up ((r t).keys u) ik]? = some (some q) :=
  (((h.alone hu hl).tidy t).dset i u q p n ik y hp).1

/-- A new node is put right after the node it was split off, and its key is new. -/
theorem insert_place (hu : Counts up) {r : Nat → State G} (h : Run up r) (hl : ∀ t, Lone (r t)) {t i p n c x : Nat}
    {l : Option Nat} (hp : (r t).pc i = .mod p n c x l) :
    ((r t).kids p)[up ((r t).keys p) x]? = some (some n) ∧ x ∉ (r t).keys p :=
  ((h.alone hu hl).tidy t).mod i p n c x l hp

/-- The keys of an internode are always strictly increasing, and a child of an internode has it as its parent. -/
theorem internode (hu : Counts up) {r : Nat → State G} (h : Run up r) (hl : ∀ t, Lone (r t)) {t p : Nat}
    (hp : p < (r t).fresh) (hf : (r t).leaf p = false) :
    ((r t).keys p).Pairwise (· < ·) ∧ ∀ q, some q ∈ (r t).kids p → q < (r t).fresh ∧ (r t).parent q = some p :=
  ⟨((h.alone hu hl).inv t).sorted p hp hf, fun q => ((h.alone hu hl).inv t).kid p q hp hf⟩

/-- A key that nobody changes meanwhile is found with its value: what C46 shows to be false in general. -/
theorem found (hu : Counts up) {r : Nat → State G} (h : Run up r) (hl : ∀ t, Lone (r t)) {i a b : Nat} {v w : Option G}
    (ho : Op r i a b) (hd : (r b).pc i = .done v) (hp : ∀ t, a < t → t ≤ b → (r t).m ((r b).key i) = w) : v = w :=
  C47.unchanged (h.alone hu hl) ho hd hp

/-! ### Examples -/

theorem look_op : Op Late.alone 0 0 36 := by
  refine ⟨by omega, rfl, fun t h1 h2 => ?_⟩
  match t with
  | 0 => omega
  | 1 | 2 | 3 | 4 | 5 | 6 | 7 | 8 | 9 | 10 | 11 | 12 | 13 | 14 | 15 | 16 | 17 | 18 | 19 | 20 | 21 | 22 | 23 | 24 | 25 | 26 | 27
  | 28 | 29 | 30 | 31 | 32 | 33 | 34 | 35 | 36 => intro h; cases h
  | t + 37 => omega

/-- Two writers, but leaf 1 is removed while nobody else has a lock, though thread 0 is on its way to write. -/
example : Linearizable Late.race ∧ (Late.race 29).kids 2 = [some 0, some 1] ∧ (Late.race 29).pc 1 = .rmod 2 1 none 15 ∧
    ((Late.race 29).kids 2)[C46.binary ((Late.race 29).keys 2) 15]? = some (some 1) ∧
    (Late.race 29).pc 0 = .cmp 0 0 1 ∧ (Late.race 38).pc 0 = .pub 0 :=
  ⟨alone C47.binary_counts (Late.race_run C47.binary_counts) Late.race_lone, rfl, rfl,
    remove_assert C47.binary_counts (Late.race_run C47.binary_counts) Late.race_lone (t := 29) (i := 1) rfl, rfl, rfl⟩

/-- One writer: thread 0 looks up key 15 while thread 1 puts it, which splits the leaf, and removes it, which removes the new
leaf. -/
example : Linearizable Late.alone ∧ (∃ t, 0 < t ∧ t ≤ 36 ∧ (Late.alone t).m 15 = none) ∧ (Late.alone 36).pc 0 = .done none ∧
    (Late.alone 14).m 15 = some 7 ∧ (Late.alone 26).dead 1 = true ∧ (Late.alone 27).pc 0 = .cmp 0 0 1 := by
  refine ⟨one_writer C47.binary_counts (Late.alone_run C47.binary_counts) Late.alone_writer, ?_, rfl, rfl, rfl, rfl⟩
  exact C47.lookup ((Late.alone_run C47.binary_counts).oneWriter C47.binary_counts Late.alone_writer) look_op rfl

end Verif.Props.C48
