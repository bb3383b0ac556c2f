import Verif.Prune.Model

/-!
# A completed insert is lost

A run of two threads after which a key that was inserted cannot be found.

Leaf 0 is the root and is full, with the keys 0 to 14.  Thread 0 wants to insert key 15 and has the version of leaf 0.  Thread
1 inserts key 15: leaf 0 is split, the new leaf 1 has key 15, and the new root 2 has the children 0 and 1 with key 15 between
them.  Thread 1 removes key 15: leaf 1 is empty, is marked deleted and unlinked from the leaf list.  Before thread 1 locks the
root to take leaf 1 out of it, thread 0 goes on.  It finds that leaf 0 has split and looks at the next leaf, but there is none;
so it inserts key 15 into leaf 0, which is split again: the new leaf 3 has key 15.  It is put into the root at the place of
key 15, after the key 15 that is there: the root has the children 0, 1 and 3 and the keys 15 and 15.  The insert is complete.
Thread 1 looks for the place of leaf 1 by its key 15 and finds the last child, which is leaf 3, and takes it out, where
`masstree_invariant` at /repo/masstree_remove.hh:224 would fail.  Then the root leads from key 15 to the deleted leaf 1.
-/
namespace Verif.Prune

open Function (update)

variable {G : Type}

/-- A leaf has `w` keys. -/
def Full (w : Nat) (f : Nat → Option G) : Prop := ∃ l : List Nat, l.Nodup ∧ l.length = w ∧ ∀ k, k ∈ l ↔ f k ≠ none

/-- What the step from `s` to `s'` of thread `i` must satisfy besides if leaves and internodes have width `w` and every key
slice has one entry: a leaf is split only if it is full and the key is larger than all in the last leaf, and then at that key
(/repo/masstree_split.hh:67-78), a key is added only if there is room, a child is put only into an internode that has room, and
without a new internode, and an empty leaf that is not the first is removed. -/
def Fit (w i : Nat) (s s' : State G) : Prop :=
  match s.pc i, s'.pc i with
  | .hold n, .par _ _ x _ => Full w (s.items n) ∧ s.next n = none ∧ (∀ z, s.items n z ≠ none → z < s.key i) ∧ x = s.key i
  | .hold n, .pub _ => s.items n (s.key i) ≠ none ∨ ∃ l : List Nat, l.length < w ∧ ∀ k, s.items n k ≠ none → k ∈ l
  | .mod p _ _ _ _, .fin _ nx _ _ _ _ => (s.keys p).length < w ∧ nx = none ∧ s'.fresh = s.fresh
  | .pub n, .idle => (∃ k, s.items n k ≠ none) ∨ s.lo n = 0
  | _, _ => True

/-- A run with nodes of width `w`. -/
inductive Fits (up : List Nat → Nat → Nat) (w : Nat) : State G → State G → Prop where
  | refl (s : State G) : Fits up w s s
  | step {a s s' : State G} (h : Fits up w a s) (i : Nat) (hs : Step up s s') (hf : Fit w i s s') : Fits up w a s'

namespace Lost

variable {up : List Nat → Nat → Nat}

/-- The two searches that matter; both the binary and the linear search agree, see C46. -/
def Agree (up : List Nat → Nat → Nat) : Prop := up [15] 15 = 1 ∧ up [15, 15] 15 = 2

/-- Put the value 7. -/
def put : Option Nat → Option Nat := fun _ => some 7

/-- Remove. -/
def rem : Option Nat → Option Nat := fun _ => none

def init : State Nat where
  leaf := fun _ => true
  lock := fun _ => none
  ins := fun _ => 0
  spl := fun _ => 0
  dI := fun _ => false
  dS := fun _ => false
  rt := fun _ => true
  dead := fun _ => false
  parent := fun _ => none
  next := fun _ => none
  items := fun _ k => if k < 15 then some k else none
  keys := fun _ => []
  kids := fun _ => []
  lo := fun _ => 0
  gone := fun _ => false
  hi := fun _ => top
  bd := fun _ => top
  elo := fun _ => 0
  fresh := 1
  root := 0
  m := fun k => if k < 15 then some k else none
  pc := fun _ => .idle
  key := fun _ => 0
  base := fun _ => 0
  fn := fun _ => none

theorem small : 15 < top := by unfold top; decide

theorem init_ok : Init init where
  fresh := rfl
  root := rfl
  leaf := rfl
  lock _ := rfl
  clean _ := ⟨rfl, rfl⟩
  rt := rfl
  dead := ⟨rfl, rfl⟩
  parent := rfl
  next := rfl
  lo := rfl
  hi := ⟨rfl, rfl, rfl⟩
  items := rfl
  small k hk := by
    have := small
    by_cases h : k < 15
    · omega
    · exact absurd (if_neg h) hk
  pc _ := rfl

theorem route_eq {s : State Nat} {n : Nat} (hu : up (s.keys n) 15 = 1) : s.route up n 15 = (s.kids n).getD 1 none := by
  unfold State.route
  rw [hu]

/-- `insertKid` with the place given. -/
theorem insert_step {s s' : State Nat} {p n c : Nat} {z : PC Nat} {i : Nat} (hu : up (s.keys p) 15 = 1)
    (h : Step up s ((s.insertKid up p n c 15).to i z)) (he : (s.insertKid (fun _ _ => 1) p n c 15).to i z = s' := by rfl) :
    Step up s s' := by
  rw [← he]
  have : s.insertKid up p n c 15 = s.insertKid (fun _ _ => 1) p n c 15 := by
    unfold State.insertKid State.keysWith State.kidsWith
    simp only [hu]
  rw [← this]; exact h

/-- `removeKid` with the place given. -/
theorem remove_step {s s' : State Nat} {p n i : Nat} (hu : up (s.keys p) 15 = 2)
    (h : Step up s ((s.removeKid up p none 15).to i ((s.removeKid up p none 15).removed p n (up (s.keys p) 15) 15)))
    (he : (s.removeKid (fun _ _ => 2) p none 15).to i ((s.removeKid (fun _ _ => 2) p none 15).removed p n 2 15) = s' := by rfl) :
    Step up s s' := by
  rw [← he]
  have : s.removeKid up p none 15 = s.removeKid (fun _ _ => 2) p none 15 := by
    unfold State.removeKid
    simp only [hu]
  rw [this, hu] at h; exact h

theorem fit_split {s s' : State Nat} {i c : Nat} (h1 : s.pc i = .hold 0) (h2 : s'.pc i = .par 0 c 15 none)
    (hi : ∀ k, s.items 0 k = if k < 15 then some k else none) (hn : s.next 0 = none) (hk : s.key i = 15) : Fit 15 i s s' := by
  unfold Fit
  rw [h1, h2]
  refine ⟨⟨List.range 15, List.nodup_range, List.length_range, fun k => ?_⟩, hn, fun z hz => ?_, hk.symm⟩
  · rw [hi, List.mem_range]
    by_cases h : k < 15 <;> simp [h]
  · rw [hi] at hz
    by_contra h
    exact hz (if_neg (by omega))

theorem fit_room {s s' : State Nat} {i n : Nat} (h1 : s.pc i = .hold n) (h2 : s'.pc i = .pub n)
    (hi : ∀ k, s.items n k = none) : Fit 15 i s s' := by
  unfold Fit
  rw [h1, h2]
  exact .inr ⟨[], by decide, fun k hk => absurd (hi k) hk⟩

def key1 : Nat → Nat := update init.key 0 (15)
def base1 : Nat → Nat := update init.base 0 (init.root)
def fn1 : Nat → Option (Option Nat → Option Nat) := update init.fn 0 ((some put))
def pc1 : Nat → PC Nat := update init.pc 0 (.up 0)
def t1 : State Nat := ⟨init.leaf, init.lock, init.ins, init.spl, init.dI, init.dS, init.rt, init.dead, init.parent, init.next, init.items, init.keys, init.kids, init.lo, init.gone, init.hi, init.bd, init.elo, init.fresh, init.root, init.m, pc1, key1, base1, fn1⟩
theorem s1 (hu : Agree up) : Fits up 15 init t1 := .step (s := init) (.refl _) 0 (.start 0 15 (some put) small rfl) trivial
def pc2 : Nat → PC Nat := update pc1 0 (.at_ 0 0 0)
def t2 : State Nat := ⟨init.leaf, init.lock, init.ins, init.spl, init.dI, init.dS, init.rt, init.dead, init.parent, init.next, init.items, init.keys, init.kids, init.lo, init.gone, init.hi, init.bd, init.elo, init.fresh, init.root, init.m, pc2, key1, base1, fn1⟩
theorem s2 (hu : Agree up) : Fits up 15 init t2 := .step (s := t1) (s1 hu) 0 (.rooted 0 0 rfl ⟨rfl, rfl⟩ rfl) trivial
def pc3 : Nat → PC Nat := update pc2 0 (.read 0 0 0 none)
def t3 : State Nat := ⟨init.leaf, init.lock, init.ins, init.spl, init.dI, init.dS, init.rt, init.dead, init.parent, init.next, init.items, init.keys, init.kids, init.lo, init.gone, init.hi, init.bd, init.elo, init.fresh, init.root, init.m, pc3, key1, base1, fn1⟩
theorem s3 (hu : Agree up) : Fits up 15 init t3 := .step (s := t2) (s2 hu) 0 (.look 0 0 0 0 none rfl rfl (fun _ _ => rfl) (fun _ => rfl)) trivial
def key2 : Nat → Nat := update key1 1 (15)
def base2 : Nat → Nat := update base1 1 (init.root)
def fn2 : Nat → Option (Option Nat → Option Nat) := update fn1 1 ((some put))
def pc4 : Nat → PC Nat := update pc3 1 (.up 0)
def t4 : State Nat := ⟨init.leaf, init.lock, init.ins, init.spl, init.dI, init.dS, init.rt, init.dead, init.parent, init.next, init.items, init.keys, init.kids, init.lo, init.gone, init.hi, init.bd, init.elo, init.fresh, init.root, init.m, pc4, key2, base2, fn2⟩
theorem s4 (hu : Agree up) : Fits up 15 init t4 := .step (s := t3) (s3 hu) 1 (.start 1 15 (some put) small rfl) trivial
def pc5 : Nat → PC Nat := update pc4 1 (.at_ 0 0 0)
def t5 : State Nat := ⟨init.leaf, init.lock, init.ins, init.spl, init.dI, init.dS, init.rt, init.dead, init.parent, init.next, init.items, init.keys, init.kids, init.lo, init.gone, init.hi, init.bd, init.elo, init.fresh, init.root, init.m, pc5, key2, base2, fn2⟩
theorem s5 (hu : Agree up) : Fits up 15 init t5 := .step (s := t4) (s4 hu) 1 (.rooted 1 0 rfl ⟨rfl, rfl⟩ rfl) trivial
def pc6 : Nat → PC Nat := update pc5 1 (.read 0 0 0 none)
def t6 : State Nat := ⟨init.leaf, init.lock, init.ins, init.spl, init.dI, init.dS, init.rt, init.dead, init.parent, init.next, init.items, init.keys, init.kids, init.lo, init.gone, init.hi, init.bd, init.elo, init.fresh, init.root, init.m, pc6, key2, base2, fn2⟩
theorem s6 (hu : Agree up) : Fits up 15 init t6 := .step (s := t5) (s5 hu) 1 (.look 1 0 0 0 none rfl rfl (fun _ _ => rfl) (fun _ => rfl)) trivial
def lock1 : Nat → Option Nat := update init.lock 0 (some 1)
def pc7 : Nat → PC Nat := update pc6 1 (.hold 0)
def t7 : State Nat := ⟨init.leaf, lock1, init.ins, init.spl, init.dI, init.dS, init.rt, init.dead, init.parent, init.next, init.items, init.keys, init.kids, init.lo, init.gone, init.hi, init.bd, init.elo, init.fresh, init.root, init.m, pc7, key2, base2, fn2⟩
theorem s7 (hu : Agree up) : Fits up 15 init t7 := .step (s := t6) (s6 hu) 1 (.acquire 1 0 0 0 none rfl (by intro h; cases h) rfl rfl rfl) trivial
def leaf1 : Nat → Bool := update init.leaf 1 (true)
def lock2 : Nat → Option Nat := update lock1 1 (some 1)
def ins1 : Nat → Nat := update init.ins 1 (init.ins 0)
def spl1 : Nat → Nat := update init.spl 1 (init.spl 0)
def dI1 : Nat → Bool := update init.dI 1 (init.dI 0)
def dS1 : Nat → Bool := update init.dS 1 (init.dS 0)
def rt1 : Nat → Bool := update init.rt 1 (init.rt 0)
def dead1 : Nat → Bool := update init.dead 1 (false)
def parent1 : Nat → Option Nat := update init.parent 1 (none)
def next1 : Nat → Option Nat := update (update init.next 1 (init.next 0)) 0 (some 1)
def items1 : Nat → Nat → Option Nat := update init.items 1 (fun k => if 15 ≤ k then init.items 0 k else none)
def lo1 : Nat → Nat := update init.lo 1 (15)
def gone1 : Nat → Bool := update init.gone 1 (false)
def hi1 : Nat → Nat := update init.hi 1 (init.hi 0)
def bd1 : Nat → Nat := update init.bd 1 (init.bd 0)
def elo1 : Nat → Nat := update init.elo 1 (15)
def fresh1 : Nat := init.fresh + 1
def pc8 : Nat → PC Nat := update pc7 1 (.par 0 1 15 none)
def t8 : State Nat := ⟨leaf1, lock2, ins1, spl1, dI1, dS1, rt1, dead1, parent1, next1, items1, init.keys, init.kids, lo1, gone1, hi1, bd1, elo1, fresh1, init.root, init.m, pc8, key2, base2, fn2⟩
theorem s8 (hu : Agree up) : Fits up 15 init t8 := .step (s := t7) (s7 hu) 1 (.split 1 0 15 rfl (by decide) (.inr rfl)) (fit_split rfl rfl (fun _ => rfl) rfl rfl)
def leaf2 : Nat → Bool := update leaf1 2 (false)
def lock3 : Nat → Option Nat := update lock2 2 (none)
def ins2 : Nat → Nat := update ins1 2 (0)
def spl2 : Nat → Nat := update spl1 2 (0)
def dI2 : Nat → Bool := update dI1 2 (false)
def dS2 : Nat → Bool := update dS1 2 (false)
def rt2 : Nat → Bool := update rt1 2 (true)
def dead2 : Nat → Bool := update dead1 2 (false)
def parent2 : Nat → Option Nat := update (update (update parent1 2 none) 1 (some 2)) 0 (some 2)
def keys1 : Nat → List Nat := update init.keys 2 ([15])
def kids1 : Nat → List (Option Nat) := update init.kids 2 ([some 0, some 1])
def lo2 : Nat → Nat := update lo1 2 (lo1 0)
def gone2 : Nat → Bool := update gone1 2 (false)
def hi2 : Nat → Nat := update hi1 2 (bd1 0)
def bd2 : Nat → Nat := update (update bd1 2 (bd1 0)) 0 (elo1 1)
def elo2 : Nat → Nat := update elo1 2 (elo1 0)
def fresh2 : Nat := fresh1 + 1
def pc9 : Nat → PC Nat := update pc8 1 (.fin none none 0 1 15 none)
def t9 : State Nat := ⟨leaf2, lock3, ins2, spl2, dI2, dS2, rt2, dead2, parent2, next1, items1, keys1, kids1, lo2, gone2, hi2, bd2, elo2, fresh2, init.root, init.m, pc9, key2, base2, fn2⟩
theorem s9 (hu : Agree up) : Fits up 15 init t9 := .step (s := t8) (s8 hu) 1 (.newRoot 1 0 1 15 none rfl rfl) trivial
def dS3 : Nat → Bool := update dS2 0 (true)
def pc10 : Nat → PC Nat := update pc9 1 (.cut none none 0 1 15)
def t10 : State Nat := ⟨leaf2, lock3, ins2, spl2, dI2, dS3, rt2, dead2, parent2, next1, items1, keys1, kids1, lo2, gone2, hi2, bd2, elo2, fresh2, init.root, init.m, pc10, key2, base2, fn2⟩
theorem s10 (hu : Agree up) : Fits up 15 init t10 := .step (s := t9) (s9 hu) 1 (.markSplit 1 0 1 15 none none rfl) trivial
def items2 : Nat → Nat → Option Nat := update items1 0 (fun k => if k < 15 then items1 0 k else none)
def hi3 : Nat → Nat := update hi2 0 (15)
def pc11 : Nat → PC Nat := update pc10 1 (.rel none none 0 1)
def t11 : State Nat := ⟨leaf2, lock3, ins2, spl2, dI2, dS3, rt2, dead2, parent2, next1, items2, keys1, kids1, lo2, gone2, hi3, bd2, elo2, fresh2, init.root, init.m, pc11, key2, base2, fn2⟩
theorem s11 (hu : Agree up) : Fits up 15 init t11 := .step (s := t10) (s10 hu) 1 (.strip 1 0 1 15 none none rfl) trivial
def lock4 : Nat → Option Nat := update lock3 0 (none)
def ins3 : Nat → Nat := update ins2 0 (if dI2 0 = true ∧ dS3 0 = false then ins2 0 + 1 else ins2 0)
def spl3 : Nat → Nat := update spl2 0 (if dS3 0 = true then spl2 0 + 1 else spl2 0)
def rt3 : Nat → Bool := update rt2 0 (rt2 0 && !dS3 0)
def dI3 : Nat → Bool := update dI2 0 (false)
def dS4 : Nat → Bool := update dS3 0 (false)
def pc12 : Nat → PC Nat := update pc11 1 (.hold 1)
def t12 : State Nat := ⟨leaf2, lock4, ins3, spl3, dI3, dS4, rt3, dead2, parent2, next1, items2, keys1, kids1, lo2, gone2, hi3, bd2, elo2, fresh2, init.root, init.m, pc12, key2, base2, fn2⟩
theorem s12 (hu : Agree up) : Fits up 15 init t12 := .step (s := t11) (s11 hu) 1 (.unlockRight 1 0 1 none none rfl) trivial
def items3 : Nat → Nat → Option Nat := update items2 1 (update (items2 1) (key2 1) (put (items2 1 (key2 1))))
def m1 : Nat → Option Nat := update init.m (key2 1) (put (init.m (key2 1)))
def pc13 : Nat → PC Nat := update pc12 1 (.pub 1)
def t13 : State Nat := ⟨leaf2, lock4, ins3, spl3, dI3, dS4, rt3, dead2, parent2, next1, items3, keys1, kids1, lo2, gone2, hi3, bd2, elo2, fresh2, init.root, m1, pc13, key2, base2, fn2⟩
theorem s13 (hu : Agree up) : Fits up 15 init t13 := .step (s := t12) (s12 hu) 1 (.publish 1 1 put rfl rfl) (fit_room rfl rfl (fun k => by change (if 15 ≤ k then (if k < 15 then some k else none) else none) = none; split <;> first | rw [if_neg (by omega)] | rfl))
def lock5 : Nat → Option Nat := update lock4 1 (none)
def ins4 : Nat → Nat := update ins3 1 (if dI3 1 = true ∧ dS4 1 = false then ins3 1 + 1 else ins3 1)
def spl4 : Nat → Nat := update spl3 1 (if dS4 1 = true then spl3 1 + 1 else spl3 1)
def rt4 : Nat → Bool := update rt3 1 (rt3 1 && !dS4 1)
def dI4 : Nat → Bool := update dI3 1 (false)
def dS5 : Nat → Bool := update dS4 1 (false)
def pc14 : Nat → PC Nat := update pc13 1 (.idle)
def t14 : State Nat := ⟨leaf2, lock5, ins4, spl4, dI4, dS5, rt4, dead2, parent2, next1, items3, keys1, kids1, lo2, gone2, hi3, bd2, elo2, fresh2, init.root, m1, pc14, key2, base2, fn2⟩
theorem s14 (hu : Agree up) : Fits up 15 init t14 := .step (s := t13) (s13 hu) 1 (.release 1 1 rfl) (.inl ⟨15, (by intro h; cases h)⟩)
def root1 : Nat := 2
def t15 : State Nat := ⟨leaf2, lock5, ins4, spl4, dI4, dS5, rt4, dead2, parent2, next1, items3, keys1, kids1, lo2, gone2, hi3, bd2, elo2, fresh2, root1, m1, pc14, key2, base2, fn2⟩
theorem s15 (hu : Agree up) : Fits up 15 init t15 := .step (s := t14) (s14 hu) 1 (.fixRoot 2 rfl rfl) trivial
def key3 : Nat → Nat := update key2 1 (15)
def base3 : Nat → Nat := update base2 1 (root1)
def fn3 : Nat → Option (Option Nat → Option Nat) := update fn2 1 ((some rem))
def pc15 : Nat → PC Nat := update pc14 1 (.up 2)
def t16 : State Nat := ⟨leaf2, lock5, ins4, spl4, dI4, dS5, rt4, dead2, parent2, next1, items3, keys1, kids1, lo2, gone2, hi3, bd2, elo2, fresh2, root1, m1, pc15, key3, base3, fn3⟩
theorem s16 (hu : Agree up) : Fits up 15 init t16 := .step (s := t15) (s15 hu) 1 (.start 1 15 (some rem) small rfl) trivial
def pc16 : Nat → PC Nat := update pc15 1 (.at_ 2 0 0)
def t17 : State Nat := ⟨leaf2, lock5, ins4, spl4, dI4, dS5, rt4, dead2, parent2, next1, items3, keys1, kids1, lo2, gone2, hi3, bd2, elo2, fresh2, root1, m1, pc16, key3, base3, fn3⟩
theorem s17 (hu : Agree up) : Fits up 15 init t17 := .step (s := t16) (s16 hu) 1 (.rooted 1 2 rfl ⟨rfl, rfl⟩ rfl) trivial
def pc17 : Nat → PC Nat := update pc16 1 (.pick 2 0 0 1)
def t18 : State Nat := ⟨leaf2, lock5, ins4, spl4, dI4, dS5, rt4, dead2, parent2, next1, items3, keys1, kids1, lo2, gone2, hi3, bd2, elo2, fresh2, root1, m1, pc17, key3, base3, fn3⟩
theorem s18 (hu : Agree up) : Fits up 15 init t18 := .step (s := t17) (s17 hu) 1 (.pick 1 2 0 0 1 rfl rfl (fun _ => route_eq hu.1)) trivial
def pc18 : Nat → PC Nat := update pc17 1 (.picked 2 0 0 1 0 0)
def t19 : State Nat := ⟨leaf2, lock5, ins4, spl4, dI4, dS5, rt4, dead2, parent2, next1, items3, keys1, kids1, lo2, gone2, hi3, bd2, elo2, fresh2, root1, m1, pc18, key3, base3, fn3⟩
theorem s19 (hu : Agree up) : Fits up 15 init t19 := .step (s := t18) (s18 hu) 1 (.child 1 2 0 0 1 rfl ⟨rfl, rfl⟩) trivial
def pc19 : Nat → PC Nat := update pc18 1 (.at_ 1 0 0)
def t20 : State Nat := ⟨leaf2, lock5, ins4, spl4, dI4, dS5, rt4, dead2, parent2, next1, items3, keys1, kids1, lo2, gone2, hi3, bd2, elo2, fresh2, root1, m1, pc19, key3, base3, fn3⟩
theorem s20 (hu : Agree up) : Fits up 15 init t20 := .step (s := t19) (s19 hu) 1 (.descend 1 2 0 0 1 0 0 rfl ⟨⟨rfl, rfl⟩, rfl, rfl⟩) trivial
def pc20 : Nat → PC Nat := update pc19 1 (.read 1 0 0 (some 7))
def t21 : State Nat := ⟨leaf2, lock5, ins4, spl4, dI4, dS5, rt4, dead2, parent2, next1, items3, keys1, kids1, lo2, gone2, hi3, bd2, elo2, fresh2, root1, m1, pc20, key3, base3, fn3⟩
theorem s21 (hu : Agree up) : Fits up 15 init t21 := .step (s := t20) (s20 hu) 1 (.look 1 1 0 0 (some 7) rfl rfl (fun _ _ => rfl) (fun _ => rfl)) trivial
def lock6 : Nat → Option Nat := update lock5 1 (some 1)
def pc21 : Nat → PC Nat := update pc20 1 (.hold 1)
def t22 : State Nat := ⟨leaf2, lock6, ins4, spl4, dI4, dS5, rt4, dead2, parent2, next1, items3, keys1, kids1, lo2, gone2, hi3, bd2, elo2, fresh2, root1, m1, pc21, key3, base3, fn3⟩
theorem s22 (hu : Agree up) : Fits up 15 init t22 := .step (s := t21) (s21 hu) 1 (.acquire 1 1 0 0 (some 7) rfl (by intro h; cases h) rfl rfl rfl) trivial
def dI5 : Nat → Bool := update dI4 1 (true)
def t23 : State Nat := ⟨leaf2, lock6, ins4, spl4, dI5, dS5, rt4, dead2, parent2, next1, items3, keys1, kids1, lo2, gone2, hi3, bd2, elo2, fresh2, root1, m1, pc21, key3, base3, fn3⟩
theorem s23 (hu : Agree up) : Fits up 15 init t23 := .step (s := t22) (s22 hu) 1 (.markLeaf 1 1 rfl) trivial
def items4 : Nat → Nat → Option Nat := update items3 1 (update (items3 1) (key3 1) (rem (items3 1 (key3 1))))
def m2 : Nat → Option Nat := update m1 (key3 1) (rem (m1 (key3 1)))
def pc22 : Nat → PC Nat := update pc21 1 (.pub 1)
def t24 : State Nat := ⟨leaf2, lock6, ins4, spl4, dI5, dS5, rt4, dead2, parent2, next1, items4, keys1, kids1, lo2, gone2, hi3, bd2, elo2, fresh2, root1, m2, pc22, key3, base3, fn3⟩
theorem s24 (hu : Agree up) : Fits up 15 init t24 := .step (s := t23) (s23 hu) 1 (.publish 1 1 rem rfl rfl) (.inl (by intro h; cases h))

theorem empty : ∀ k, t24.items 1 k = none := by
  intro k
  show update (update (fun k => if 15 ≤ k then (if k < 15 then some k else none) else none : Nat → Option Nat) 15 (some 7)) 15
    none k = none
  simp only [Function.update_apply]
  grind

def dead3 : Nat → Bool := update dead2 1 (true)
def dS6 : Nat → Bool := update dS5 1 (true)
def pc23 : Nat → PC Nat := update pc22 1 (.ulk 1)
def t25 : State Nat := ⟨leaf2, lock6, ins4, spl4, dI5, dS6, rt4, dead3, parent2, next1, items4, keys1, kids1, lo2, gone2, hi3, bd2, elo2, fresh2, root1, m2, pc23, key3, base3, fn3⟩
theorem s25 (hu : Agree up) : Fits up 15 init t25 := .step (s := t24) (s24 hu) 1 (.kill 1 1 rfl empty (by decide)) trivial
def next2 : Nat → Option Nat := update next1 0 (next1 1)
def gone3 : Nat → Bool := update gone2 1 (true)
def hi4 : Nat → Nat := fun a => if lo2 1 ≤ hi3 a ∧ hi3 a ≤ hi3 1 then hi3 1 else hi3 a
def bd3 : Nat → Nat := fun a => if lo2 1 ≤ bd2 a ∧ bd2 a ≤ hi3 1 then hi3 1 else bd2 a
def elo3 : Nat → Nat := fun a => if lo2 1 ≤ elo2 a ∧ elo2 a ≤ hi3 1 then hi3 1 else elo2 a
def pc24 : Nat → PC Nat := update pc23 1 (.rpar 1 none 15)
def t26 : State Nat := ⟨leaf2, lock6, ins4, spl4, dI5, dS6, rt4, dead3, parent2, next2, items4, keys1, kids1, lo2, gone3, hi4, bd3, elo3, fresh2, root1, m2, pc24, key3, base3, fn3⟩
theorem s26 (hu : Agree up) : Fits up 15 init t26 := .step (s := t25) (s25 hu) 1 (.unlink 1 1 0 rfl (by decide) rfl rfl rfl) trivial
def pc25 : Nat → PC Nat := update pc24 0 (.cmp 0 0 1)
def t27 : State Nat := ⟨leaf2, lock6, ins4, spl4, dI5, dS6, rt4, dead3, parent2, next2, items4, keys1, kids1, lo2, gone3, hi4, bd3, elo3, fresh2, root1, m2, pc25, key3, base3, fn3⟩
theorem s27 (hu : Agree up) : Fits up 15 init t27 := .step (s := t26) (s26 hu) 0 (.compareLeaf 0 0 0 0 none rfl ⟨rfl, rfl⟩) trivial
def pc26 : Nat → PC Nat := update pc25 0 (.adv 0 0 1)
def t28 : State Nat := ⟨leaf2, lock6, ins4, spl4, dI5, dS6, rt4, dead3, parent2, next2, items4, keys1, kids1, lo2, gone3, hi4, bd3, elo3, fresh2, root1, m2, pc26, key3, base3, fn3⟩
theorem s28 (hu : Agree up) : Fits up 15 init t28 := .step (s := t27) (s27 hu) 0 (.walk 0 0 0 1 rfl rfl) trivial
def pc27 : Nat → PC Nat := update pc26 0 (.at_ 0 0 1)
def t29 : State Nat := ⟨leaf2, lock6, ins4, spl4, dI5, dS6, rt4, dead3, parent2, next2, items4, keys1, kids1, lo2, gone3, hi4, bd3, elo3, fresh2, root1, m2, pc27, key3, base3, fn3⟩
theorem s29 (hu : Agree up) : Fits up 15 init t29 := .step (s := t28) (s28 hu) 0 (.arrived 0 0 0 1 rfl (.inr (by intro _ h; cases h))) trivial
def pc28 : Nat → PC Nat := update pc27 0 (.read 0 0 1 none)
def t30 : State Nat := ⟨leaf2, lock6, ins4, spl4, dI5, dS6, rt4, dead3, parent2, next2, items4, keys1, kids1, lo2, gone3, hi4, bd3, elo3, fresh2, root1, m2, pc28, key3, base3, fn3⟩
theorem s30 (hu : Agree up) : Fits up 15 init t30 := .step (s := t29) (s29 hu) 0 (.look 0 0 0 1 none rfl rfl (fun _ _ => rfl) (fun _ => rfl)) trivial
def lock7 : Nat → Option Nat := update lock6 0 (some 0)
def pc29 : Nat → PC Nat := update pc28 0 (.hold 0)
def t31 : State Nat := ⟨leaf2, lock7, ins4, spl4, dI5, dS6, rt4, dead3, parent2, next2, items4, keys1, kids1, lo2, gone3, hi4, bd3, elo3, fresh2, root1, m2, pc29, key3, base3, fn3⟩
theorem s31 (hu : Agree up) : Fits up 15 init t31 := .step (s := t30) (s30 hu) 0 (.acquire 0 0 0 1 none rfl (by intro h; cases h) rfl rfl rfl) trivial
def leaf3 : Nat → Bool := update leaf2 3 (true)
def lock8 : Nat → Option Nat := update lock7 3 (some 0)
def ins5 : Nat → Nat := update ins4 3 (ins4 0)
def spl5 : Nat → Nat := update spl4 3 (spl4 0)
def dI6 : Nat → Bool := update dI5 3 (dI5 0)
def dS7 : Nat → Bool := update dS6 3 (dS6 0)
def rt5 : Nat → Bool := update rt4 3 (rt4 0)
def dead4 : Nat → Bool := update dead3 3 (false)
def parent3 : Nat → Option Nat := update parent2 3 (none)
def next3 : Nat → Option Nat := update (update next2 3 (next2 0)) 0 (some 3)
def items5 : Nat → Nat → Option Nat := update items4 3 (fun k => if 15 ≤ k then items4 0 k else none)
def lo3 : Nat → Nat := update lo2 3 (15)
def gone4 : Nat → Bool := update gone3 3 (false)
def hi5 : Nat → Nat := update hi4 3 (hi4 0)
def bd4 : Nat → Nat := update bd3 3 (bd3 0)
def elo4 : Nat → Nat := update elo3 3 (15)
def fresh3 : Nat := fresh2 + 1
def pc30 : Nat → PC Nat := update pc29 0 (.par 0 3 15 none)
def t32 : State Nat := ⟨leaf3, lock8, ins5, spl5, dI6, dS7, rt5, dead4, parent3, next3, items5, keys1, kids1, lo3, gone4, hi5, bd4, elo4, fresh3, root1, m2, pc30, key3, base3, fn3⟩
theorem s32 (hu : Agree up) : Fits up 15 init t32 := .step (s := t31) (s31 hu) 0 (.split 0 0 15 rfl (by decide) (.inr rfl)) (fit_split rfl rfl (fun k => by show (if k < 15 then (if k < 15 then some k else none) else none) = _; split <;> rfl) rfl rfl)
def lock9 : Nat → Option Nat := update lock8 2 (some 0)
def pc31 : Nat → PC Nat := update pc30 0 (.got 2 0 3 15 none)
def t33 : State Nat := ⟨leaf3, lock9, ins5, spl5, dI6, dS7, rt5, dead4, parent3, next3, items5, keys1, kids1, lo3, gone4, hi5, bd4, elo4, fresh3, root1, m2, pc31, key3, base3, fn3⟩
theorem s33 (hu : Agree up) : Fits up 15 init t33 := .step (s := t32) (s32 hu) 0 (.lockParent 0 0 3 15 2 none rfl rfl rfl) trivial
def dI7 : Nat → Bool := update dI6 2 (true)
def pc32 : Nat → PC Nat := update pc31 0 (.mod 2 0 3 15 none)
def t34 : State Nat := ⟨leaf3, lock9, ins5, spl5, dI7, dS7, rt5, dead4, parent3, next3, items5, keys1, kids1, lo3, gone4, hi5, bd4, elo4, fresh3, root1, m2, pc32, key3, base3, fn3⟩
theorem s34 (hu : Agree up) : Fits up 15 init t34 := .step (s := t33) (s33 hu) 0 (.isParent 0 2 0 3 15 none rfl rfl) trivial
def parent4 : Nat → Option Nat := update parent3 3 (some 2)
def keys2 : Nat → List Nat := update keys1 2 ([15, 15])
def kids2 : Nat → List (Option Nat) := update kids1 2 ([some 0, some 1, some 3])
def bd5 : Nat → Nat := update bd4 0 (elo4 3)
def pc33 : Nat → PC Nat := update pc32 0 (.fin (some 2) none 0 3 15 none)
def t35 : State Nat := ⟨leaf3, lock9, ins5, spl5, dI7, dS7, rt5, dead4, parent4, next3, items5, keys2, kids2, lo3, gone4, hi5, bd5, elo4, fresh3, root1, m2, pc33, key3, base3, fn3⟩
theorem s35 (hu : Agree up) : Fits up 15 init t35 := .step (s := t34) (s34 hu) 0 (insert_step (p := 2) hu.1 (.insertKid 0 2 0 3 15 none rfl)) ⟨by decide, rfl, rfl⟩
def dS8 : Nat → Bool := update dS7 0 (true)
def pc34 : Nat → PC Nat := update pc33 0 (.cut (some 2) none 0 3 15)
def t36 : State Nat := ⟨leaf3, lock9, ins5, spl5, dI7, dS8, rt5, dead4, parent4, next3, items5, keys2, kids2, lo3, gone4, hi5, bd5, elo4, fresh3, root1, m2, pc34, key3, base3, fn3⟩
theorem s36 (hu : Agree up) : Fits up 15 init t36 := .step (s := t35) (s35 hu) 0 (.markSplit 0 0 3 15 (some 2) none rfl) trivial
def items6 : Nat → Nat → Option Nat := update items5 0 (fun k => if k < 15 then items5 0 k else none)
def hi6 : Nat → Nat := update hi5 0 (15)
def pc35 : Nat → PC Nat := update pc34 0 (.rel (some 2) none 0 3)
def t37 : State Nat := ⟨leaf3, lock9, ins5, spl5, dI7, dS8, rt5, dead4, parent4, next3, items6, keys2, kids2, lo3, gone4, hi6, bd5, elo4, fresh3, root1, m2, pc35, key3, base3, fn3⟩
theorem s37 (hu : Agree up) : Fits up 15 init t37 := .step (s := t36) (s36 hu) 0 (.strip 0 0 3 15 (some 2) none rfl) trivial
def lock10 : Nat → Option Nat := update lock9 0 (none)
def ins6 : Nat → Nat := update ins5 0 (if dI7 0 = true ∧ dS8 0 = false then ins5 0 + 1 else ins5 0)
def spl6 : Nat → Nat := update spl5 0 (if dS8 0 = true then spl5 0 + 1 else spl5 0)
def rt6 : Nat → Bool := update rt5 0 (rt5 0 && !dS8 0)
def dI8 : Nat → Bool := update dI7 0 (false)
def dS9 : Nat → Bool := update dS8 0 (false)
def pc36 : Nat → PC Nat := update pc35 0 (.unl 2 3)
def t38 : State Nat := ⟨leaf3, lock10, ins6, spl6, dI8, dS9, rt6, dead4, parent4, next3, items6, keys2, kids2, lo3, gone4, hi6, bd5, elo4, fresh3, root1, m2, pc36, key3, base3, fn3⟩
theorem s38 (hu : Agree up) : Fits up 15 init t38 := .step (s := t37) (s37 hu) 0 (.unlockRight 0 0 3 (some 2) none rfl) trivial
def lock11 : Nat → Option Nat := update lock10 2 (none)
def ins7 : Nat → Nat := update ins6 2 (if dI8 2 = true ∧ dS9 2 = false then ins6 2 + 1 else ins6 2)
def spl7 : Nat → Nat := update spl6 2 (if dS9 2 = true then spl6 2 + 1 else spl6 2)
def rt7 : Nat → Bool := update rt6 2 (rt6 2 && !dS9 2)
def dI9 : Nat → Bool := update dI8 2 (false)
def dS10 : Nat → Bool := update dS9 2 (false)
def pc37 : Nat → PC Nat := update pc36 0 (.hold 3)
def t39 : State Nat := ⟨leaf3, lock11, ins7, spl7, dI9, dS10, rt7, dead4, parent4, next3, items6, keys2, kids2, lo3, gone4, hi6, bd5, elo4, fresh3, root1, m2, pc37, key3, base3, fn3⟩
theorem s39 (hu : Agree up) : Fits up 15 init t39 := .step (s := t38) (s38 hu) 0 (.unlockParent 0 2 3 rfl) trivial
def items7 : Nat → Nat → Option Nat := update items6 3 (update (items6 3) (key3 0) (put (items6 3 (key3 0))))
def m3 : Nat → Option Nat := update m2 (key3 0) (put (m2 (key3 0)))
def pc38 : Nat → PC Nat := update pc37 0 (.pub 3)
def t40 : State Nat := ⟨leaf3, lock11, ins7, spl7, dI9, dS10, rt7, dead4, parent4, next3, items7, keys2, kids2, lo3, gone4, hi6, bd5, elo4, fresh3, root1, m3, pc38, key3, base3, fn3⟩
theorem s40 (hu : Agree up) : Fits up 15 init t40 := .step (s := t39) (s39 hu) 0 (.publish 0 3 put rfl rfl) (fit_room rfl rfl (fun k => by change (if 15 ≤ k then (if k < 15 then (if k < 15 then some k else none) else none) else none) = none; split <;> first | rw [if_neg (by omega)] | rfl))
def lock12 : Nat → Option Nat := update lock11 3 (none)
def ins8 : Nat → Nat := update ins7 3 (if dI9 3 = true ∧ dS10 3 = false then ins7 3 + 1 else ins7 3)
def spl8 : Nat → Nat := update spl7 3 (if dS10 3 = true then spl7 3 + 1 else spl7 3)
def rt8 : Nat → Bool := update rt7 3 (rt7 3 && !dS10 3)
def dI10 : Nat → Bool := update dI9 3 (false)
def dS11 : Nat → Bool := update dS10 3 (false)
def pc39 : Nat → PC Nat := update pc38 0 (.idle)
def t41 : State Nat := ⟨leaf3, lock12, ins8, spl8, dI10, dS11, rt8, dead4, parent4, next3, items7, keys2, kids2, lo3, gone4, hi6, bd5, elo4, fresh3, root1, m3, pc39, key3, base3, fn3⟩
theorem s41 (hu : Agree up) : Fits up 15 init t41 := .step (s := t40) (s40 hu) 0 (.release 0 3 rfl) (.inl ⟨15, (by intro h; cases h)⟩)
def lock13 : Nat → Option Nat := update lock12 2 (some 1)
def pc40 : Nat → PC Nat := update pc39 1 (.rgot 2 1 none 15)
def t42 : State Nat := ⟨leaf3, lock13, ins8, spl8, dI10, dS11, rt8, dead4, parent4, next3, items7, keys2, kids2, lo3, gone4, hi6, bd5, elo4, fresh3, root1, m3, pc40, key3, base3, fn3⟩
theorem s42 (hu : Agree up) : Fits up 15 init t42 := .step (s := t41) (s41 hu) 1 (.lockParentR 1 1 2 15 none rfl rfl rfl) trivial
def dI11 : Nat → Bool := update dI10 2 (true)
def pc41 : Nat → PC Nat := update pc40 1 (.rmod 2 1 none 15)
def t43 : State Nat := ⟨leaf3, lock13, ins8, spl8, dI11, dS11, rt8, dead4, parent4, next3, items7, keys2, kids2, lo3, gone4, hi6, bd5, elo4, fresh3, root1, m3, pc41, key3, base3, fn3⟩
theorem s43 (hu : Agree up) : Fits up 15 init t43 := .step (s := t42) (s42 hu) 1 (.isParentR 1 2 1 15 none rfl rfl) trivial
def keys3 : Nat → List Nat := update keys2 2 ([15])
def kids3 : Nat → List (Option Nat) := update kids2 2 ([some 0, some 1])
def pc42 : Nat → PC Nat := update pc41 1 (.rend 2 1 15)
def t44 : State Nat := ⟨leaf3, lock13, ins8, spl8, dI11, dS11, rt8, dead4, parent4, next3, items7, keys3, kids3, lo3, gone4, hi6, bd5, elo4, fresh3, root1, m3, pc42, key3, base3, fn3⟩
theorem s44 (hu : Agree up) : Fits up 15 init t44 := .step (s := t43) (s43 hu) 1 (remove_step (p := 2) hu.2 (.removeKid 1 2 1 15 none rfl)) trivial
def lock14 : Nat → Option Nat := update lock13 1 (none)
def ins9 : Nat → Nat := update ins8 1 (if dI11 1 = true ∧ dS11 1 = false then ins8 1 + 1 else ins8 1)
def spl9 : Nat → Nat := update spl8 1 (if dS11 1 = true then spl8 1 + 1 else spl8 1)
def rt9 : Nat → Bool := update rt8 1 (rt8 1 && !dS11 1)
def dI12 : Nat → Bool := update dI11 1 (false)
def dS12 : Nat → Bool := update dS11 1 (false)
def pc43 : Nat → PC Nat := update pc42 1 (.rnext 2 15)
def t45 : State Nat := ⟨leaf3, lock14, ins9, spl9, dI12, dS12, rt9, dead4, parent4, next3, items7, keys3, kids3, lo3, gone4, hi6, bd5, elo4, fresh3, root1, m3, pc43, key3, base3, fn3⟩
theorem s45 (hu : Agree up) : Fits up 15 init t45 := .step (s := t44) (s44 hu) 1 (.unlockDead 1 2 1 15 rfl) trivial
def lock15 : Nat → Option Nat := update lock14 2 (none)
def ins10 : Nat → Nat := update ins9 2 (if dI12 2 = true ∧ dS12 2 = false then ins9 2 + 1 else ins9 2)
def spl10 : Nat → Nat := update spl9 2 (if dS12 2 = true then spl9 2 + 1 else spl9 2)
def rt10 : Nat → Bool := update rt9 2 (rt9 2 && !dS12 2)
def dI13 : Nat → Bool := update dI12 2 (false)
def dS13 : Nat → Bool := update dS12 2 (false)
def pc44 : Nat → PC Nat := update pc43 1 (.idle)
def t46 : State Nat := ⟨leaf3, lock15, ins10, spl10, dI13, dS13, rt10, dead4, parent4, next3, items7, keys3, kids3, lo3, gone4, hi6, bd5, elo4, fresh3, root1, m3, pc44, key3, base3, fn3⟩
theorem s46 (hu : Agree up) : Fits up 15 init t46 := .step (s := t45) (s45 hu) 1 (.finish 1 2 15 rfl (.inr rfl)) trivial

/-- The run. -/
theorem run (hu : Agree up) : Fits up 15 init t46 := s46 hu

/-- At its end no operation is going on. -/
theorem quiet : ∀ i, t46.pc i = .idle := by
  intro i
  show update _ 1 _ i = _
  by_cases h1 : i = 1
  · rw [h1]; rfl
  · by_cases h0 : i = 0
    · rw [h0]; rfl
    · simp only [pc43, pc42, pc41, pc40, pc39, pc38, pc37, pc36, pc35, pc34, pc33, pc32, pc31, pc30, pc29, pc28, pc27, pc26, pc25, pc24, pc23, pc22, pc21, pc20, pc19, pc18, pc17, pc16, pc15, pc14, pc13, pc12, pc11, pc10, pc9, pc8, pc7, pc6, pc5, pc4, pc3, pc2, pc1, Function.update_of_ne h1, Function.update_of_ne h0]
      rfl

/-- And nothing is locked. -/
theorem free : ∀ n, t46.lock n = none := by
  intro n
  show update _ _ _ n = _
  by_cases h0 : n = 0
  · rw [h0]; rfl
  · by_cases h1 : n = 1
    · rw [h1]; rfl
    · by_cases h2 : n = 2
      · rw [h2]; rfl
      · by_cases h3 : n = 3
        · rw [h3]; rfl
        · simp only [lock14, lock13, lock12, lock11, lock10, lock9, lock8, lock7, lock6, lock5, lock4, lock3, lock2, lock1, Function.update_of_ne h0, Function.update_of_ne h1, Function.update_of_ne h2, Function.update_of_ne h3]
          rfl

/-- Where a thread looking for key 15 can get. -/
def Here (s : State Nat) : PC Nat → Prop
  | .up n => n = 2
  | .at_ n vi vs => (n = 2 ∧ vi = s.ins 2 ∧ vs = s.spl 2) ∨ (n = 1 ∧ vs = s.spl 1)
  | .pick n vi vs c => n = 2 ∧ vi = s.ins 2 ∧ vs = s.spl 2 ∧ c = 1
  | .picked n vi vs c _ cs => n = 2 ∧ vi = s.ins 2 ∧ vs = s.spl 2 ∧ c = 1 ∧ cs = s.spl 1
  | .cmp n vi vs => n = 2 ∧ vi = s.ins 2 ∧ vs = s.spl 2
  | _ => False

/-- A thread that has nothing locked. -/
def Reading : PC Nat → Prop
  | .up _ | .at_ .. | .pick .. | .picked .. | .cmp .. | .adv .. | .go _ | .read .. | .done _ => True
  | _ => False

structure Stuck (s : State Nat) : Prop where
  root : s.root = 2
  parent : s.parent 2 = none
  leaf : s.leaf 1 = true ∧ s.leaf 2 = false
  dead : s.dead 1 = true
  clean : s.clean 1 ∧ s.clean 2
  keys : s.keys 2 = [15]
  kids : s.kids 2 = [some 0, some 1]
  thr : ∀ i, s.pc i = .idle ∨
    (s.base i = 2 ∧ Reading (s.pc i) ∧ (s.key i = 15 → Here s (s.pc i)) ∧ (s.key i ≠ 15 → s.fn i = none))

theorem stuck_end : Stuck t46 where
  root := rfl
  parent := rfl
  leaf := ⟨rfl, rfl⟩
  dead := rfl
  clean := ⟨⟨rfl, rfl⟩, ⟨rfl, rfl⟩⟩
  keys := rfl
  kids := rfl
  thr i := .inl (quiet i)

theorem Stuck.to {s : State Nat} (h : Stuck s) {i : Nat} {x : PC Nat} (hx : x = .idle ∨
    (s.base i = 2 ∧ Reading x ∧ (s.key i = 15 → Here s x) ∧ (s.key i ≠ 15 → s.fn i = none))) : Stuck (s.to i x) where
  root := h.root
  parent := h.parent
  leaf := h.leaf
  dead := h.dead
  clean := h.clean
  keys := h.keys
  kids := h.kids
  thr j := by
    by_cases hj : j = i
    · subst hj
      simp only [State.to, Function.update_self]
      rcases hx with hx | hx
      · exact .inl hx
      · refine .inr ⟨hx.1, hx.2.1, fun hk => ?_, hx.2.2.2⟩
        have := hx.2.2.1 hk
        cases x <;> exact this
    · simp only [State.to, Function.update_of_ne hj]
      rcases h.thr j with h1 | h1
      · exact .inl h1
      · refine .inr ⟨h1.1, h1.2.1, fun hk => ?_, h1.2.2.2⟩
        have := h1.2.2.1 hk
        revert this
        generalize s.pc j = z
        cases z <;> exact id

theorem stuck_step (hu : up [15] 15 = 1) {s s' : State Nat} (h : Stuck s) (hs : Step up s s')
    (hw : ∀ i, s'.pc i = .idle ∨ s'.fn i = none ∨ s'.key i = 15) : Stuck s' := by
  have hd := h.dead
  have hl := h.leaf
  have hk := h.keys
  have hc := h.kids
  have hcl := h.clean
  have hp := h.parent
  have ht := h.thr
  have hroot := h.root
  have reader : ∀ i x, s.pc i ≠ .idle → (∀ (_ : s.base i = 2) (_ : Reading (s.pc i)), (s.key i = 15 → Here s (s.pc i)) →
      (s.key i ≠ 15 → s.fn i = none) → x = .idle ∨ (Reading x ∧ (s.key i = 15 → Here s x))) → Stuck (s.to i x) := by
    intro i x hi hx
    rcases h.thr i with h1 | ⟨h1, h2, h3, h4⟩
    · exact absurd h1 hi
    · refine h.to ?_
      rcases hx h1 h2 h3 h4 with h5 | h5
      · exact .inl h5
      · exact .inr ⟨h1, h5.1, h5.2, h4⟩
  have no : ∀ i x, s.pc i = x → (Reading x ∨ x = .idle) := by
    intro i x hx
    rcases h.thr i with h1 | h1
    · exact .inr (hx ▸ h1)
    · exact .inl (hx ▸ h1.2.1)
  cases hs with
  | start i k f hk hp =>
    refine Stuck.to (s := { s with key := update s.key i k, base := update s.base i s.root, fn := update s.fn i f })
      ⟨h.root, h.parent, h.leaf, h.dead, h.clean, h.keys, h.kids, fun j => ?_⟩ ?_
    · by_cases hj : j = i
      · subst hj; exact .inl hp
      · have := h.thr j
        simp only [Function.update_of_ne hj]
        rcases this with h1 | h1
        · exact .inl h1
        · refine .inr ⟨h1.1, h1.2.1, fun hk => ?_, h1.2.2.2⟩
          have := h1.2.2.1 hk
          revert this
          generalize s.pc j = z
          cases z <;> exact id
    · right
      have := hw i
      simp only [State.to, Function.update_self] at this ⊢
      refine ⟨h.root, trivial, fun _ => h.root, fun hk => ?_⟩
      rcases this with h1 | h1 | h1
      · cases h1
      · exact h1
      · exact absurd h1 hk
  | fixRoot p hp hr => rw [h.root, h.parent] at hp; cases hp
  | markLeaf i n hp => have := h.thr i; rw [hp] at this; simp [Reading] at this
  | acquire i n vi vs r hp hf hl1 hi1 hs1 =>
    have := h.thr i
    rw [hp] at this
    simp only [reduceCtorEq, false_or, Reading, Here] at this
    exact absurd (this.2.2.2 (fun hk => this.2.2.1 hk)) hf
  | pick i n vi vs c hp1 hl1 hc1 =>
    refine reader _ _ (by rw [hp1]; intro h; cases h) ?_
    intro a1 a2 a3 a4
    refine .inr ⟨trivial, fun h15 => ?_⟩
    have := a3 h15
    rw [hp1] at this
    rcases this with ⟨rfl, rfl, rfl⟩ | ⟨rfl, rfl⟩
    · have := hc1 ⟨hcl.2, rfl, rfl⟩
      unfold State.route at this
      rw [hk, hc, h15, hu] at this
      simp only [List.getD_cons_succ, List.getD_cons_zero, Option.some.injEq] at this
      exact ⟨rfl, rfl, rfl, this.symm⟩
    · rw [hl.1] at hl1; cases hl1
  | rooted | climb | child | descend | again | compare | inside | retry | look | found | stay | compareLeaf | insideLeaf
    | walk | forward | arrive | arrived | «return» =>
    refine reader _ _ (by grind) ?_
    intro a1 a2 a3 a4
    simp only [Reading, Here, State.same, State.clean, State.route, Seen] at *
    grind
  | _ => exact absurd (no _ _ (by assumption)) (by simp [Reading])

end Lost

end Verif.Prune
