import Verif.LockOrder.Steps

/-!
# A layer pointer that is left behind

A run of two threads at whose end a layer pointer names a node that has been given to `deallocate_rcu`.

Thread 0 makes a layer below leaf 0 (leaf 1), splits leaf 1 into 1 and 2 below a new root 3, and brings the layer pointer up
to date: it names 3.  Thread 1 comes through that pointer, while 3 is the root, and reaches leaf 2; it is not yet in the
critical section.  Thread 0 splits leaf 2 (new leaf 4); the root 3 is full and is divided into 3 and 5, and a new root 6 is
made.  Thread 0 has no reason to look at the layer pointer again.  Now thread 1 locks leaf 2, removes it, and finds that 3 has
no keys any more and is not the root: 3 is replaced by its only child 1 in 6, marked deleted and given away.  The layer
pointer still names 3.

The nodes of the code hold more entries, so that there several threads must have passed the pointer in time, one for each
child of 3 that has to go; the model takes nodes of any size.
-/
namespace Verif.LockOrder

open Function (update)
open Leaflink (assign insertAfter)

/-- What a writer can reach from the table: it goes through a layer pointer only if that names a root,
/repo/masstree_get.hh:92; otherwise it brings the pointer up to date first. -/
inductive Seen (s : State) : Nat → Prop where
  /-- the root of the first layer -/
  | root {b : Nat} (hl : s.lay b = 0) (hb : s.parent b = none) (hn : b < s.fresh) (hd : ¬ s.dead b) : Seen s b
  | kid {p c : Nat} (h : Seen s p) (hc : s.kids p c) : Seen s c
  | layer {n r : Nat} (h : Seen s n) (hr : s.sub n r) (hp : s.parent r = none) : Seen s r

/-- Runs in which every operation begins with a node that can be reached at that time. -/
inductive Careful (key : Nat → Nat → Nat) : State → Prop where
  | init : Careful key State.init
  | find {s : State} (h : Careful key s) (i n : Nat) (hp : s.pc i = .idle) (hn : Seen s n) :
      Careful key { s with pc := update s.pc i (.want n) }
  | step {s s' : State} {i : Nat} (h : Careful key s) (h' : Step key i s s') (hw : ∀ n, s'.pc i ≠ .want n) : Careful key s'

theorem Seen.lt {key : Nat → Nat → Nat} {s : State} (h : Inv key s) {n : Nat} (hn : Seen s n) : n < s.fresh := by
  cases hn with
  | root _ _ hn _ => exact hn
  | kid _ hc => exact (h.kid _ _ hc).2.1.1
  | layer _ hr _ => exact (h.subLt _ _ hr).2.1

/-- They are runs. -/
theorem Careful.reachable {key : Nat → Nat → Nat} {s : State} (h : Careful key s) : Reachable key s := by
  induction h with
  | init => exact .init
  | find _ i n hp hn ih => exact .step ih (.find (i := i) n (.inl hp) (hn.lt (reachable_inv ih)))
  | step _ h' _ ih => exact .step ih h'

namespace Dangle

/-- Leaves are in the order of their numbers. -/
def key : Nat → Nat → Nat := fun _ x => x

/-- What moves to the right half of node 3. -/
def right (q : Nat) : Bool := q == 4

def pc1 : Nat → PC := update State.init.pc 0 (.want 0)
def t1 : State := ⟨State.init.fresh, State.init.ht, State.init.lay, State.init.dep, State.init.lock, State.init.parent, State.init.kids, State.init.sub, State.init.dead, State.init.limbo, State.init.list, pc1⟩
theorem seen0 : Seen State.init 0 := .root rfl rfl (by decide) (fun h => h)
theorem c1 : Careful key t1 := .find (s := State.init) .init 0 0 rfl seen0
def lk1 : Nat → Option Nat := update State.init.lock 0 (some 0)
def pc2 : Nat → PC := update pc1 0 (.look 0)
def t2 : State := ⟨State.init.fresh, State.init.ht, State.init.lay, State.init.dep, lk1, State.init.parent, State.init.kids, State.init.sub, State.init.dead, State.init.limbo, State.init.list, pc2⟩
theorem c2 : Careful key t2 := .step (s := t1) (i := 0) c1 (.lock 0 rfl rfl rfl) (by intro m h; cases h)
def pc3 : Nat → PC := update pc2 0 (.hold 0)
def t3 : State := ⟨State.init.fresh, State.init.ht, State.init.lay, State.init.dep, lk1, State.init.parent, State.init.kids, State.init.sub, State.init.dead, State.init.limbo, State.init.list, pc3⟩
theorem c3 : Careful key t3 := .step (s := t2) (i := 0) c2 (.look 0 rfl (fun h => h)) (by intro m h; cases h)
def fr1 : Nat := State.init.fresh + 0 + 1
def ht1 : Nat → Nat := fun x => if State.init.fresh ≤ x then 0 else State.init.ht x
def ly1 : Nat → Nat := fun x => if State.init.fresh ≤ x then x else State.init.lay x
def dp1 : Nat → Nat := fun l => if State.init.fresh ≤ l then State.init.dep (State.init.lay 0) + 1 + (l - State.init.fresh ) else State.init.dep l
def lk2 : Nat → Option Nat := update lk1 (State.init.fresh + 0) (some 0)
def sb1 : Nat → Nat → Prop := fun x r => State.init.sub x r ∨ (x = 0 ∧ r = State.init.fresh ) ∨ (State.init.fresh ≤ x ∧ x < State.init.fresh + 0 ∧ r = x + 1)
def li1 : Nat → Leaflink.State := fun l => if State.init.fresh ≤ l then .init else State.init.list l
def pc4 : Nat → PC := update pc3 0 (.twig 0 (State.init.fresh + 0))
def t4 : State := ⟨fr1, ht1, ly1, dp1, lk2, State.init.parent, State.init.kids, sb1, State.init.dead, State.init.limbo, li1, pc4⟩
theorem c4 : Careful key t4 := .step (s := t3) (i := 0) c3 (.twig 0 0 rfl) (by intro m h; cases h)
def lk3 : Nat → Option Nat := update lk2 0 none
def pc5 : Nat → PC := update pc4 0 (.hold 1)
def t5 : State := ⟨fr1, ht1, ly1, dp1, lk3, State.init.parent, State.init.kids, sb1, State.init.dead, State.init.limbo, li1, pc5⟩
theorem c5 : Careful key t5 := .step (s := t4) (i := 0) c4 (.twigged 0 1 rfl) (by intro m h; cases h)
def lk4 : Nat → Option Nat := update lk3 1 none
def pc6 : Nat → PC := update pc5 0 (.idle)
def t6 : State := ⟨fr1, ht1, ly1, dp1, lk4, State.init.parent, State.init.kids, sb1, State.init.dead, State.init.limbo, li1, pc6⟩
theorem c6 : Careful key t6 := .step (s := t5) (i := 0) c5 (.unlock 1 rfl) (by intro m h; cases h)
def pc7 : Nat → PC := update pc6 0 (.want 1)
def t7 : State := ⟨fr1, ht1, ly1, dp1, lk4, State.init.parent, State.init.kids, sb1, State.init.dead, State.init.limbo, li1, pc7⟩
theorem seen1 : Seen t6 1 := .layer (.root (b := 0) rfl rfl (by decide) (fun h => h)) (.inr (.inl ⟨rfl, rfl⟩)) rfl
theorem c7 : Careful key t7 := .find (s := t6) c6 0 1 rfl seen1
def lk5 : Nat → Option Nat := update lk4 1 (some 0)
def pc8 : Nat → PC := update pc7 0 (.look 1)
def t8 : State := ⟨fr1, ht1, ly1, dp1, lk5, State.init.parent, State.init.kids, sb1, State.init.dead, State.init.limbo, li1, pc8⟩
theorem c8 : Careful key t8 := .step (s := t7) (i := 0) c7 (.lock 1 rfl rfl rfl) (by intro m h; cases h)
def pc9 : Nat → PC := update pc8 0 (.hold 1)
def t9 : State := ⟨fr1, ht1, ly1, dp1, lk5, State.init.parent, State.init.kids, sb1, State.init.dead, State.init.limbo, li1, pc9⟩
theorem c9 : Careful key t9 := .step (s := t8) (i := 0) c8 (.look 1 rfl (fun h => h)) (by intro m h; cases h)
def l1 : Leaflink.State := { Leaflink.State.init with op := update Leaflink.State.init.op 0 (.s0 2), status := update Leaflink.State.init.status 2 .pending }
def fr2 : Nat := fr1 + 1
def ht2 : Nat → Nat := update ht1 fr1 0
def ly2 : Nat → Nat := update ly1 fr1 (ly1 1)
def lk6 : Nat → Option Nat := update lk5 fr1 (some 0)
def sb2 : Nat → Nat → Prop := update (update sb1 1 (fun r => sb1 1 r ∧ false = false)) fr1 (fun r => sb1 1 r ∧ false = true)
def li2 : Nat → Leaflink.State := update li1 (ly1 1) l1
def pc10 : Nat → PC := update pc9 0 (.link 1 fr1 )
def t10 : State := ⟨fr2, ht2, ly2, dp1, lk6, State.init.parent, State.init.kids, sb2, State.init.dead, State.init.limbo, li2, pc10⟩
theorem split2 : Leaflink.Step (key 1) Leaflink.State.init l1 := by
  refine .split 0 2 rfl rfl ?_ rfl (by decide) ?_
  · rintro ⟨x, nx, h⟩
    cases h
  · intro x hx hk
    by_cases h : x = 0
    · subst h; cases hk
    · simp [Leaflink.State.init, h] at hx
theorem c10 : Careful key t10 := .step (s := t9) (i := 0) c9 (.split 1 (fun _ => false) l1 rfl ⟨split2, rfl, rfl, fun x hx => Function.update_of_ne hx ..⟩) (by intro m h; cases h)
def l2 : Leaflink.State := { l1 with prev := update l1.prev 2 (some 0), op := update l1.op 0 (.s1 2) }
def li3 : Nat → Leaflink.State := update li2 (ly2 1) l2
def t11 : State := ⟨fr2, ht2, ly2, dp1, lk6, State.init.parent, State.init.kids, sb2, State.init.dead, State.init.limbo, li3, pc10⟩
theorem c11 : Careful key t11 := .step (s := t10) (i := 0) c10 (.move 1 l2 (.inr ⟨2, rfl⟩) ⟨.s0 0 2 rfl, (by intro h; cases h), fun x hx => Function.update_of_ne hx ..⟩) (by intro m h; cases h)
def l3 : Leaflink.State := { l2 with op := update l2.op 0 (.s2 2 none) }
def li4 : Nat → Leaflink.State := update li3 (ly2 1) l3
def t12 : State := ⟨fr2, ht2, ly2, dp1, lk6, State.init.parent, State.init.kids, sb2, State.init.dead, State.init.limbo, li4, pc10⟩
theorem c12 : Careful key t12 := .step (s := t11) (i := 0) c11 (.move 1 l3 (.inr ⟨2, rfl⟩) ⟨.s1null 0 2 rfl rfl, (by intro h; cases h), fun x hx => Function.update_of_ne hx ..⟩) (by intro m h; cases h)
def l4 : Leaflink.State := { l3 with next := update l3.next 2 none, mark := update l3.mark 2 false, op := update l3.op 0 (.s3 2 none) }
def li5 : Nat → Leaflink.State := update li4 (ly2 1) l4
def t13 : State := ⟨fr2, ht2, ly2, dp1, lk6, State.init.parent, State.init.kids, sb2, State.init.dead, State.init.limbo, li5, pc10⟩
theorem c13 : Careful key t13 := .step (s := t12) (i := 0) c12 (.move 1 l4 (.inr ⟨2, rfl⟩) ⟨.s2 0 2 none rfl, (by intro h; cases h), fun x hx => Function.update_of_ne hx ..⟩) (by intro m h; cases h)
def l5 : Leaflink.State := { l4 with prev := assign l4.prev none 2, op := update l4.op 0 (.s4 2 none), status := update l4.status 2 .live, ls := update (update l4.ls 0 (some 2)) 2 none, lp := assign (update l4.lp 2 (some 0)) none 2, all := insertAfter 0 2 l4.all }
def li6 : Nat → Leaflink.State := update li5 (ly2 1) l5
def t14 : State := ⟨fr2, ht2, ly2, dp1, lk6, State.init.parent, State.init.kids, sb2, State.init.dead, State.init.limbo, li6, pc10⟩
theorem c14 : Careful key t14 := .step (s := t13) (i := 0) c13 (.move 1 l5 (.inr ⟨2, rfl⟩) ⟨.s3 0 2 none rfl, (by intro h; cases h), fun x hx => Function.update_of_ne hx ..⟩) (by intro m h; cases h)
def l6 : Leaflink.State := { l5 with next := update l5.next 0 (some 2), mark := update l5.mark 0 false, op := update l5.op 0 .idle }
def li7 : Nat → Leaflink.State := update li6 (ly2 1) l6
def t15 : State := ⟨fr2, ht2, ly2, dp1, lk6, State.init.parent, State.init.kids, sb2, State.init.dead, State.init.limbo, li7, pc10⟩
theorem c15 : Careful key t15 := .step (s := t14) (i := 0) c14 (.move 1 l6 (.inr ⟨2, rfl⟩) ⟨.s4 0 2 none rfl, (by intro h; cases h), fun x hx => Function.update_of_ne hx ..⟩) (by intro m h; cases h)
def pc11 : Nat → PC := update pc10 0 (.par 1 2 none 0)
def t16 : State := ⟨fr2, ht2, ly2, dp1, lk6, State.init.parent, State.init.kids, sb2, State.init.dead, State.init.limbo, li7, pc11⟩
theorem c16 : Careful key t16 := .step (s := t15) (i := 0) c15 (.linked 1 2 rfl rfl) (by intro m h; cases h)
def fr3 : Nat := fr2 + 1
def ht3 : Nat → Nat := update ht2 fr2 (0 + 1)
def ly3 : Nat → Nat := update ly2 fr2 (ly2 1)
def pa1 : Nat → Option Nat := update (update State.init.parent 2 (some fr2 )) 1 (some fr2 )
def kd1 : Nat → Nat → Prop := update State.init.kids fr2 (fun q => q = 1 ∨ q = 2)
def pc12 : Nat → PC := update pc11 0 (.fin none none 1 2 none 0)
def t17 : State := ⟨fr3, ht3, ly3, dp1, lk6, pa1, kd1, sb2, State.init.dead, State.init.limbo, li7, pc12⟩
theorem c17 : Careful key t17 := .step (s := t16) (i := 0) c16 (.newRoot 1 2 none 0 rfl rfl) (by intro m h; cases h)
def lk7 : Nat → Option Nat := update lk6 2 none
def pc13 : Nat → PC := update pc12 0 (.rel none none 1 0)
def t18 : State := ⟨fr3, ht3, ly3, dp1, lk7, pa1, kd1, sb2, State.init.dead, State.init.limbo, li7, pc13⟩
theorem c18 : Careful key t18 := .step (s := t17) (i := 0) c17 (.keepLeft none none 1 2 0 rfl) (by intro m h; cases h)
def lk8 : Nat → Option Nat := LockOrder.unlock lk7 none
def pc14 : Nat → PC := update pc13 0 (.hold 1)
def t19 : State := ⟨fr3, ht3, ly3, dp1, lk8, pa1, kd1, sb2, State.init.dead, State.init.limbo, li7, pc14⟩
theorem c19 : Careful key t19 := .step (s := t18) (i := 0) c18 (.done none 1 0 rfl) (by intro m h; cases h)
def lk9 : Nat → Option Nat := update lk8 1 none
def pc15 : Nat → PC := update pc14 0 (.idle)
def t20 : State := ⟨fr3, ht3, ly3, dp1, lk9, pa1, kd1, sb2, State.init.dead, State.init.limbo, li7, pc15⟩
theorem c20 : Careful key t20 := .step (s := t19) (i := 0) c19 (.unlock 1 rfl) (by intro m h; cases h)
def pc16 : Nat → PC := update pc15 0 (.want 0)
def t21 : State := ⟨fr3, ht3, ly3, dp1, lk9, pa1, kd1, sb2, State.init.dead, State.init.limbo, li7, pc16⟩
theorem seen0b : Seen t20 0 := .root rfl rfl (by decide) (fun h => h)
theorem c21 : Careful key t21 := .find (s := t20) c20 0 0 rfl seen0b
def lk10 : Nat → Option Nat := update lk9 0 (some 0)
def pc17 : Nat → PC := update pc16 0 (.look 0)
def t22 : State := ⟨fr3, ht3, ly3, dp1, lk10, pa1, kd1, sb2, State.init.dead, State.init.limbo, li7, pc17⟩
theorem c22 : Careful key t22 := .step (s := t21) (i := 0) c21 (.lock 0 rfl rfl rfl) (by intro m h; cases h)
def pc18 : Nat → PC := update pc17 0 (.hold 0)
def t23 : State := ⟨fr3, ht3, ly3, dp1, lk10, pa1, kd1, sb2, State.init.dead, State.init.limbo, li7, pc18⟩
theorem c23 : Careful key t23 := .step (s := t22) (i := 0) c22 (.look 0 rfl (fun h => h)) (by intro m h; cases h)
def sb3 : Nat → Nat → Prop := update sb2 0 (fun x => (sb2 0 x ∧ x ≠ 1) ∨ x = 3)
def pc19 : Nat → PC := update pc18 0 (.gc 0 3)
def t24 : State := ⟨fr3, ht3, ly3, dp1, lk10, pa1, kd1, sb3, State.init.dead, State.init.limbo, li7, pc19⟩
theorem sub01 : t23.sub 0 1 := .inr (.inl ⟨rfl, rfl⟩)
theorem c24 : Careful key t24 := .step (s := t23) (i := 0) c23 (.repair 0 1 3 rfl sub01 rfl) (by intro m h; cases h)
def pc20 : Nat → PC := update pc19 0 (.hold 0)
def t25 : State := ⟨fr3, ht3, ly3, dp1, lk10, pa1, kd1, sb3, State.init.dead, State.init.limbo, li7, pc20⟩
theorem c25 : Careful key t25 := .step (s := t24) (i := 0) c24 (.gleave 0 3 rfl) (by intro m h; cases h)
def lk11 : Nat → Option Nat := update lk10 0 none
def pc21 : Nat → PC := update pc20 0 (.idle)
def t26 : State := ⟨fr3, ht3, ly3, dp1, lk11, pa1, kd1, sb3, State.init.dead, State.init.limbo, li7, pc21⟩
theorem c26 : Careful key t26 := .step (s := t25) (i := 0) c25 (.unlock 0 rfl) (by intro m h; cases h)
def pc22 : Nat → PC := update pc21 1 (.want 2)
def t27 : State := ⟨fr3, ht3, ly3, dp1, lk11, pa1, kd1, sb3, State.init.dead, State.init.limbo, li7, pc22⟩
theorem seen2 : Seen t26 2 :=
  .kid (.layer (r := 3) (.root (b := 0) rfl rfl (by decide) (fun h => h)) (.inr rfl) rfl) (.inr rfl)
theorem c27 : Careful key t27 := .find (s := t26) c26 1 2 rfl seen2
def pc23 : Nat → PC := update pc22 0 (.want 2)
def t28 : State := ⟨fr3, ht3, ly3, dp1, lk11, pa1, kd1, sb3, State.init.dead, State.init.limbo, li7, pc23⟩
theorem seen2b : Seen t27 2 :=
  .kid (.layer (r := 3) (.root (b := 0) rfl rfl (by decide) (fun h => h)) (.inr rfl) rfl) (.inr rfl)
theorem c28 : Careful key t28 := .find (s := t27) c27 0 2 rfl seen2b
def lk12 : Nat → Option Nat := update lk11 2 (some 0)
def pc24 : Nat → PC := update pc23 0 (.look 2)
def t29 : State := ⟨fr3, ht3, ly3, dp1, lk12, pa1, kd1, sb3, State.init.dead, State.init.limbo, li7, pc24⟩
theorem c29 : Careful key t29 := .step (s := t28) (i := 0) c28 (.lock 2 rfl rfl rfl) (by intro m h; cases h)
def pc25 : Nat → PC := update pc24 0 (.hold 2)
def t30 : State := ⟨fr3, ht3, ly3, dp1, lk12, pa1, kd1, sb3, State.init.dead, State.init.limbo, li7, pc25⟩
theorem c30 : Careful key t30 := .step (s := t29) (i := 0) c29 (.look 2 rfl (fun h => h)) (by intro m h; cases h)
def l7 : Leaflink.State := { l6 with op := update l6.op 2 (.s0 4), status := update l6.status 4 .pending }
def fr4 : Nat := fr3 + 1
def ht4 : Nat → Nat := update ht3 fr3 0
def ly4 : Nat → Nat := update ly3 fr3 (ly3 2)
def lk13 : Nat → Option Nat := update lk12 fr3 (some 0)
def sb4 : Nat → Nat → Prop := update (update sb3 2 (fun r => sb3 2 r ∧ false = false)) fr3 (fun r => sb3 2 r ∧ false = true)
def li8 : Nat → Leaflink.State := update li7 (ly3 2) l7
def pc26 : Nat → PC := update pc25 0 (.link 2 fr3 )
def t31 : State := ⟨fr4, ht4, ly4, dp1, lk13, pa1, kd1, sb4, State.init.dead, State.init.limbo, li8, pc26⟩
theorem idle6 (x : Nat) : l6.op x = .idle := by
  by_cases h : x = 0
  · subst h; rfl
  · simp [l6, l5, l4, l3, l2, l1, Leaflink.State.init, h]
theorem live6 (x : Nat) (h : l6.status x = .live) : x = 0 ∨ x = 2 := by
  by_cases h2 : x = 2
  · exact .inr h2
  · left
    simpa [l6, l5, l4, l3, l2, l1, Leaflink.State.init, h2, Function.update_apply] using h
theorem split4 : Leaflink.Step (key 1) l6 l7 := by
  refine .split 2 4 rfl rfl ?_ rfl (by decide) ?_
  · rintro ⟨x, nx, h⟩
    rw [idle6] at h
    cases h
  · intro x hx hk
    rcases live6 x hx with rfl | rfl <;> simp [key] at hk
theorem c31 : Careful key t31 := .step (s := t30) (i := 0) c30 (.split 2 (fun _ => false) l7 rfl ⟨split4, rfl, rfl, fun x hx => Function.update_of_ne hx ..⟩) (by intro m h; cases h)
def l8 : Leaflink.State := { l7 with prev := update l7.prev 4 (some 2), op := update l7.op 2 (.s1 4) }
def li9 : Nat → Leaflink.State := update li8 (ly4 2) l8
def t32 : State := ⟨fr4, ht4, ly4, dp1, lk13, pa1, kd1, sb4, State.init.dead, State.init.limbo, li9, pc26⟩
theorem c32 : Careful key t32 := .step (s := t31) (i := 0) c31 (.move 2 l8 (.inr ⟨4, rfl⟩) ⟨.s0 2 4 rfl, (by intro h; cases h), fun x hx => Function.update_of_ne hx ..⟩) (by intro m h; cases h)
def l9 : Leaflink.State := { l8 with op := update l8.op 2 (.s2 4 none) }
def li10 : Nat → Leaflink.State := update li9 (ly4 2) l9
def t33 : State := ⟨fr4, ht4, ly4, dp1, lk13, pa1, kd1, sb4, State.init.dead, State.init.limbo, li10, pc26⟩
theorem c33 : Careful key t33 := .step (s := t32) (i := 0) c32 (.move 2 l9 (.inr ⟨4, rfl⟩) ⟨.s1null 2 4 rfl rfl, (by intro h; cases h), fun x hx => Function.update_of_ne hx ..⟩) (by intro m h; cases h)
def l10 : Leaflink.State := { l9 with next := update l9.next 4 none, mark := update l9.mark 4 false, op := update l9.op 2 (.s3 4 none) }
def li11 : Nat → Leaflink.State := update li10 (ly4 2) l10
def t34 : State := ⟨fr4, ht4, ly4, dp1, lk13, pa1, kd1, sb4, State.init.dead, State.init.limbo, li11, pc26⟩
theorem c34 : Careful key t34 := .step (s := t33) (i := 0) c33 (.move 2 l10 (.inr ⟨4, rfl⟩) ⟨.s2 2 4 none rfl, (by intro h; cases h), fun x hx => Function.update_of_ne hx ..⟩) (by intro m h; cases h)
def l11 : Leaflink.State := { l10 with prev := assign l10.prev none 4, op := update l10.op 2 (.s4 4 none), status := update l10.status 4 .live, ls := update (update l10.ls 2 (some 4)) 4 none, lp := assign (update l10.lp 4 (some 2)) none 4, all := insertAfter 2 4 l10.all }
def li12 : Nat → Leaflink.State := update li11 (ly4 2) l11
def t35 : State := ⟨fr4, ht4, ly4, dp1, lk13, pa1, kd1, sb4, State.init.dead, State.init.limbo, li12, pc26⟩
theorem c35 : Careful key t35 := .step (s := t34) (i := 0) c34 (.move 2 l11 (.inr ⟨4, rfl⟩) ⟨.s3 2 4 none rfl, (by intro h; cases h), fun x hx => Function.update_of_ne hx ..⟩) (by intro m h; cases h)
def l12 : Leaflink.State := { l11 with next := update l11.next 2 (some 4), mark := update l11.mark 2 false, op := update l11.op 2 .idle }
def li13 : Nat → Leaflink.State := update li12 (ly4 2) l12
def t36 : State := ⟨fr4, ht4, ly4, dp1, lk13, pa1, kd1, sb4, State.init.dead, State.init.limbo, li13, pc26⟩
theorem c36 : Careful key t36 := .step (s := t35) (i := 0) c35 (.move 2 l12 (.inr ⟨4, rfl⟩) ⟨.s4 2 4 none rfl, (by intro h; cases h), fun x hx => Function.update_of_ne hx ..⟩) (by intro m h; cases h)
def pc27 : Nat → PC := update pc26 0 (.par 2 4 none 0)
def t37 : State := ⟨fr4, ht4, ly4, dp1, lk13, pa1, kd1, sb4, State.init.dead, State.init.limbo, li13, pc27⟩
theorem c37 : Careful key t37 := .step (s := t36) (i := 0) c36 (.linked 2 4 rfl rfl) (by intro m h; cases h)
def pc28 : Nat → PC := update pc27 0 (.wait 3 2 4 none 0)
def t38 : State := ⟨fr4, ht4, ly4, dp1, lk13, pa1, kd1, sb4, State.init.dead, State.init.limbo, li13, pc28⟩
theorem c38 : Careful key t38 := .step (s := t37) (i := 0) c37 (.par 3 2 4 none 0 rfl rfl) (by intro m h; cases h)
def lk14 : Nat → Option Nat := update lk13 3 (some 0)
def pc29 : Nat → PC := update pc28 0 (.got 3 2 4 none 0)
def t39 : State := ⟨fr4, ht4, ly4, dp1, lk14, pa1, kd1, sb4, State.init.dead, State.init.limbo, li13, pc29⟩
theorem c39 : Careful key t39 := .step (s := t38) (i := 0) c38 (.wait 3 2 4 none 0 rfl rfl) (by intro m h; cases h)
def pc30 : Nat → PC := update pc29 0 (.mod 3 2 4 none 0)
def t40 : State := ⟨fr4, ht4, ly4, dp1, lk14, pa1, kd1, sb4, State.init.dead, State.init.limbo, li13, pc30⟩
theorem c40 : Careful key t40 := .step (s := t39) (i := 0) c39 (.got 3 2 4 none 0 rfl rfl) (by intro m h; cases h)
def fr5 : Nat := fr4 + 1
def ht5 : Nat → Nat := update ht4 fr4 (0 + 1)
def ly5 : Nat → Nat := update ly4 fr4 (ly4 2)
def lk15 : Nat → Option Nat := update lk14 fr4 (some 0)
def pa2 : Nat → Option Nat := fun q => if right q then some fr4 else if q = 4 then some 3 else pa1 q
def kd2 : Nat → Nat → Prop := update (update kd1 3 (fun q => (kd1 3 q ∨ q = 4) ∧ right q = false)) fr4 (fun q => right q = true)
def pc31 : Nat → PC := update pc30 0 (.fin (some 3) (some fr4 ) 2 4 none 0)
def t41 : State := ⟨fr5, ht5, ly5, dp1, lk15, pa2, kd2, sb4, State.init.dead, State.init.limbo, li13, pc31⟩
theorem c41 : Careful key t41 := .step (s := t40) (i := 0) c40 (.divide 3 2 4 none 0 right rfl (by decide) (fun q h => .inr (by simpa [right] using h))) (by intro m h; cases h)
def lk16 : Nat → Option Nat := update lk15 4 none
def pc32 : Nat → PC := update pc31 0 (.rel (some 3) (some 5) 2 0)
def t42 : State := ⟨fr5, ht5, ly5, dp1, lk16, pa2, kd2, sb4, State.init.dead, State.init.limbo, li13, pc32⟩
theorem c42 : Careful key t42 := .step (s := t41) (i := 0) c41 (.keepLeft (some 3) (some 5) 2 4 0 rfl) (by intro m h; cases h)
def pc33 : Nat → PC := update pc32 0 (.par 3 5 (some 2) (0 + 1))
def t43 : State := ⟨fr5, ht5, ly5, dp1, lk16, pa2, kd2, sb4, State.init.dead, State.init.limbo, li13, pc33⟩
theorem c43 : Careful key t43 := .step (s := t42) (i := 0) c42 (.climb 3 5 2 0 rfl) (by intro m h; cases h)
def fr6 : Nat := fr5 + 1
def ht6 : Nat → Nat := update ht5 fr5 (1 + 1)
def ly6 : Nat → Nat := update ly5 fr5 (ly5 3)
def pa3 : Nat → Option Nat := update (update pa2 5 (some fr5 )) 3 (some fr5 )
def kd3 : Nat → Nat → Prop := update kd2 fr5 (fun q => q = 3 ∨ q = 5)
def pc34 : Nat → PC := update pc33 0 (.fin none none 3 5 (some 2) 1)
def t44 : State := ⟨fr6, ht6, ly6, dp1, lk16, pa3, kd3, sb4, State.init.dead, State.init.limbo, li13, pc34⟩
theorem c44 : Careful key t44 := .step (s := t43) (i := 0) c43 (.newRoot 3 5 (some 2) 1 rfl rfl) (by intro m h; cases h)
def lk17 : Nat → Option Nat := update lk16 3 none
def pc35 : Nat → PC := update pc34 0 (.fin' none none 5 2 1)
def t45 : State := ⟨fr6, ht6, ly6, dp1, lk17, pa3, kd3, sb4, State.init.dead, State.init.limbo, li13, pc35⟩
theorem c45 : Careful key t45 := .step (s := t44) (i := 0) c44 (.fin none none 3 5 2 1 rfl) (by intro m h; cases h)
def lk18 : Nat → Option Nat := update lk17 5 none
def pc36 : Nat → PC := update pc35 0 (.rel none none 2 1)
def t46 : State := ⟨fr6, ht6, ly6, dp1, lk18, pa3, kd3, sb4, State.init.dead, State.init.limbo, li13, pc36⟩
theorem c46 : Careful key t46 := .step (s := t45) (i := 0) c45 (.fin' none none 5 2 1 rfl) (by intro m h; cases h)
def lk19 : Nat → Option Nat := LockOrder.unlock lk18 none
def pc37 : Nat → PC := update pc36 0 (.hold 2)
def t47 : State := ⟨fr6, ht6, ly6, dp1, lk19, pa3, kd3, sb4, State.init.dead, State.init.limbo, li13, pc37⟩
theorem c47 : Careful key t47 := .step (s := t46) (i := 0) c46 (.done none 2 1 rfl) (by intro m h; cases h)
def lk20 : Nat → Option Nat := update lk19 2 none
def pc38 : Nat → PC := update pc37 0 (.idle)
def t48 : State := ⟨fr6, ht6, ly6, dp1, lk20, pa3, kd3, sb4, State.init.dead, State.init.limbo, li13, pc38⟩
theorem c48 : Careful key t48 := .step (s := t47) (i := 0) c47 (.unlock 2 rfl) (by intro m h; cases h)
def lk21 : Nat → Option Nat := update lk20 2 (some 1)
def pc39 : Nat → PC := update pc38 1 (.look 2)
def t49 : State := ⟨fr6, ht6, ly6, dp1, lk21, pa3, kd3, sb4, State.init.dead, State.init.limbo, li13, pc39⟩
theorem c49 : Careful key t49 := .step (s := t48) (i := 1) c48 (.lock 2 rfl rfl rfl) (by intro m h; cases h)
def pc40 : Nat → PC := update pc39 1 (.hold 2)
def t50 : State := ⟨fr6, ht6, ly6, dp1, lk21, pa3, kd3, sb4, State.init.dead, State.init.limbo, li13, pc40⟩
theorem c50 : Careful key t50 := .step (s := t49) (i := 1) c49 (.look 2 rfl (fun h => h)) (by intro m h; cases h)
def l13 : Leaflink.State := { l12 with op := update l12.op 2 .u1 }
def lb1 : List Nat := 2 :: State.init.limbo 
def li14 : Nat → Leaflink.State := update li13 (ly6 2) l13
def pc41 : Nat → PC := update pc40 1 (.unl 2)
def t51 : State := ⟨fr6, ht6, ly6, dp1, lk21, pa3, kd3, sb4, State.init.dead, lb1, li14, pc41⟩
theorem nosub : ∀ r, ¬ t50.sub 2 r := by
  intro r h
  simp [t50, sb4, sb3, sb2, sb1, fr3, fr2, fr1, State.init, Function.update_apply] at h
theorem idle12 (x : Nat) : l12.op x = .idle := by
  by_cases h : x = 2
  · subst h; rfl
  · simp [l12, l11, l10, l9, l8, l7, h, idle6]
theorem unlink2 : Leaflink.Step (key 1) l12 l13 := by
  refine .unlink 2 rfl rfl ?_ (by intro h; cases h)
  rintro ⟨x, nx, h⟩
  rw [idle12] at h
  cases h
theorem c51 : Careful key t51 := .step (s := t50) (i := 1) c50 (.remove 2 l13 rfl nosub ⟨unlink2, rfl, rfl, fun x hx => Function.update_of_ne hx ..⟩) (by intro m h; cases h)
def l14 : Leaflink.State := { l13 with mark := update l13.mark 2 true, op := update l13.op 2 (.u2 (some 4)) }
def li15 : Nat → Leaflink.State := update li14 (ly6 2) l14
def t52 : State := ⟨fr6, ht6, ly6, dp1, lk21, pa3, kd3, sb4, State.init.dead, lb1, li15, pc41⟩
theorem c52 : Careful key t52 := .step (s := t51) (i := 1) c51 (.move 2 l14 (.inl rfl) ⟨.u1 2 4 rfl rfl rfl, (by intro h; cases h), fun x hx => Function.update_of_ne hx ..⟩) (by intro m h; cases h)
def l15 : Leaflink.State := { l14 with op := update l14.op 2 (.u3 (some 4) 0) }
def li16 : Nat → Leaflink.State := update li15 (ly6 2) l15
def t53 : State := ⟨fr6, ht6, ly6, dp1, lk21, pa3, kd3, sb4, State.init.dead, lb1, li16, pc41⟩
theorem c53 : Careful key t53 := .step (s := t52) (i := 1) c52 (.move 2 l15 (.inl rfl) ⟨.u2 2 0 (some 4) rfl rfl, (by intro h; cases h), fun x hx => Function.update_of_ne hx ..⟩) (by intro m h; cases h)
def l16 : Leaflink.State := { l15 with mark := update l15.mark 0 true, op := update l15.op 2 (.u4 (some 4) 0) }
def li17 : Nat → Leaflink.State := update li16 (ly6 2) l16
def t54 : State := ⟨fr6, ht6, ly6, dp1, lk21, pa3, kd3, sb4, State.init.dead, lb1, li17, pc41⟩
theorem c54 : Careful key t54 := .step (s := t53) (i := 1) c53 (.move 2 l16 (.inl rfl) ⟨.u3 2 0 (some 4) rfl rfl rfl, (by intro h; cases h), fun x hx => Function.update_of_ne hx ..⟩) (by intro m h; cases h)
def l17 : Leaflink.State := { l16 with prev := assign l16.prev (some 4) 0, op := update l16.op 2 (.u5 (some 4) 0) }
def li18 : Nat → Leaflink.State := update li17 (ly6 2) l17
def t55 : State := ⟨fr6, ht6, ly6, dp1, lk21, pa3, kd3, sb4, State.init.dead, lb1, li18, pc41⟩
theorem c55 : Careful key t55 := .step (s := t54) (i := 1) c54 (.move 2 l17 (.inl rfl) ⟨.u4 2 0 (some 4) rfl, (by intro h; cases h), fun x hx => Function.update_of_ne hx ..⟩) (by intro m h; cases h)
def l18 : Leaflink.State := { l17 with next := update l17.next 0 (some 4), mark := update l17.mark 0 false, op := update l17.op 2 .idle, status := update l17.status 2 .dead, ls := update (update l17.ls 0 (some 4)) 2 none, lp := update (assign l17.lp (some 4) 0) 2 none, all := l17.all.filter fun x => x ≠ 2 }
def li19 : Nat → Leaflink.State := update li18 (ly6 2) l18
def t56 : State := ⟨fr6, ht6, ly6, dp1, lk21, pa3, kd3, sb4, State.init.dead, lb1, li19, pc41⟩
theorem c56 : Careful key t56 := .step (s := t55) (i := 1) c55 (.move 2 l18 (.inl rfl) ⟨.u5 2 0 (some 4) rfl, (by intro h; cases h), fun x hx => Function.update_of_ne hx ..⟩) (by intro m h; cases h)
def pc42 : Nat → PC := update pc41 1 (.rpar 2 none)
def t57 : State := ⟨fr6, ht6, ly6, dp1, lk21, pa3, kd3, sb4, State.init.dead, lb1, li19, pc42⟩
theorem c57 : Careful key t57 := .step (s := t56) (i := 1) c56 (.unlinked 2 rfl rfl) (by intro m h; cases h)
def pc43 : Nat → PC := update pc42 1 (.rwait 3 2 none)
def t58 : State := ⟨fr6, ht6, ly6, dp1, lk21, pa3, kd3, sb4, State.init.dead, lb1, li19, pc43⟩
theorem c58 : Careful key t58 := .step (s := t57) (i := 1) c57 (.rpar 3 2 none rfl rfl) (by intro m h; cases h)
def lk22 : Nat → Option Nat := update lk21 3 (some 1)
def pc44 : Nat → PC := update pc43 1 (.rgot 3 2 none)
def t59 : State := ⟨fr6, ht6, ly6, dp1, lk22, pa3, kd3, sb4, State.init.dead, lb1, li19, pc44⟩
theorem c59 : Careful key t59 := .step (s := t58) (i := 1) c58 (.rwait 3 2 none rfl rfl) (by intro m h; cases h)
def pc45 : Nat → PC := update pc44 1 (.rmod 3 2 none)
def t60 : State := ⟨fr6, ht6, ly6, dp1, lk22, pa3, kd3, sb4, State.init.dead, lb1, li19, pc45⟩
theorem c60 : Careful key t60 := .step (s := t59) (i := 1) c59 (.rgot 3 2 none rfl rfl) (by intro m h; cases h)
def pa4 : Nat → Option Nat := setParent pa3 none 3
def kd4 : Nat → Nat → Prop := update (update kd3 3 (fun q => (kd3 3 q ∧ q ≠ 2) ∨ none = some q)) 2 (fun _ => False)
def de1 : Nat → Prop := update State.init.dead 2 True
def pc46 : Nat → PC := update pc45 1 (.rend 3 2)
def t61 : State := ⟨fr6, ht6, ly6, dp1, lk22, pa4, kd4, sb4, de1, lb1, li19, pc46⟩
theorem c61 : Careful key t61 := .step (s := t60) (i := 1) c60 (.takeOut 3 2 none false rfl) (by intro m h; cases h)
def lk23 : Nat → Option Nat := update lk22 2 none
def pc47 : Nat → PC := update pc46 1 (.rnext 3)
def t62 : State := ⟨fr6, ht6, ly6, dp1, lk23, pa4, kd4, sb4, de1, lb1, li19, pc47⟩
theorem c62 : Careful key t62 := .step (s := t61) (i := 1) c61 (.rend 3 2 rfl) (by intro m h; cases h)
def lb2 : List Nat := 3 :: lb1 
def pc48 : Nat → PC := update pc47 1 (.rpar 3 (some 1))
def t63 : State := ⟨fr6, ht6, ly6, dp1, lk23, pa4, kd4, sb4, de1, lb2, li19, pc48⟩
theorem onlyKid : ∀ m, t62.kids 3 m ↔ some 1 = some m := by
  intro m
  simp only [t62, kd4, kd3, kd2, kd1, fr5, fr4, fr3, fr2, fr1, right, State.init, Function.update_apply]
  grind
theorem c63 : Careful key t63 := .step (s := t62) (i := 1) c62 (.rmore 3 (some 1) rfl (by intro h; cases h) onlyKid) (by intro m h; cases h)
def pc49 : Nat → PC := update pc48 1 (.rwait 6 3 (some 1))
def t64 : State := ⟨fr6, ht6, ly6, dp1, lk23, pa4, kd4, sb4, de1, lb2, li19, pc49⟩
theorem c64 : Careful key t64 := .step (s := t63) (i := 1) c63 (.rpar 6 3 (some 1) rfl rfl) (by intro m h; cases h)
def lk24 : Nat → Option Nat := update lk23 6 (some 1)
def pc50 : Nat → PC := update pc49 1 (.rgot 6 3 (some 1))
def t65 : State := ⟨fr6, ht6, ly6, dp1, lk24, pa4, kd4, sb4, de1, lb2, li19, pc50⟩
theorem c65 : Careful key t65 := .step (s := t64) (i := 1) c64 (.rwait 6 3 (some 1) rfl rfl) (by intro m h; cases h)
def pc51 : Nat → PC := update pc50 1 (.rmod 6 3 (some 1))
def t66 : State := ⟨fr6, ht6, ly6, dp1, lk24, pa4, kd4, sb4, de1, lb2, li19, pc51⟩
theorem c66 : Careful key t66 := .step (s := t65) (i := 1) c65 (.rgot 6 3 (some 1) rfl rfl) (by intro m h; cases h)
def pa5 : Nat → Option Nat := setParent pa4 (some 1) 6
def kd5 : Nat → Nat → Prop := update (update kd4 6 (fun q => (kd4 6 q ∧ q ≠ 3) ∨ (some 1) = some q)) 3 (fun _ => False)
def de2 : Nat → Prop := update de1 3 True
def pc52 : Nat → PC := update pc51 1 (.rend 6 3)
def t67 : State := ⟨fr6, ht6, ly6, dp1, lk24, pa5, kd5, sb4, de2, lb2, li19, pc52⟩
theorem c67 : Careful key t67 := .step (s := t66) (i := 1) c66 (.takeOut 6 3 (some 1) false rfl) (by intro m h; cases h)
def lk25 : Nat → Option Nat := update lk24 3 none
def pc53 : Nat → PC := update pc52 1 (.rnext 6)
def t68 : State := ⟨fr6, ht6, ly6, dp1, lk25, pa5, kd5, sb4, de2, lb2, li19, pc53⟩
theorem c68 : Careful key t68 := .step (s := t67) (i := 1) c67 (.rend 6 3 rfl) (by intro m h; cases h)
def lk26 : Nat → Option Nat := update lk25 6 none
def pc54 : Nat → PC := update pc53 1 (.idle)
def t69 : State := ⟨fr6, ht6, ly6, dp1, lk26, pa5, kd5, sb4, de2, lb2, li19, pc54⟩
theorem c69 : Careful key t69 := .step (s := t68) (i := 1) c68 (.rstop 6 rfl) (by intro m h; cases h)

/-- In the end nobody does anything. -/
theorem over : ∀ i, t69.pc i = .idle
  | 0 => rfl
  | 1 => rfl
  | _ + 2 => rfl

/-- The layer pointer names node 3. -/
theorem names : t69.sub 0 3 := .inr rfl

/-- Node 3 has been given away. -/
theorem gone : 3 ∈ t69.limbo := .head _

/-- No lock is held. -/
theorem free (q : Nat) : t69.lock q = none := by
  cases h : t69.lock q with
  | none => rfl
  | some i =>
    have := ((reachable_inv c69.reachable).held q i).mp h
    rw [over i] at this
    cases this

end Dangle

end Verif.LockOrder
