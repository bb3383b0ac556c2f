import Verif.Prune.Lost
import Verif.Prune.Trace

/-!
# A tidy run that removes a leaf

The run of `Verif.Prune.Lost` up to the time when leaf 1 is unlinked, but then thread 1 takes leaf 1 out of the root before
thread 0 locks leaf 0.  Thread 0 comes back from a leaf that has split and has nothing after it any more, and puts key 15 into
leaf 0.  Thread 2 begins to look up key 15 while thread 0 has leaf 0 locked, and finds it.
-/
namespace Verif.Prune.Late

open Function (update)
open Verif.Prune.Lost

variable {up : List Nat → Nat → Nat}

/-- `removeKid` with the place given. -/
theorem remove_step {s s' : State Nat} {p n i : Nat} (hu : up (s.keys p) 15 = 1)
    (h : Step up s ((s.removeKid up p none 15).to i ((s.removeKid up p none 15).removed p n (up (s.keys p) 15) 15)))
    (he : (s.removeKid (fun _ _ => 1) p none 15).to i ((s.removeKid (fun _ _ => 1) p none 15).removed p n 1 15) = s' := by rfl) :
    Step up s s' := by
  rw [← he]
  have : s.removeKid up p none 15 = s.removeKid (fun _ _ => 1) p none 15 := by
    unfold State.removeKid
    simp only [hu]
  rw [this, hu] at h; exact h

theorem route_nil {s : State Nat} {n c : Nat} (hu : Counts up) (h1 : s.keys n = []) (h2 : s.kids n = [some c]) :
    s.route up n 15 = some c := by
  unfold State.route
  rw [hu _ _ (by rw [h1]; exact .nil), h1, h2]; rfl

theorem one (hu : Counts up) : up [15] 15 = 1 := by
  rw [hu [15] 15 (by simp)]; rfl

theorem q1 : Step up init t1 := Step.start (s := init) 0 15 (some put) small rfl
theorem q2 : Step up t1 t2 := Step.rooted (s := t1) 0 0 rfl ⟨rfl, rfl⟩ rfl
theorem q3 : Step up t2 t3 := Step.look (s := t2) 0 0 0 0 none rfl rfl (fun _ _ => rfl) (fun _ => rfl)
theorem q4 : Step up t3 t4 := Step.start (s := t3) 1 15 (some put) small rfl
theorem q5 : Step up t4 t5 := Step.rooted (s := t4) 1 0 rfl ⟨rfl, rfl⟩ rfl
theorem q6 : Step up t5 t6 := Step.look (s := t5) 1 0 0 0 none rfl rfl (fun _ _ => rfl) (fun _ => rfl)
theorem q7 : Step up t6 t7 := Step.acquire (s := t6) 1 0 0 0 none rfl (by intro h; cases h) rfl rfl rfl
theorem q8 : Step up t7 t8 := Step.split (s := t7) 1 0 15 rfl (by decide) (.inr rfl)
theorem q9 : Step up t8 t9 := Step.newRoot (s := t8) 1 0 1 15 none rfl rfl
theorem q10 : Step up t9 t10 := Step.markSplit (s := t9) 1 0 1 15 none none rfl
theorem q11 : Step up t10 t11 := Step.strip (s := t10) 1 0 1 15 none none rfl
theorem q12 : Step up t11 t12 := Step.unlockRight (s := t11) 1 0 1 none none rfl
theorem q13 : Step up t12 t13 := Step.publish (s := t12) 1 1 put rfl rfl
theorem q14 : Step up t13 t14 := Step.release (s := t13) 1 1 rfl
theorem q15 : Step up t14 t15 := Step.fixRoot (s := t14) 2 rfl rfl
theorem q16 : Step up t15 t16 := Step.start (s := t15) 1 15 (some rem) small rfl
theorem q17 : Step up t16 t17 := Step.rooted (s := t16) 1 2 rfl ⟨rfl, rfl⟩ rfl
theorem q18 (hu : Counts up) : Step up t17 t18 := Step.pick (s := t17) 1 2 0 0 1 rfl rfl (fun _ => route_eq (one hu))
theorem q19 : Step up t18 t19 := Step.child (s := t18) 1 2 0 0 1 rfl ⟨rfl, rfl⟩
theorem q20 : Step up t19 t20 := Step.descend (s := t19) 1 2 0 0 1 0 0 rfl ⟨⟨rfl, rfl⟩, rfl, rfl⟩
theorem q21 : Step up t20 t21 := Step.look (s := t20) 1 1 0 0 (some 7) rfl rfl (fun _ _ => rfl) (fun _ => rfl)
theorem q22 : Step up t21 t22 := Step.acquire (s := t21) 1 1 0 0 (some 7) rfl (by intro h; cases h) rfl rfl rfl
theorem q23 : Step up t22 t23 := Step.markLeaf (s := t22) 1 1 rfl
theorem q24 : Step up t23 t24 := Step.publish (s := t23) 1 1 rem rfl rfl
theorem q25 : Step up t24 t25 := Step.kill (s := t24) 1 1 rfl empty (by decide)
theorem q26 : Step up t25 t26 := Step.unlink (s := t25) 1 1 0 rfl (by decide) rfl rfl rfl
def pc25 : Nat → PC Nat := update pc24 0 (.cmp 0 0 1)
def t27 : State Nat := ⟨leaf2, lock6, ins4, spl4, dI5, dS6, rt4, dead3, parent2, next2, items4, keys1, kids1, lo2, gone3, hi4, bd3, elo3, fresh2, root1, m2, pc25, key3, base3, fn3⟩
theorem q27 : Step up t26 t27 := Step.compareLeaf (s := t26) 0 0 0 0 none rfl ⟨rfl, rfl⟩
def lock7 : Nat → Option Nat := update lock6 2 (some 1)
def pc26 : Nat → PC Nat := update pc25 1 (.rgot 2 1 none 15)
def t28 : State Nat := ⟨leaf2, lock7, ins4, spl4, dI5, dS6, rt4, dead3, parent2, next2, items4, keys1, kids1, lo2, gone3, hi4, bd3, elo3, fresh2, root1, m2, pc26, key3, base3, fn3⟩
theorem q28 : Step up t27 t28 := Step.lockParentR (s := t27) 1 1 2 15 none rfl rfl rfl
def dI6 : Nat → Bool := update dI5 2 (true)
def pc27 : Nat → PC Nat := update pc26 1 (.rmod 2 1 none 15)
def t29 : State Nat := ⟨leaf2, lock7, ins4, spl4, dI6, dS6, rt4, dead3, parent2, next2, items4, keys1, kids1, lo2, gone3, hi4, bd3, elo3, fresh2, root1, m2, pc27, key3, base3, fn3⟩
theorem q29 : Step up t28 t29 := Step.isParentR (s := t28) 1 2 1 15 none rfl rfl
def keys2 : Nat → List Nat := update keys1 2 ([])
def kids2 : Nat → List (Option Nat) := update kids1 2 ([some 0])
def pc28 : Nat → PC Nat := update pc27 1 (.rend 2 1 15)
def t30 : State Nat := ⟨leaf2, lock7, ins4, spl4, dI6, dS6, rt4, dead3, parent2, next2, items4, keys2, kids2, lo2, gone3, hi4, bd3, elo3, fresh2, root1, m2, pc28, key3, base3, fn3⟩
theorem q30 (hu : Counts up) : Step up t29 t30 := remove_step (p := 2) (one hu) (.removeKid 1 2 1 15 none rfl)
def pc29 : Nat → PC Nat := update pc28 0 (.adv 0 0 1)
def t31 : State Nat := ⟨leaf2, lock7, ins4, spl4, dI6, dS6, rt4, dead3, parent2, next2, items4, keys2, kids2, lo2, gone3, hi4, bd3, elo3, fresh2, root1, m2, pc29, key3, base3, fn3⟩
theorem q31 : Step up t30 t31 := Step.walk (s := t30) 0 0 0 1 rfl rfl
def lock8 : Nat → Option Nat := update lock7 1 (none)
def ins5 : Nat → Nat := update ins4 1 (if dI6 1 = true ∧ dS6 1 = false then ins4 1 + 1 else ins4 1)
def spl5 : Nat → Nat := update spl4 1 (if dS6 1 = true then spl4 1 + 1 else spl4 1)
def rt5 : Nat → Bool := update rt4 1 (rt4 1 && !dS6 1)
def dI7 : Nat → Bool := update dI6 1 (false)
def dS7 : Nat → Bool := update dS6 1 (false)
def pc30 : Nat → PC Nat := update pc29 1 (.rnext 2 15)
def t32 : State Nat := ⟨leaf2, lock8, ins5, spl5, dI7, dS7, rt5, dead3, parent2, next2, items4, keys2, kids2, lo2, gone3, hi4, bd3, elo3, fresh2, root1, m2, pc30, key3, base3, fn3⟩
theorem q32 : Step up t31 t32 := Step.unlockDead (s := t31) 1 2 1 15 rfl
def lock9 : Nat → Option Nat := update lock8 2 (none)
def ins6 : Nat → Nat := update ins5 2 (if dI7 2 = true ∧ dS7 2 = false then ins5 2 + 1 else ins5 2)
def spl6 : Nat → Nat := update spl5 2 (if dS7 2 = true then spl5 2 + 1 else spl5 2)
def rt6 : Nat → Bool := update rt5 2 (rt5 2 && !dS7 2)
def dI8 : Nat → Bool := update dI7 2 (false)
def dS8 : Nat → Bool := update dS7 2 (false)
def pc31 : Nat → PC Nat := update pc30 1 (.idle)
def t33 : State Nat := ⟨leaf2, lock9, ins6, spl6, dI8, dS8, rt6, dead3, parent2, next2, items4, keys2, kids2, lo2, gone3, hi4, bd3, elo3, fresh2, root1, m2, pc31, key3, base3, fn3⟩
theorem q33 : Step up t32 t33 := Step.finish (s := t32) 1 2 15 rfl (.inr rfl)
def pc32 : Nat → PC Nat := update pc31 0 (.at_ 0 0 1)
def t34 : State Nat := ⟨leaf2, lock9, ins6, spl6, dI8, dS8, rt6, dead3, parent2, next2, items4, keys2, kids2, lo2, gone3, hi4, bd3, elo3, fresh2, root1, m2, pc32, key3, base3, fn3⟩
theorem q34 : Step up t33 t34 := Step.arrived (s := t33) 0 0 0 1 rfl (.inr (by intro _ h; cases h))
def pc33 : Nat → PC Nat := update pc32 0 (.read 0 0 1 none)
def t35 : State Nat := ⟨leaf2, lock9, ins6, spl6, dI8, dS8, rt6, dead3, parent2, next2, items4, keys2, kids2, lo2, gone3, hi4, bd3, elo3, fresh2, root1, m2, pc33, key3, base3, fn3⟩
theorem q35 : Step up t34 t35 := Step.look (s := t34) 0 0 0 1 none rfl rfl (fun _ _ => rfl) (fun _ => rfl)
def lock10 : Nat → Option Nat := update lock9 0 (some 0)
def pc34 : Nat → PC Nat := update pc33 0 (.hold 0)
def t36 : State Nat := ⟨leaf2, lock10, ins6, spl6, dI8, dS8, rt6, dead3, parent2, next2, items4, keys2, kids2, lo2, gone3, hi4, bd3, elo3, fresh2, root1, m2, pc34, key3, base3, fn3⟩
theorem q36 : Step up t35 t36 := Step.acquire (s := t35) 0 0 0 1 none rfl (by intro h; cases h) rfl rfl rfl
def dI9 : Nat → Bool := update dI8 0 (true)
def t37 : State Nat := ⟨leaf2, lock10, ins6, spl6, dI9, dS8, rt6, dead3, parent2, next2, items4, keys2, kids2, lo2, gone3, hi4, bd3, elo3, fresh2, root1, m2, pc34, key3, base3, fn3⟩
theorem q37 : Step up t36 t37 := Step.markLeaf (s := t36) 0 0 rfl
def items5 : Nat → Nat → Option Nat := update items4 0 (update (items4 0) (key3 0) (put (items4 0 (key3 0))))
def m3 : Nat → Option Nat := update m2 (key3 0) (put (m2 (key3 0)))
def pc35 : Nat → PC Nat := update pc34 0 (.pub 0)
def t38 : State Nat := ⟨leaf2, lock10, ins6, spl6, dI9, dS8, rt6, dead3, parent2, next2, items5, keys2, kids2, lo2, gone3, hi4, bd3, elo3, fresh2, root1, m3, pc35, key3, base3, fn3⟩
theorem q38 : Step up t37 t38 := Step.publish (s := t37) 0 0 put rfl rfl
def key4 : Nat → Nat := update key3 2 (15)
def base4 : Nat → Nat := update base3 2 (root1)
def fn4 : Nat → Option (Option Nat → Option Nat) := update fn3 2 (none)
def pc36 : Nat → PC Nat := update pc35 2 (.up 2)
def t39 : State Nat := ⟨leaf2, lock10, ins6, spl6, dI9, dS8, rt6, dead3, parent2, next2, items5, keys2, kids2, lo2, gone3, hi4, bd3, elo3, fresh2, root1, m3, pc36, key4, base4, fn4⟩
theorem q39 : Step up t38 t39 := Step.start (s := t38) 2 15 none small rfl
def pc37 : Nat → PC Nat := update pc36 2 (.at_ 2 1 0)
def t40 : State Nat := ⟨leaf2, lock10, ins6, spl6, dI9, dS8, rt6, dead3, parent2, next2, items5, keys2, kids2, lo2, gone3, hi4, bd3, elo3, fresh2, root1, m3, pc37, key4, base4, fn4⟩
theorem q40 : Step up t39 t40 := Step.rooted (s := t39) 2 2 rfl ⟨rfl, rfl⟩ rfl
def lock11 : Nat → Option Nat := update lock10 0 (none)
def ins7 : Nat → Nat := update ins6 0 (if dI9 0 = true ∧ dS8 0 = false then ins6 0 + 1 else ins6 0)
def spl7 : Nat → Nat := update spl6 0 (if dS8 0 = true then spl6 0 + 1 else spl6 0)
def rt7 : Nat → Bool := update rt6 0 (rt6 0 && !dS8 0)
def dI10 : Nat → Bool := update dI9 0 (false)
def dS9 : Nat → Bool := update dS8 0 (false)
def pc38 : Nat → PC Nat := update pc37 0 (.idle)
def t41 : State Nat := ⟨leaf2, lock11, ins7, spl7, dI10, dS9, rt7, dead3, parent2, next2, items5, keys2, kids2, lo2, gone3, hi4, bd3, elo3, fresh2, root1, m3, pc38, key4, base4, fn4⟩
theorem q41 : Step up t40 t41 := Step.release (s := t40) 0 0 rfl
def pc39 : Nat → PC Nat := update pc38 2 (.pick 2 1 0 0)
def t42 : State Nat := ⟨leaf2, lock11, ins7, spl7, dI10, dS9, rt7, dead3, parent2, next2, items5, keys2, kids2, lo2, gone3, hi4, bd3, elo3, fresh2, root1, m3, pc39, key4, base4, fn4⟩
theorem q42 (hu : Counts up) : Step up t41 t42 := Step.pick (s := t41) 2 2 1 0 0 rfl rfl (fun _ => route_nil hu rfl rfl)
def pc40 : Nat → PC Nat := update pc39 2 (.picked 2 1 0 0 1 1)
def t43 : State Nat := ⟨leaf2, lock11, ins7, spl7, dI10, dS9, rt7, dead3, parent2, next2, items5, keys2, kids2, lo2, gone3, hi4, bd3, elo3, fresh2, root1, m3, pc40, key4, base4, fn4⟩
theorem q43 : Step up t42 t43 := Step.child (s := t42) 2 2 1 0 0 rfl ⟨rfl, rfl⟩
def pc41 : Nat → PC Nat := update pc40 2 (.at_ 0 1 1)
def t44 : State Nat := ⟨leaf2, lock11, ins7, spl7, dI10, dS9, rt7, dead3, parent2, next2, items5, keys2, kids2, lo2, gone3, hi4, bd3, elo3, fresh2, root1, m3, pc41, key4, base4, fn4⟩
theorem q44 : Step up t43 t44 := Step.descend (s := t43) 2 2 1 0 0 1 1 rfl ⟨⟨rfl, rfl⟩, rfl, rfl⟩
def pc42 : Nat → PC Nat := update pc41 2 (.read 0 1 1 (some 7))
def t45 : State Nat := ⟨leaf2, lock11, ins7, spl7, dI10, dS9, rt7, dead3, parent2, next2, items5, keys2, kids2, lo2, gone3, hi4, bd3, elo3, fresh2, root1, m3, pc42, key4, base4, fn4⟩
theorem q45 : Step up t44 t45 := Step.look (s := t44) 2 0 1 1 (some 7) rfl rfl (fun _ _ => rfl) (fun _ => rfl)
def pc43 : Nat → PC Nat := update pc42 2 (.done (some 7))
def t46 : State Nat := ⟨leaf2, lock11, ins7, spl7, dI10, dS9, rt7, dead3, parent2, next2, items5, keys2, kids2, lo2, gone3, hi4, bd3, elo3, fresh2, root1, m3, pc43, key4, base4, fn4⟩
theorem q46 : Step up t45 t46 := Step.found (s := t45) 2 0 1 1 (some 7) rfl rfl ⟨⟨rfl, rfl⟩, rfl, rfl⟩

/-- The run. -/
def race : Nat → State Nat
  | 0 => init
  | 1 => t1
  | 2 => t2
  | 3 => t3
  | 4 => t4
  | 5 => t5
  | 6 => t6
  | 7 => t7
  | 8 => t8
  | 9 => t9
  | 10 => t10
  | 11 => t11
  | 12 => t12
  | 13 => t13
  | 14 => t14
  | 15 => t15
  | 16 => t16
  | 17 => t17
  | 18 => t18
  | 19 => t19
  | 20 => t20
  | 21 => t21
  | 22 => t22
  | 23 => t23
  | 24 => t24
  | 25 => t25
  | 26 => t26
  | 27 => t27
  | 28 => t28
  | 29 => t29
  | 30 => t30
  | 31 => t31
  | 32 => t32
  | 33 => t33
  | 34 => t34
  | 35 => t35
  | 36 => t36
  | 37 => t37
  | 38 => t38
  | 39 => t39
  | 40 => t40
  | 41 => t41
  | 42 => t42
  | 43 => t43
  | 44 => t44
  | 45 => t45
  | _ => t46

theorem race_run (hu : Counts up) : Run up race := by
  refine ⟨init_ok, fun t => ?_⟩
  match t with
  | 0 => exact Or.inr q1
  | 1 => exact Or.inr q2
  | 2 => exact Or.inr q3
  | 3 => exact Or.inr q4
  | 4 => exact Or.inr q5
  | 5 => exact Or.inr q6
  | 6 => exact Or.inr q7
  | 7 => exact Or.inr q8
  | 8 => exact Or.inr q9
  | 9 => exact Or.inr q10
  | 10 => exact Or.inr q11
  | 11 => exact Or.inr q12
  | 12 => exact Or.inr q13
  | 13 => exact Or.inr q14
  | 14 => exact Or.inr q15
  | 15 => exact Or.inr q16
  | 16 => exact Or.inr q17
  | 17 => exact Or.inr (q18 hu)
  | 18 => exact Or.inr q19
  | 19 => exact Or.inr q20
  | 20 => exact Or.inr q21
  | 21 => exact Or.inr q22
  | 22 => exact Or.inr q23
  | 23 => exact Or.inr q24
  | 24 => exact Or.inr q25
  | 25 => exact Or.inr q26
  | 26 => exact Or.inr q27
  | 27 => exact Or.inr q28
  | 28 => exact Or.inr q29
  | 29 => exact Or.inr (q30 hu)
  | 30 => exact Or.inr q31
  | 31 => exact Or.inr q32
  | 32 => exact Or.inr q33
  | 33 => exact Or.inr q34
  | 34 => exact Or.inr q35
  | 35 => exact Or.inr q36
  | 36 => exact Or.inr q37
  | 37 => exact Or.inr q38
  | 38 => exact Or.inr q39
  | 39 => exact Or.inr q40
  | 40 => exact Or.inr q41
  | 41 => exact Or.inr (q42 hu)
  | 42 => exact Or.inr q43
  | 43 => exact Or.inr q44
  | 44 => exact Or.inr q45
  | 45 => exact Or.inr q46
  | t + 46 => exact Or.inl rfl

/-- Only three threads do anything. -/
theorem far (t i : Nat) : (race t).pc (i + 3) = .idle := by
  match t with
  | 0 => rfl
  | 1 | 2 | 3 | 4 | 5 | 6 | 7 | 8 | 9 | 10 | 11 | 12 | 13 | 14 | 15 | 16 | 17 | 18 | 19 | 20 | 21 | 22 | 23 | 24 | 25 | 26 | 27 | 28 | 29 | 30 | 31 | 32 | 33 | 34 | 35 | 36 | 37 | 38 | 39 | 40 | 41 | 42 | 43 | 44 | 45 => rfl
  | t + 46 => rfl

/-- The thread does not change an internode. -/
def Calm : PC Nat → Prop
  | .mod _ _ _ _ _ => False
  | .rmod _ _ _ _ => False
  | .dset _ _ _ _ _ _ => False
  | _ => True

theorem tidy_calm {s : State Nat} (h : ∀ i, Calm (s.pc i)) : Tidy up s := by
  constructor
  · intro i p n c x t hp
    have := h i
    rw [hp] at this; exact this.elim
  · intro i p n r ik hp
    have := h i
    rw [hp] at this; exact this.elim
  · intro i u q p n ik y hp
    have := h i
    rw [hp] at this; exact this.elim

theorem race_calm (t : Nat) (ht : t ≠ 29) (i : Nat) : Calm ((race t).pc i) := by
  match i with
  | i + 3 => rw [far]; trivial
  | 0 =>
    match t with
    | 0 | 1 | 2 | 3 | 4 | 5 | 6 | 7 | 8 | 9 | 10 | 11 | 12 | 13 | 14 | 15 | 16 | 17 | 18 | 19 | 20 | 21 | 22 | 23 | 24 | 25 | 26 | 27 | 28 | 29 | 30 | 31 | 32 | 33 | 34 | 35 | 36 | 37 | 38 | 39 | 40 | 41 | 42 | 43 | 44 | 45 => trivial
    | t + 46 => trivial
  | 1 =>
    match t with
    | 29 => exact absurd rfl ht
    | 0 | 1 | 2 | 3 | 4 | 5 | 6 | 7 | 8 | 9 | 10 | 11 | 12 | 13 | 14 | 15 | 16 | 17 | 18 | 19 | 20 | 21 | 22 | 23 | 24 | 25 | 26 | 27 | 28 | 30 | 31 | 32 | 33 | 34 | 35 | 36 | 37 | 38 | 39 | 40 | 41 | 42 | 43 | 44 | 45 => trivial
    | t + 46 => trivial
  | 2 =>
    match t with
    | 0 | 1 | 2 | 3 | 4 | 5 | 6 | 7 | 8 | 9 | 10 | 11 | 12 | 13 | 14 | 15 | 16 | 17 | 18 | 19 | 20 | 21 | 22 | 23 | 24 | 25 | 26 | 27 | 28 | 29 | 30 | 31 | 32 | 33 | 34 | 35 | 36 | 37 | 38 | 39 | 40 | 41 | 42 | 43 | 44 | 45 => trivial
    | t + 46 => trivial

theorem race_tidy (hu : Counts up) (t : Nat) : Tidy up (race t) := by
  by_cases ht : t = 29
  · subst ht
    constructor
    · intro i p n c x t hp
      match i with
      | i + 3 => rw [far] at hp; cases hp
      | 0 | 1 | 2 => cases hp
    · intro i p n r ik hp
      match i with
      | i + 3 => rw [far] at hp; cases hp
      | 0 | 2 => cases hp
      | 1 =>
        cases hp
        show ([some 0, some 1] : List (Option Nat))[up [15] 15]? = _
        rw [one hu]; rfl
    · intro i u q p n ik y hp
      match i with
      | i + 3 => rw [far] at hp; cases hp
      | 0 | 1 | 2 => cases hp
  · exact tidy_calm (race_calm t ht)

theorem race_ok (hu : Counts up) : TidyRun up race := { race_run hu with
  counts := hu
  tidy := race_tidy hu }

end Verif.Prune.Late
