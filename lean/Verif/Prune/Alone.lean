import Verif.Prune.Late
import Verif.Prune.NeatSteps

/-!
# Runs with one writer, and with leaves removed by one thread alone

The run of `Verif.Prune.Late` is one in which a leaf is removed by one thread alone, though two threads write.  If thread 0
only looks up key 15, instead of putting it, there is one writer.
-/
namespace Verif.Prune.Late

open Function (update)
open Verif.Prune.Lost

variable {up : List Nat → Nat → Nat}

/-- Thread 1 locks nothing else while it removes leaf 1, and no other thread does. -/
theorem race_lone (t : Nat) : Lone (race t) := by
  intro i j n hi hj
  by_cases ht : t < 25 ∨ 33 ≤ t
  · exfalso
    match i with
    | i + 3 => rw [far] at hi; exact hi
    | 0 =>
      match t with
      | 0 | 1 | 2 | 3 | 4 | 5 | 6 | 7 | 8 | 9 | 10 | 11 | 12 | 13 | 14 | 15 | 16 | 17 | 18 | 19 | 20 | 21 | 22 | 23 | 24 | 33 | 34 | 35 | 36 | 37 | 38 | 39 | 40 | 41 | 42 | 43 | 44 | 45 => exact hi
      | 25 | 26 | 27 | 28 | 29 | 30 | 31 | 32 => omega
      | t + 46 => exact hi
    | 1 =>
      match t with
      | 0 | 1 | 2 | 3 | 4 | 5 | 6 | 7 | 8 | 9 | 10 | 11 | 12 | 13 | 14 | 15 | 16 | 17 | 18 | 19 | 20 | 21 | 22 | 23 | 24 | 33 | 34 | 35 | 36 | 37 | 38 | 39 | 40 | 41 | 42 | 43 | 44 | 45 => exact hi
      | 25 | 26 | 27 | 28 | 29 | 30 | 31 | 32 => omega
      | t + 46 => exact hi
    | 2 =>
      match t with
      | 0 | 1 | 2 | 3 | 4 | 5 | 6 | 7 | 8 | 9 | 10 | 11 | 12 | 13 | 14 | 15 | 16 | 17 | 18 | 19 | 20 | 21 | 22 | 23 | 24 | 33 | 34 | 35 | 36 | 37 | 38 | 39 | 40 | 41 | 42 | 43 | 44 | 45 => exact hi
      | 25 | 26 | 27 | 28 | 29 | 30 | 31 | 32 => omega
      | t + 46 => exact hi
  · have hi1 : i = 1 := by
      match i with
      | i + 3 => rw [far] at hi; exact hi.elim
      | 1 => rfl
      | 0 | 2 =>
        match t with
        | 25 | 26 | 27 | 28 | 29 | 30 | 31 | 32 => exact hi.elim
        | t + 33 => omega
        | 0 | 1 | 2 | 3 | 4 | 5 | 6 | 7 | 8 | 9 | 10 | 11 | 12 | 13 | 14 | 15 | 16 | 17 | 18 | 19 | 20 | 21 | 22 | 23 | 24 => omega
    have hj1 : j = 1 := by
      match t with
      | 25 | 26 | 27 | 28 | 29 | 30 | 31 | 32 =>
        match n with
        | 0 | 1 | 2 => cases hj <;> rfl
        | n + 3 => cases hj
      | t + 33 => omega
      | 0 | 1 | 2 | 3 | 4 | 5 | 6 | 7 | 8 | 9 | 10 | 11 | 12 | 13 | 14 | 15 | 16 | 17 | 18 | 19 | 20 | 21 | 22 | 23 | 24 => omega
    rw [hi1, hj1]

/-! ### One writer -/

def fnA : Nat → Option (Option Nat → Option Nat) := update init.fn 0 none
def fnB : Nat → Option (Option Nat → Option Nat) := update fnA 1 (some put)
def fnC : Nat → Option (Option Nat → Option Nat) := update fnB 1 (some rem)

def w0 : State Nat := { race 0 with fn := init.fn }
def w1 : State Nat := { race 1 with fn := fnA }
def w2 : State Nat := { race 2 with fn := fnA }
def w3 : State Nat := { race 3 with fn := fnA }
def w4 : State Nat := { race 4 with fn := fnB }
def w5 : State Nat := { race 5 with fn := fnB }
def w6 : State Nat := { race 6 with fn := fnB }
def w7 : State Nat := { race 7 with fn := fnB }
def w8 : State Nat := { race 8 with fn := fnB }
def w9 : State Nat := { race 9 with fn := fnB }
def w10 : State Nat := { race 10 with fn := fnB }
def w11 : State Nat := { race 11 with fn := fnB }
def w12 : State Nat := { race 12 with fn := fnB }
def w13 : State Nat := { race 13 with fn := fnB }
def w14 : State Nat := { race 14 with fn := fnB }
def w15 : State Nat := { race 15 with fn := fnB }
def w16 : State Nat := { race 16 with fn := fnC }
def w17 : State Nat := { race 17 with fn := fnC }
def w18 : State Nat := { race 18 with fn := fnC }
def w19 : State Nat := { race 19 with fn := fnC }
def w20 : State Nat := { race 20 with fn := fnC }
def w21 : State Nat := { race 21 with fn := fnC }
def w22 : State Nat := { race 22 with fn := fnC }
def w23 : State Nat := { race 23 with fn := fnC }
def w24 : State Nat := { race 24 with fn := fnC }
def w25 : State Nat := { race 25 with fn := fnC }
def w26 : State Nat := { race 26 with fn := fnC }
def w27 : State Nat := { race 27 with fn := fnC }
def w28 : State Nat := { race 28 with fn := fnC }
def w29 : State Nat := { race 29 with fn := fnC }
def w30 : State Nat := { race 30 with fn := fnC }
def w31 : State Nat := { race 31 with fn := fnC }
def w32 : State Nat := { race 32 with fn := fnC }
def w33 : State Nat := { race 33 with fn := fnC }
def w34 : State Nat := { race 34 with fn := fnC }
def w35 : State Nat := { race 35 with fn := fnC }
def w36 : State Nat := w35.to 0 (.done none)
def w37 : State Nat := w36.to 0 .idle

theorem x1 : Step up w0 w1 := Step.start (s := w0) 0 15 none small rfl
theorem x2 : Step up w1 w2 := Step.rooted (s := w1) 0 0 rfl ⟨rfl, rfl⟩ rfl
theorem x3 : Step up w2 w3 := Step.look (s := w2) 0 0 0 0 none rfl rfl (fun _ _ => rfl) (fun _ => rfl)
theorem x4 : Step up w3 w4 := Step.start (s := w3) 1 15 (some put) small rfl
theorem x5 : Step up w4 w5 := Step.rooted (s := w4) 1 0 rfl ⟨rfl, rfl⟩ rfl
theorem x6 : Step up w5 w6 := Step.look (s := w5) 1 0 0 0 none rfl rfl (fun _ _ => rfl) (fun _ => rfl)
theorem x7 : Step up w6 w7 := Step.acquire (s := w6) 1 0 0 0 none rfl (by intro h; cases h) rfl rfl rfl
theorem x8 : Step up w7 w8 := Step.split (s := w7) 1 0 15 rfl (by decide) (.inr rfl)
theorem x9 : Step up w8 w9 := Step.newRoot (s := w8) 1 0 1 15 none rfl rfl
theorem x10 : Step up w9 w10 := Step.markSplit (s := w9) 1 0 1 15 none none rfl
theorem x11 : Step up w10 w11 := Step.strip (s := w10) 1 0 1 15 none none rfl
theorem x12 : Step up w11 w12 := Step.unlockRight (s := w11) 1 0 1 none none rfl
theorem x13 : Step up w12 w13 := Step.publish (s := w12) 1 1 put rfl rfl
theorem x14 : Step up w13 w14 := Step.release (s := w13) 1 1 rfl
theorem x15 : Step up w14 w15 := Step.fixRoot (s := w14) 2 rfl rfl
theorem x16 : Step up w15 w16 := Step.start (s := w15) 1 15 (some rem) small rfl
theorem x17 : Step up w16 w17 := Step.rooted (s := w16) 1 2 rfl ⟨rfl, rfl⟩ rfl
theorem x18 (hu : Counts up) : Step up w17 w18 := Step.pick (s := w17) 1 2 0 0 1 rfl rfl (fun _ => route_eq (one hu))
theorem x19 : Step up w18 w19 := Step.child (s := w18) 1 2 0 0 1 rfl ⟨rfl, rfl⟩
theorem x20 : Step up w19 w20 := Step.descend (s := w19) 1 2 0 0 1 0 0 rfl ⟨⟨rfl, rfl⟩, rfl, rfl⟩
theorem x21 : Step up w20 w21 := Step.look (s := w20) 1 1 0 0 (some 7) rfl rfl (fun _ _ => rfl) (fun _ => rfl)
theorem x22 : Step up w21 w22 := Step.acquire (s := w21) 1 1 0 0 (some 7) rfl (by intro h; cases h) rfl rfl rfl
theorem x23 : Step up w22 w23 := Step.markLeaf (s := w22) 1 1 rfl
theorem x24 : Step up w23 w24 := Step.publish (s := w23) 1 1 rem rfl rfl
theorem x25 : Step up w24 w25 := Step.kill (s := w24) 1 1 rfl empty (by decide)
theorem x26 : Step up w25 w26 := Step.unlink (s := w25) 1 1 0 rfl (by decide) rfl rfl rfl
theorem x27 : Step up w26 w27 := Step.compareLeaf (s := w26) 0 0 0 0 none rfl ⟨rfl, rfl⟩
theorem x28 : Step up w27 w28 := Step.lockParentR (s := w27) 1 1 2 15 none rfl rfl rfl
theorem x29 : Step up w28 w29 := Step.isParentR (s := w28) 1 2 1 15 none rfl rfl
theorem x30 (hu : Counts up) : Step up w29 w30 := remove_step (p := 2) (one hu) (.removeKid 1 2 1 15 none rfl)
theorem x31 : Step up w30 w31 := Step.walk (s := w30) 0 0 0 1 rfl rfl
theorem x32 : Step up w31 w32 := Step.unlockDead (s := w31) 1 2 1 15 rfl
theorem x33 : Step up w32 w33 := Step.finish (s := w32) 1 2 15 rfl (.inr rfl)
theorem x34 : Step up w33 w34 := Step.arrived (s := w33) 0 0 0 1 rfl (.inr (by intro _ h; cases h))
theorem x35 : Step up w34 w35 := Step.look (s := w34) 0 0 0 1 none rfl rfl (fun _ _ => rfl) (fun _ => rfl)
theorem x36 : Step up w35 w36 := Step.found (s := w35) 0 0 0 1 none rfl rfl ⟨⟨rfl, rfl⟩, rfl, rfl⟩
theorem x37 : Step up w36 w37 := Step.return (s := w36) 0 none rfl

/-- Thread 0 looks up key 15 while thread 1 puts and removes it. -/
def alone : Nat → State Nat
  | 0 => w0
  | 1 => w1
  | 2 => w2
  | 3 => w3
  | 4 => w4
  | 5 => w5
  | 6 => w6
  | 7 => w7
  | 8 => w8
  | 9 => w9
  | 10 => w10
  | 11 => w11
  | 12 => w12
  | 13 => w13
  | 14 => w14
  | 15 => w15
  | 16 => w16
  | 17 => w17
  | 18 => w18
  | 19 => w19
  | 20 => w20
  | 21 => w21
  | 22 => w22
  | 23 => w23
  | 24 => w24
  | 25 => w25
  | 26 => w26
  | 27 => w27
  | 28 => w28
  | 29 => w29
  | 30 => w30
  | 31 => w31
  | 32 => w32
  | 33 => w33
  | 34 => w34
  | 35 => w35
  | 36 => w36
  | _ => w37

theorem alone_run (hu : Counts up) : Run up alone := by
  refine ⟨init_ok, fun t => ?_⟩
  match t with
  | 0 => exact Or.inr x1
  | 1 => exact Or.inr x2
  | 2 => exact Or.inr x3
  | 3 => exact Or.inr x4
  | 4 => exact Or.inr x5
  | 5 => exact Or.inr x6
  | 6 => exact Or.inr x7
  | 7 => exact Or.inr x8
  | 8 => exact Or.inr x9
  | 9 => exact Or.inr x10
  | 10 => exact Or.inr x11
  | 11 => exact Or.inr x12
  | 12 => exact Or.inr x13
  | 13 => exact Or.inr x14
  | 14 => exact Or.inr x15
  | 15 => exact Or.inr x16
  | 16 => exact Or.inr x17
  | 17 => exact Or.inr (x18 hu)
  | 18 => exact Or.inr x19
  | 19 => exact Or.inr x20
  | 20 => exact Or.inr x21
  | 21 => exact Or.inr x22
  | 22 => exact Or.inr x23
  | 23 => exact Or.inr x24
  | 24 => exact Or.inr x25
  | 25 => exact Or.inr x26
  | 26 => exact Or.inr x27
  | 27 => exact Or.inr x28
  | 28 => exact Or.inr x29
  | 29 => exact Or.inr (x30 hu)
  | 30 => exact Or.inr x31
  | 31 => exact Or.inr x32
  | 32 => exact Or.inr x33
  | 33 => exact Or.inr x34
  | 34 => exact Or.inr x35
  | 35 => exact Or.inr x36
  | 36 => exact Or.inr x37
  | t + 37 => exact Or.inl rfl

theorem alone_fn (t i : Nat) (hi : (alone t).fn i ≠ none) : i = 1 := by
  match t with
  | 0 | 1 | 2 | 3 | 4 | 5 | 6 | 7 | 8 | 9 | 10 | 11 | 12 | 13 | 14 | 15 | 16 | 17 | 18 | 19 | 20 | 21 | 22 | 23 | 24 | 25 | 26 | 27 | 28 | 29 | 30 | 31 | 32 | 33 | 34 | 35 | 36 =>
    match i with
    | 1 => rfl
    | 0 => exact absurd rfl hi
    | i + 2 => exact absurd rfl hi
  | t + 37 =>
    match i with
    | 1 => rfl
    | 0 => exact absurd rfl hi
    | i + 2 => exact absurd rfl hi

theorem alone_writer : OneWriter alone := fun t i j _ hi _ hj => (alone_fn t i hi).trans (alone_fn t j hj).symm

end Verif.Prune.Late
