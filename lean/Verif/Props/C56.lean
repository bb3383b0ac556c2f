import Verif.Json.Deep

/-!
# C56: the parser limits how deep arrays are, but not what is in an object at the limit
-/
namespace Verif.Props.C56

open Verif.Json

/-- A text that begins with more than 2049 `[` is refused, whatever follows. -/
theorem refused {n : Nat} (hn : 2049 < n) (r : Bytes) (j : J) : parse (List.replicate n 91 ++ r) ≠ .ok j := parse_arrays hn r j

/-- `null` in `n` arrays is accepted if and only if `n` is at most 2049. -/
theorem nested (n : Nat) : parse (List.replicate n 91 ++ ([110, 117, 108, 108] ++ List.replicate n 93)) = .ok (within n .null) ↔ n ≤ 2049 :=
  parse_nested n

/-- How many arrays are around the value in the middle. -/
def depth : J → Nat
  | .arr [x] => depth x + 1
  | _ => 0

theorem depth_within (n : Nat) : depth (within n .null) = n := by
  induction n with
  | zero => rfl
  | succ n ih => rw [within, depth, ih]

/-- In an object in 2048 arrays there may be any number of arrays: the parser compares the size of its stack with the limit by `==`, and an
object puts two entries on the stack (/repo/json.cc:764-766, 785-787 and 874-887).  So no bound on the depth of values holds. -/
theorem unlimited (n : Nat) :
    ∃ j, depth j = n ∧ parse (List.replicate 2048 91 ++ ([123, 34, 97, 34, 58] ++
      ((List.replicate n 91 ++ ([110, 117, 108, 108] ++ List.replicate n 93)) ++ [125]) ++ List.replicate 2048 93)) =
      .ok (within 2048 (.obj [([97], j)])) := ⟨_, depth_within n, parse_deep n⟩

end Verif.Props.C56
