import Verif.Key.Model

/-!
# The hash code of a string

Model of `String_generic::hashcode`, /repo/string.cc:257-333: 32-bit arithmetic on numbers, on a machine with the low byte first.
-/
namespace Verif.Json.Hash
open Verif.Key (Bytes)

/-- Addition of `uint32_t`. -/
def add (x y : Nat) : Nat := (x + y) % 2 ^ 32

/-- Shift of a `uint32_t` to the left. -/
def shl (x n : Nat) : Nat := (x <<< n) % 2 ^ 32

/-- `get16`. -/
def get16 (a b : UInt8) : Nat := a.toNat + b.toNat * 256

/-- One round of the loop, /repo/string.cc:273-276. -/
def round (hash : Nat) (a b c d : UInt8) : Nat :=
  let hash := add hash (get16 a b)
  let tmp := shl (get16 c d) 11 ^^^ hash
  let hash := shl hash 16 ^^^ tmp
  add hash (hash >>> 11)

/-- The loop and the end cases, /repo/string.cc:272-322. -/
def body : Nat → Bytes → Nat
  | hash, a :: b :: c :: d :: s => body (round hash a b c d) s
  | hash, [a, b, c] =>
    let hash := add hash (get16 a b)
    let hash := hash ^^^ shl hash 16
    let hash := hash ^^^ c.toNat <<< 18
    add hash (hash >>> 11)
  | hash, [a, b] =>
    let hash := add hash (get16 a b)
    let hash := hash ^^^ shl hash 11
    add hash (hash >>> 17)
  | hash, [a] =>
    let hash := add hash a.toNat
    let hash := hash ^^^ shl hash 10
    add hash (hash >>> 1)
  | hash, [] => hash

/-- The avalanche, /repo/string.cc:324-330. -/
def avalanche (hash : Nat) : Nat :=
  let hash := hash ^^^ shl hash 3
  let hash := add hash (hash >>> 5)
  let hash := hash ^^^ shl hash 4
  let hash := add hash (hash >>> 17)
  let hash := hash ^^^ shl hash 25
  add hash (hash >>> 6)

/-- `hashcode`. -/
def hashcode (s : Bytes) : Nat := if s = [] then 0 else avalanche (body s.length s)

theorem hashcode_lt (s : Bytes) : hashcode s < 2 ^ 32 := by
  unfold hashcode
  split
  · decide
  · exact Nat.mod_lt _ (by decide)

end Verif.Json.Hash
