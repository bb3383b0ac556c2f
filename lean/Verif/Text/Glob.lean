import Verif.Text.Natural
import Mathlib.Data.List.TakeWhile

/-!
# Glob patterns

`String_generic::glob_match`, /repo/string.cc:403-480: does a string match a pattern with `*`, `?`, `[…]` and `\`?  The code first
takes off plain characters from both ends, and then goes through the string with the set of places of the pattern that it may be at.

Simplifications:
* Bytes are numbers; nothing depends on their being below 256.
* A place in the pattern is what follows it.
* The byte after the end of the pattern is not part of it: to read it is the outcome `over`.
-/
namespace Verif.Text

/-! ## The code -/

/-- Take plain characters off both ends, /repo/string.cc:408-415.  Both strings are given from their ends.  `none`: return false.
The last component: a byte of the pattern follows its new end. -/
def strip : Bytes → Bytes → Bool → Option (Bytes × Bytes × Bool)
  | d :: p, e :: s, f =>
    if d ≠ 42 ∧ d ≠ 63 ∧ d ≠ 93 ∧ p.head? ≠ some 92 then
      if d = e then strip p s true else none
    else some (d :: p, e :: s, f)
  | p, s, f => some (p, s, f)

/-- Look for `]`, /repo/string.cc:451-457; the list starts at the first byte that is read.  Whether `c` was among the bytes read, and
what follows the `]`.  `none`: the end of the pattern was read. -/
def scan (c : Nat) : Bytes → Bool → Option (Bool × Bytes)
  | [], _ => none
  | x :: t, found => if x = 93 then some (found || x == c, t) else scan c t (found || x == c)

/-- What a place of the pattern gives. -/
inductive Step where
  | next (places : List Bytes)
  | accept
  | over

/-- The byte `c` at a `[`, /repo/string.cc:448-467, after a `^` was looked for.  `p` follows the bracket, `ec` the `^` also. -/
def classStep (inside : Bool) (c : Nat) (negated : Bool) (ec p : Bytes) (next : List Bytes) : Step :=
  if ec = [] then .next (if 91 = c then next ++ [p] else next)
  else
    match scan c ec.tail false with
    | none => if inside then .next (if 91 = c then next ++ [p] else next) else .over
    | some (found, rest) => .next (if found = !negated then next ++ [rest] else next)

/-- The byte `c` at a place, /repo/string.cc:424-468.  `inside` tells whether the byte at the end of the pattern may be read. -/
def step (inside : Bool) (c : Nat) : Bytes → List Bytes → Step
  | [], next => .next next
  | 63 :: p, next => .next (next ++ [p])
  | 42 :: p, next =>
    if p = [] then .accept
    else step inside c p (if next.getLast? = some (42 :: p) then next else next ++ [42 :: p])
  | [92], next => .next (if 92 = c then next ++ [[]] else next)
  | 92 :: d :: p, next => .next (if d = c then next ++ [p] else next)
  | 91 :: p, next => classStep inside c (p.head? == some 94) (if p.head? == some 94 then p.tail else p) p next
  | d :: p, next => .next (if d = c then next ++ [p] else next)

/-- The byte `c` at all places, /repo/string.cc:421-469. -/
def stepAll (inside : Bool) (c : Nat) : List Bytes → List Bytes → Step
  | [], next => .next next
  | p :: state, next =>
    match step inside c p next with
    | .next next => stepAll inside c state next
    | .accept => .accept
    | .over => .over

/-- The loop over the string and the end, /repo/string.cc:420-479.  `none`: the byte after the pattern was read. -/
def run (inside : Bool) : Bytes → List Bytes → Option Bool
  | c :: s, p :: state =>
    match stepAll inside c (p :: state) [] with
    | .next next => run inside s next
    | .accept => some true
    | .over => none
  | _, state => some (state.any fun p => (p.dropWhile (· == 42)).isEmpty)

/-- `String_generic::glob_match`, /repo/string.cc:403-480. -/
def globMatch (s p : Bytes) : Option Bool :=
  match strip p.reverse s.reverse false with
  | none => some false
  | some (p, s, f) => run f s.reverse [p.reverse]

/-! ## The patterns -/

/-- The parts of a pattern.  A class has the bytes that stand between the brackets. -/
inductive Item where
  | lit (c : Nat)
  | any
  | star
  | cls (negated : Bool) (members : Bytes)
deriving DecidableEq, Repr

/-- A class after its opening bracket: at least one byte, and a `]` after it. -/
def bracket (p : Bytes) : Option (Bool × Bytes × Bytes) :=
  let negated := p.head? == some 94
  match if negated then p.tail else p with
  | [] => none
  | m :: t => if 93 ∈ t then some (negated, m :: t.takeWhile (· != 93), (t.dropWhile (· != 93)).tail) else none

theorem bracket_length {p m r : Bytes} {n : Bool} (h : bracket p = some (n, m, r)) : r.length < p.length := by
  unfold bracket at h
  simp only at h
  split at h
  · cases h
  · rename_i x t heq
    split at h
    · simp only [Option.some.injEq, Prod.mk.injEq] at h
      obtain ⟨-, -, rfl⟩ := h
      have h1 : t.length < p.length := by
        have : (x :: t).length ≤ p.length := by
          rw [← heq]; split <;> simp
        simp only [List.length_cons] at this; omega
      have h2 := List.length_dropWhile_le (· != 93) t
      have h3 : (List.dropWhile (· != 93) t).tail.length ≤ (List.dropWhile (· != 93) t).length := by simp
      omega
    · cases h

/-- The parts of a pattern. -/
def parse (p : Bytes) : List Item :=
  match p with
  | [] => []
  | 63 :: p => .any :: parse p
  | 42 :: p => .star :: parse p
  | [92] => [.lit 92]
  | 92 :: d :: p => .lit d :: parse p
  | 91 :: p =>
    match _h : bracket p with
    | some (n, m, r) => .cls n m :: parse r
    | none => .lit 91 :: parse p
  | d :: p => .lit d :: parse p
termination_by p.length
decreasing_by
  all_goals simp only [List.length_cons]
  all_goals try omega
  have := bracket_length _h
  omega

/-- What a pattern means, given which bytes belong to a class. -/
def Matches (belongs : Bytes → Nat → Prop) : List Item → Bytes → Prop
  | [], s => s = []
  | .lit d :: r, s => ∃ t, s = d :: t ∧ Matches belongs r t
  | .any :: r, s => ∃ c t, s = c :: t ∧ Matches belongs r t
  | .star :: r, s => ∃ u t, s = u ++ t ∧ Matches belongs r t
  | .cls n m :: r, s => ∃ c t, s = c :: t ∧ (belongs m c ↔ n = false) ∧ Matches belongs r t

/-- The bytes of a class as they are meant. -/
def Member (m : Bytes) (c : Nat) : Prop := c ∈ m

/-- The bytes of a class as the code takes them: not the first one, but the closing bracket. -/
def Taken (m : Bytes) (c : Nat) : Prop := c ∈ m.tail ∨ c = 93

/-! ## Equations of `parse` -/

theorem parse_nil : parse [] = [] := by rw [parse]
theorem parse_any (p : Bytes) : parse (63 :: p) = .any :: parse p := by rw [parse]
theorem parse_star (p : Bytes) : parse (42 :: p) = .star :: parse p := by rw [parse]
theorem parse_slash : parse [92] = [.lit 92] := by rw [parse]
theorem parse_escape (d : Nat) (p : Bytes) : parse (92 :: d :: p) = .lit d :: parse p := by rw [parse]
theorem parse_class {p m r : Bytes} {n : Bool} (h : bracket p = some (n, m, r)) : parse (91 :: p) = .cls n m :: parse r := by
  rw [parse]; split
  · rename_i h'; rw [h] at h'; simp only [Option.some.injEq, Prod.mk.injEq] at h'; obtain ⟨rfl, rfl, rfl⟩ := h'; rfl
  · rename_i h'; rw [h] at h'; cases h'
theorem parse_open {p : Bytes} (h : bracket p = none) : parse (91 :: p) = .lit 91 :: parse p := by
  rw [parse]; split
  · rename_i h'; rw [h] at h'; cases h'
  · rfl
theorem parse_plain {d : Nat} {p : Bytes} (h1 : d ≠ 63) (h2 : d ≠ 42) (h3 : d ≠ 92) (h4 : d ≠ 91) : parse (d :: p) = .lit d :: parse p := by
  rw [parse]
  · exact h1
  · exact h2
  · intro h; exact absurd h h3
  · intro _ _ h; exact absurd h h3
  · exact h4

end Verif.Text
