/-!
# Small helpers: time stamps, statistics, numbers and greatest keys in `Str`

/repo/timestamp.hh:30-46, /repo/kvstats.hh:20-51, /repo/str.hh:125-131, /repo/str.cc:19-51.

Simplifications:
* words of 64 bits are numbers below 2^64; the seconds of the clock are below 2^32 (until 2106);
* `kvstats` is modelled with whole numbers for doubles (exact as long as the squares and sums stay
  below 2^53).
-/
namespace Verif.Misc

/-- A reading of the clock, `struct timeval`. -/
structure Time where
  sec : Nat
  usec : Nat
  deriving DecidableEq, Repr

/-- `timestamp`, /repo/timestamp.hh:35-39. -/
def timestamp (t : Time) : Nat := (t.sec <<< 32 % 2 ^ 64) ||| (t.usec % 2 ^ 32)

/-- `KVTS_HIGHPART` and `KVTS_LOWPART`, /repo/timestamp.hh:30-31. -/
def highPart (t : Nat) : Nat := t >>> 32
def lowPart (t : Nat) : Nat := t % 2 ^ 32

/-- Difference of words. -/
def sub64 (a b : Nat) : Nat := (a + 2 ^ 64 - b) % 2 ^ 64

/-- `timestamp_sub`, /repo/timestamp.hh:41-46. -/
def timestampSub (a b : Nat) : Nat :=
  let a := sub64 a b
  if lowPart a > 999999 then sub64 a (2 ^ 32 - 1000000) else a

/-- The epoch that the test driver makes of a time stamp, /repo/mttest.cc:298, 1099. -/
def epochOf (t : Nat) : Nat := t >>> 16

/-- `kvstats`, /repo/kvstats.hh:20-25. -/
structure Stats where
  min : Int := -1
  max : Int := -1
  sum : Int := 0
  sumsq : Int := 0
  count : Nat := 0
  deriving DecidableEq, Repr

/-- `kvstats::add`, /repo/kvstats.hh:26-34. -/
def Stats.add (s : Stats) (x : Int) : Stats :=
  { min := if s.count = 0 ∨ x < s.min then x else s.min
    max := if s.max < x then x else s.max
    sum := s.sum + x
    sumsq := s.sumsq + x * x
    count := s.count + 1 }

/-- The divisor under the root in `print_report`, /repo/kvstats.hh:43, if it prints. -/
def Stats.divisor (s : Stats) : Option Int := if s.count ≠ 0 then some ((s.count : Int) - 1) else none

/-- The loop of `Str::to_i`, /repo/str.hh:126-129: `x` and `p`, or `none` if `x` leaves `long`,
which is undefined. -/
def toILoop : List Nat → (x p : Nat) → Option (Nat × Nat)
  | [], x, p => some (x, p)
  | b :: bs, x, p =>
    if 48 ≤ b ∧ b ≤ 57 then
      if x * 10 + b ≥ 2 ^ 63 then none else toILoop bs (x * 10 + b - 48) (p + 1)
    else some (x, p)

/-- `Str::to_i`, /repo/str.hh:125-131. -/
def toI (s : List Nat) : Option Int :=
  (toILoop s 0 0).map fun (x, p) => if p = s.length ∧ p ≠ 0 then (x : Int) else -1

/-- `Str::maxkey`, /repo/str.cc:19-51. -/
def maxkey : List Nat := List.replicate 257 255

end Verif.Misc
