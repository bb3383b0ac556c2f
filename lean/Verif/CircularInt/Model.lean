/-
Model of `circular_int<uint64_t>` (= `kvepoch_t`), /repo/circular_int.hh:20-138.
`value_type` is `BitVec 64`; `difference_type(a - b)` is the two's complement reading of
the wrapped difference.
-/
namespace Verif.CircularInt

abbrev Val := BitVec 64

/-- `less`, /repo/circular_int.hh:115-117. -/
def less (a b : Val) : Bool := decide ((a - b).toInt < 0)

/-- `less_equal`, /repo/circular_int.hh:118-120. -/
def lessEqual (a b : Val) : Bool := decide ((a - b).toInt ≤ 0)

/-- `operator<`, /repo/circular_int.hh:121-123. -/
def opLt (v x : Val) : Bool := less v x
/-- `operator<=`, /repo/circular_int.hh:124-126. -/
def opLe (v x : Val) : Bool := !less x v
/-- `operator>=`, /repo/circular_int.hh:127-129. -/
def opGe (v x : Val) : Bool := !less v x
/-- `operator>`, /repo/circular_int.hh:130-132. -/
def opGt (v x : Val) : Bool := less x v

/-- `operator-(circular_int)`, /repo/circular_int.hh:105-107. -/
def diff (v x : Val) : Int := (v - x).toInt

/-- `next_nonzero`, /repo/circular_int.hh:91-98: add one, and one more if that gave zero. -/
def nextNonzero (x : Val) : Val :=
  let v := x + 1
  v + (if v = 0 then 1 else 0)

/-- `operator++()`, /repo/circular_int.hh:37-40. -/
def inc (x : Val) : Val := x + 1

end Verif.CircularInt
