/-
Model of the in-node key searches of /repo/ksearch.hh.

A node is seen by the search through three things: its number of keys `n`
(`perm.size()`), the slot `perm i` that holds the `i`th key in order (`perm[i]`), and the
three way comparison `cmp p` of the searched key with the key in slot `p`
(`comparator(ka, n, p)`).  For an internode the permuter is the identity
(/repo/kpermuter.hh:315-327 picks `identity_kpermuter` for node types without one).
Integers are mathematical: sizes are at most 15, so `l + r` cannot overflow.
-/
namespace Verif.KSearch

/-- The loop of `key_upper_bound_by`, /repo/ksearch.hh:43-54. -/
def upperLoop (perm : Nat → Nat) (cmp : Nat → Int) (l r : Nat) : Nat :=
  if _h : l < r then
    let m := (l + r) / 2
    let c := cmp (perm m)
    if c < 0 then upperLoop perm cmp l m
    else if c = 0 then m + 1
    else upperLoop perm cmp (m + 1) r
  else l
termination_by r - l
decreasing_by all_goals omega

/-- `key_upper_bound_by`, /repo/ksearch.hh:38-55. -/
def upper (perm : Nat → Nat) (cmp : Nat → Int) (n : Nat) : Nat :=
  upperLoop perm cmp 0 n

/-- The loop of `key_lower_bound_by`, /repo/ksearch.hh:68-79.  The result is the
`key_indexed_position`: index `i` and slot `p`, where `p = -1` is `none`. -/
def lowerLoop (perm : Nat → Nat) (cmp : Nat → Int) (l r : Nat) : Nat × Option Nat :=
  if _h : l < r then
    let m := (l + r) / 2
    let mp := perm m
    let c := cmp mp
    if c < 0 then lowerLoop perm cmp l m
    else if c = 0 then (m, some mp)
    else lowerLoop perm cmp (m + 1) r
  else (l, none)
termination_by r - l
decreasing_by all_goals omega

/-- `key_lower_bound_by`, /repo/ksearch.hh:63-80. -/
def lower (perm : Nat → Nat) (cmp : Nat → Int) (n : Nat) : Nat × Option Nat :=
  lowerLoop perm cmp 0 n

/-- The loop of `key_find_upper_bound_by`, /repo/ksearch.hh:94-102. -/
def findUpperLoop (perm : Nat → Nat) (cmp : Nat → Int) (l r : Nat) : Nat :=
  if _h : l < r then
    if cmp (perm l) < 0 then l else findUpperLoop perm cmp (l + 1) r
  else l
termination_by r - l
decreasing_by all_goals omega

/-- `key_find_upper_bound_by`, /repo/ksearch.hh:89-103. -/
def findUpper (perm : Nat → Nat) (cmp : Nat → Int) (n : Nat) : Nat :=
  findUpperLoop perm cmp 0 n

/-- The loop of `key_find_lower_bound_by`, /repo/ksearch.hh:110-120. -/
def findLowerLoop (perm : Nat → Nat) (cmp : Nat → Int) (l r : Nat) : Nat × Option Nat :=
  if _h : l < r then
    let lp := perm l
    let c := cmp lp
    if c < 0 then (l, none)
    else if c = 0 then (l, some lp)
    else findLowerLoop perm cmp (l + 1) r
  else (l, none)
termination_by r - l
decreasing_by all_goals omega

/-- `key_find_lower_bound_by`, /repo/ksearch.hh:105-121. -/
def findLower (perm : Nat → Nat) (cmp : Nat → Int) (n : Nat) : Nat × Option Nat :=
  findLowerLoop perm cmp 0 n

end Verif.KSearch
