import Verif.Row.Array
import Verif.Seqlock

/-!
# The version of an in-place row

Model of `rowversion` (/repo/value_versioned_array.hh:21-63) and of the interleaving of one
in-place `update` at a time (updates hold the leaf's lock) with readers.  Every write of a
column pointer is a separate step; memory is sequentially consistent.
-/
namespace Verif.Row.Version

/-- The version word `v_.u`: bit 31 is `dirty`, the rest `ctr`. -/
abbrev Word := BitVec 32

/-- /repo/value_versioned_array.hh:25-27 and 52-58. -/
def dirty (u : Word) : Bool := u &&& 0x80000000#32 != 0#32
def ctr (u : Word) : Nat := (u &&& 0x7fffffff#32).toNat
/-- `setdirty`, /repo/value_versioned_array.hh:28-30. -/
def setdirty (u : Word) : Word := u ||| 0x80000000#32
/-- `clearandbump`, /repo/value_versioned_array.hh:34-36. -/
def clearandbump (u : Word) : Word := (u + 1#32) &&& 0x7fffffff#32
/-- `has_changed`, /repo/value_versioned_array.hh:46-49. -/
def hasChanged (v x : Word) : Bool := ctr x != ctr v

/-- A row in the course of updates: the word, the column pointers, and whether an update is
between `setdirty` and `clearandbump`. -/
structure State where
  ver : Word
  cols : List (Option Nat)
  busy : Bool

/-- One step: nothing (another thread runs), or a step of `update`,
/repo/value_versioned_array.cc:67-83. -/
inductive Step : State → State → Prop
  | idle (s : State) : Step s s
  | begin (s : State) : s.busy = false → Step s { s with ver := setdirty s.ver, busy := true }
  | write (s : State) (i : Nat) (p : Option Nat) : s.busy = true → Step s { s with cols := s.cols.set i p }
  | finish (s : State) : s.busy = true → Step s { s with ver := clearandbump s.ver, busy := false }

/-- An execution from a new row (`rowversion()` is zero). -/
structure Exec where
  st : Nat → State
  init : (st 0).ver = 0 ∧ (st 0).busy = false
  step : ∀ n, Step (st n) (st (n + 1))

/-- The number of updates finished by time `n`. -/
noncomputable def Exec.finished (e : Exec) : Nat → Nat
  | 0 => 0
  | n + 1 => e.finished n + if (e.st n).busy = true ∧ (e.st (n + 1)).busy = false then 1 else 0

end Verif.Row.Version
