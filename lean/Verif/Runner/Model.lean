/-!
# The list of tests and how it is printed

`testrunner_base` of /repo/testrunner.hh:6-33 and `print_names`, /repo/testrunner.cc:24-54.

Simplifications: objects are numbers (their addresses); lengths and sums are mathematical integers; names
have no zero bytes, so that `%s` prints them whole.
-/
namespace Verif.Runner

abbrev Bytes := List UInt8

def upd {α : Type} (f : Nat → α) (i : Nat) (x : α) : Nat → α := fun j => if j = i then x else f j

/-- `thehead`, `thetail` and the members `next_` and `name_` of all objects. -/
structure Reg where
  head : Option Nat
  tail : Option Nat
  next : Nat → Option Nat
  name : Nat → Bytes

/-- /repo/testrunner.cc:21-22. -/
def Reg.empty : Reg := ⟨none, none, fun _ => none, fun _ => []⟩

/-- The constructor, /repo/testrunner.hh:8-12. -/
def Reg.add (s : Reg) (o : Nat) (nm : Bytes) : Reg :=
  match s.head, s.tail with
  | some _, some t => ⟨s.head, some o, upd (upd s.next o none) t (some o), upd s.name o nm⟩
  | some _, none => ⟨s.head, some o, upd s.next o none, upd s.name o nm⟩
  | none, _ => ⟨some o, some o, upd s.next o none, upd s.name o nm⟩

def Reg.addAll (s : Reg) : List (Nat × Bytes) → Reg
  | [] => s
  | x :: l => (s.add x.1 x.2).addAll l

/-- The loop of `find`, /repo/testrunner.hh:21-26; the number bounds its rounds. -/
def Reg.find (s : Reg) (nm : Bytes) : Nat → Option Nat → Option Nat
  | _, none => none
  | 0, some _ => none
  | k + 1, some t => if s.name t ≠ nm then s.find nm k (s.next t) else some t

/-- The loop that collects the names, /repo/testrunner.cc:27-29. -/
def Reg.names (s : Reg) : Nat → Option Nat → List Bytes
  | _, none => []
  | 0, some _ => []
  | k + 1, some t => s.name t :: s.names k (s.next t)

/-- /repo/testrunner.cc:34. -/
def percol (n ncol : Nat) : Nat := (n + ncol - 1) / ncol

/-- The length of name `i`. -/
def len (names : List Bytes) (i : Nat) : Nat := (names.getD i []).length

/-- The loop over the names, /repo/testrunner.cc:36-37; `none` is an access outside `colwidth`. -/
def widen (names : List Bytes) (pc : Nat) : List Nat → List Nat → Option (List Nat)
  | [], w => some w
  | i :: is, w =>
    if i / pc < w.length then widen names pc is (w.set (i / pc) (max (w.getD (i / pc) 0) (len names i)))
    else none

/-- `colwidth`, /repo/testrunner.cc:34-37. -/
def widths (names : List Bytes) (ncol : Nat) : Option (List Nat) :=
  widen names (percol names.length ncol) (List.range names.length) (List.replicate ncol 0)

/-- The loop that looks for the number of columns, /repo/testrunner.cc:33-43. -/
def choose (names : List Bytes) : Nat → Option (Nat × List Nat)
  | 0 => none
  | k + 1 => (widths names (k + 1)).bind fun w =>
      if k + 1 = 1 ∨ w.sum + (k + 1) * 3 ≤ 78 then some (k + 1, w) else choose names k

def spaces (n : Nat) : Bytes := List.replicate n 32

/-- One call of `fprintf`, /repo/testrunner.cc:48-51; a negative width is one to the left. -/
def cell (names : List Bytes) (pc : Nat) (w : List Nat) (row col : Nat) : Bytes :=
  if row + col * pc < names.length then
    spaces (if col = 0 then 0 else
      ((w.getD (col - 1) 0 : Int) - (len names (row + col * pc - pc) : Int)).natAbs) ++
    spaces 3 ++ names.getD (row + col * pc) []
  else []

/-- One line without its end, /repo/testrunner.cc:46-52. -/
def line (names : List Bytes) (pc : Nat) (w : List Nat) (ncol row : Nat) : Bytes :=
  (List.range ncol).flatMap (cell names pc w row)

/-- `print_names`, /repo/testrunner.cc:24-54. -/
def print (names : List Bytes) (ncol : Nat) : Option (List Bytes) :=
  (choose names ncol).map fun c =>
    (List.range (percol names.length c.1)).map (line names (percol names.length c.1) c.2 c.1)

end Verif.Runner
