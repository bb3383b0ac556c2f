import Verif.JsonArr.Rep

/-!
# The same statements on values

Arrays as lists; nothing is shared.  `none`: the statement's precondition is violated.
-/
namespace Verif.JsonArr.Spec
open Verif.JsonArr

/-- Nulls count as empty arrays. -/
def asList : JV → Option (List JV)
  | .null => some []
  | .num _ => none
  | .arr l => some l

def edit : Edit → JV → Option JV
  | .num i, _ => some (.num i)
  | .pop, .arr (x :: l) => some (.arr (x :: l).dropLast)
  | .pop, _ => none
  | .erase first last, t => do
    let l ← asList t
    if l.length < last then none
    else if first < last then some (.arr (l.take first ++ l.drop last)) else some t
  | .resize n, t => (asList t).map fun l => .arr (l.take n ++ List.replicate (n - l.length) .null)
  | .reserve _, t => (asList t).map .arr
  | .clear, .arr _ => some (.arr [])
  | .clear, _ => some .null

/-- `insert`; at the end if there is no position. -/
def insert (k : Option Nat) (u t : JV) : Option JV := do
  let l ← asList t
  let k := k.getD l.length
  if k ≤ l.length then some (.arr (l.take k ++ u :: l.drop k)) else none

/-- An array with an element number `i`. -/
def pad (i : Nat) (t : JV) : List JV :=
  match t with
  | .arr l => l ++ List.replicate (i + 1 - l.length) .null
  | _ => List.replicate (i + 1) .null

/-- A change to `t[i][j]...`; also yields what the change hands out. -/
def modify {α : Type} (g : JV → Option (JV × α)) : List Nat → JV → Option (JV × α)
  | [], t => g t
  | i :: p, t => do
    let r ← modify g p ((pad i t).getD i .null)
    some (.arr ((pad i t).set i r.1), r.2)

/-- The element `t[i][j]...`, null if there is none. -/
def read : List Nat → JV → JV
  | [], t => t
  | i :: p, .arr l => read p (l.getD i .null)
  | _ :: p, _ => read p .null

/-- One statement; `env` are the values of the variables. -/
def step (env : List JV) : Op → Option (List JV)
  | .edit x p e => do
    let r ← modify (fun t => (edit e t).map (·, ())) p (← env[x]?)
    some (env.set x r.1)
  | .assign x p y => do
    let u ← env[y]?
    let r ← modify (fun _ => some (u, ())) p (← env[x]?)
    some (env.set x r.1)
  | .move x p y => do
    let u ← env[y]?
    let r ← modify (fun t => some (u, t)) p (← env[x]?)
    some ((env.set y r.2).set x r.1)
  | .insert x p k y => do
    let u ← env[y]?
    let r ← modify (fun t => (insert k u t).map (·, ())) p (← env[x]?)
    some (env.set x r.1)
  | .read y x p => do
    let t ← env[x]?
    let _ ← env[y]?
    some (env.set y (read p t))

def run (env : List JV) : List Op → Option (List JV)
  | [] => some env
  | o :: os => do run (← step env o) os

end Verif.JsonArr.Spec
