import Verif.SmallVector.Model

/-!
# What programs with small vectors mean: vectors are lists
-/
namespace Verif.SmallVector

variable {T : Type} (left : T → T)

/-- The lists after an operation; none if the program may not do it. -/
def Op.spec (σ : Nat → Option (List T)) : Op T → Option (Nat → Option (List T))
  | .new v => if σ v = none then some (Function.update σ v (some [])) else none
  | .copy v x =>
    match σ v, σ x with
    | none, some l => some (Function.update σ v (some l))
    | _, _ => none
  | .push v (.value t) =>
    match σ v with
    | some l => some (Function.update σ v (some (l ++ [t])))
    | none => none
  | .push v (.elem x i) =>
    match σ v, (σ x).bind (·[i]?) with
    | some l, some t => some (Function.update σ v (some (l ++ [t])))
    | _, _ => none
  | .pushMove v (.value t) =>
    match σ v with
    | some l => some (Function.update σ v (some (l ++ [t])))
    | none => none
  | .pushMove v (.elem x i) =>
    match σ x with
    | none => none
    | some lx =>
      match lx[i]? with
      | none => none
      | some t =>
        let σ := Function.update σ x (some (lx.set i (left t)))
        match σ v with
        | some l => some (Function.update σ v (some (l ++ [t])))
        | none => none
  | .pop v =>
    match σ v with
    | some l => if l = [] then none else some (Function.update σ v (some l.dropLast))
    | none => none
  | .clear v => if σ v = none then none else some (Function.update σ v (some []))
  | .resize v n t =>
    match σ v with
    | some l => some (Function.update σ v (some (l.take n ++ List.replicate (n - l.length) t)))
    | none => none
  | .assign v x =>
    match σ v, σ x with
    | some _, some l => some (Function.update σ v (some l))
    | _, _ => none
  | .erase v i j =>
    match σ v with
    | some l => if i ≤ j ∧ j ≤ l.length then some (Function.update σ v (some (l.take i ++ l.drop j))) else none
    | none => none
  | .set v i t =>
    match σ v with
    | some l => if i < l.length then some (Function.update σ v (some (l.set i t))) else none
    | none => none
  | .finish v => if σ v = none then none else some (Function.update σ v none)

/-- A full vector is not given a reference to an element of its own. -/
def Op.Apart (s : Sys T) : Op T → Prop
  | .push v (.elem x _) | .pushMove v (.elem x _) => v = x → ∀ w, s.vecs v = some w → w.last ≠ w.cap
  | _ => True

/-- The lists have up to `L` elements. -/
def Small (L : Nat) (σ : Nat → Option (List T)) : Prop := ∀ v l, σ v = some l → l.length ≤ L

/-- What programs can get to with lists of up to `L` elements, with the lists that the vectors should be. -/
inductive Reach [DecidableEq T] (N L : Nat) : Sys T → (Nat → Option (List T)) → Prop
  | init : Reach N L Sys.init fun _ => none
  | step {s s' σ σ'} (o : Op T) : Reach N L s σ → o.Apart s → o.spec left σ = some σ' → Small L σ' → o.run left N s = some s' →
      Reach N L s' σ'

end Verif.SmallVector
