import Verif.JsonArr.Memory

/-!
# C72: Json arrays that share memory behave as values, and the exceptions
-/
namespace Verif.Props.C72
open Verif.JsonArr

/-- A program starts with `n` null variables and no blocks. -/
def start (n : Nat) : State := ⟨[], List.replicate n .null⟩

theorem start_means (n : Nat) : Means (start n) (List.replicate n .null) := by
  refine ⟨fun _ => [], ⟨?_, ?_, ?_, ?_, ?_⟩, by simp [start, dv]⟩
  · intro a n h; simp [start, JsonArr.get] at h
  · intro a n h; simp [start, JsonArr.get] at h
  · intro a _
    simp only [start, inner, List.map_nil, List.sum_nil, Nat.add_zero]
    rw [List.count_eq_zero]; simp
  · intro a n h; simp [start, JsonArr.get] at h
  · intro a n h; simp [start, JsonArr.get] at h

/-- **Values.**  A program in which no statement assigns (a part of) a variable to (a part of)
itself runs without using released memory or memory outside of a block, as far as its
preconditions hold; afterwards every variable reads as the value it has when nothing is
shared. -/
theorem values (n : Nat) (os : List Op) (hs : ∀ o ∈ os, Safe o) (env : List JV)
    (he : Spec.run (List.replicate n .null) os = some env) :
    ∃ s, run (start n) os = some s ∧ s.vars.length = env.length ∧
      ∀ (x : Nat) (v : Val) (t : JV), s.vars[x]? = some v → env[x]? = some t →
        ∃ k, ∀ k' ≥ k, readAll s.heap k' v = some t := by
  obtain ⟨s, h1, D, hr, rfl⟩ := run_ok os (start n) _ env (start_means n) hs he
  refine ⟨s, h1, by simp, ?_⟩
  intro x v t hv ht
  rw [List.getElem?_map, hv] at ht
  simp only [Option.map_some, Option.some.injEq] at ht
  subst ht
  exact ⟨sizeOf (dv D v), fun k' hk =>
    readAll_ok hr k' v (fun a ha => hr.live_root (ha ▸ List.mem_of_getElem? hv)) hk⟩

/-- All references to a block: from variables and from elements of blocks. -/
def references (s : State) (a : Nat) : Nat :=
  s.vars.count (.arr (some a)) +
    (s.heap.map fun o => (o.map fun n => n.elems.count (.arr (some a))).getD 0).sum

/-- **Memory.**  After such a program a block exists exactly if a variable leads to it, its
reference count is the number of references, and its elements fit. -/
theorem memory (n : Nat) (os : List Op) (hs : ∀ o ∈ os, Safe o) (env : List JV)
    (he : Spec.run (List.replicate n .null) os = some env) :
    ∃ s, run (start n) os = some s ∧
      (∀ a, (∃ b, get s.heap a = some b) ↔ Reach s.heap s.vars a) ∧
      ∀ a b, get s.heap a = some b → b.rc = references s a ∧ b.elems.length ≤ b.cap := by
  obtain ⟨s, h1, D, hr, rfl⟩ := run_ok os (start n) _ env (start_means n) hs he
  refine ⟨s, h1, live_iff_reach hr, fun a b hb => ⟨?_, hr.fits a b hb⟩⟩
  rw [hr.cnt a b hb]
  simp only [references, inner]
  congr 3
  funext o
  cases o <;> rfl

/-- **Everything is released.**  If no variable is an array in the end, no block is left. -/
theorem no_leak (n : Nat) (os : List Op) (hs : ∀ o ∈ os, Safe o) (env : List JV)
    (he : Spec.run (List.replicate n .null) os = some env)
    (hn : ∀ t ∈ env, ∀ l, t ≠ .arr l) :
    ∃ s, run (start n) os = some s ∧ ∀ a, get s.heap a = none := by
  obtain ⟨s, h1, D, hr, rfl⟩ := run_ok os (start n) _ env (start_means n) hs he
  refine ⟨s, h1, fun a => ?_⟩
  cases hg : get s.heap a with
  | none => rfl
  | some b =>
    exfalso
    have hroot : ∀ c, Val.arr (some c) ∉ s.vars := by
      intro c hc
      exact hn _ (List.mem_map_of_mem hc) (D c) (dv_arr D c)
    have : ∀ c, ¬ Reach s.heap s.vars c := by
      intro c hc
      induction hc with
      | root hm => exact hroot _ hm
      | elem _ _ _ ih => exact ih
    exact this a ((live_iff_reach hr a).1 ⟨b, hg⟩)

/-- `x[1] = 5; y = x; x[0] = y; y[1].push_back(x); x.clear(); y = 3` and so on. -/
def sample : List Op :=
  [.edit 0 [1] (.num 5), .assign 1 [] 0, .assign 0 [0] 1, .insert 1 [1, 2] none 0,
   .edit 0 [] (.resize 9), .read 2 1 [1, 2, 0], .insert 0 [] (some 1) 0, .move 2 [3] 0,
   .edit 1 [1, 2] .pop]

/-- The sample with nothing left. -/
def sampleEnd : List Op := sample ++ [.edit 0 [] (.num 0), .edit 1 [] (.num 1), .edit 2 [] .clear,
  .edit 2 [] (.num 2)]

/-- A flat picture of a value, to compare. -/
def size : JV → Nat
  | .arr l => l.length
  | _ => 0

instance : DecidablePred Safe := fun o => by
  cases o <;> simp only [Safe] <;> infer_instance

-- the hypotheses hold for the samples
example : (∀ o ∈ sample, Safe o) ∧
    (Spec.run (List.replicate 3 .null) sample).map (·.map size) = some [0, 2, 4] := by
  constructor
  · decide
  · decide +kernel
example : (∀ o ∈ sampleEnd, Safe o) ∧
    (Spec.run (List.replicate 3 .null) sampleEnd).map (·.map size) = some [0, 0, 0] := by
  constructor
  · decide
  · decide +kernel
-- and the samples do share, copy and release blocks
example : ((run (start 3) sample).map fun s =>
    (s.heap.map fun o => o.map (·.rc)).filter (·.isSome)) ≠ none := by decide +kernel

/-- **Exception 1.**  `j = j[0]` uses the released array: the element is read again after the
array that contained it is gone (/repo/json.hh:2926-2934, 2944-2946).  As values nothing is
wrong with it. -/
theorem own_element :
    ∃ os, (Spec.run [.null] (os ++ [.read 0 0 [0]])).isSome = true ∧
      (run (start 1) os).isSome = true ∧ run (start 1) (os ++ [.read 0 0 [0]]) = none :=
  ⟨[.edit 0 [0, 0] (.num 7)], by decide +kernel, by decide +kernel, by decide +kernel⟩

/-- The memory after `j[0] = 7; j[0] = j`. -/
def cyclic : State := ⟨[some ⟨2, 8, [.arr (some 0)]⟩], [.arr (some 0)]⟩

theorem cyclic_reads (k : Nat) : readAll cyclic.heap k (.arr (some 0)) = none := by
  induction k with
  | zero => rfl
  | succ k ih =>
    have : get cyclic.heap 0 = some ⟨2, 8, [.arr (some 0)]⟩ := rfl
    simp only [readAll, this, List.mapM_cons, ih]
    rfl

/-- **Exception 2.**  `j[0] = j` makes an array that contains itself
(/repo/json.hh:1391-1393): reading it does not end, and its block is never released. -/
theorem own_cycle :
    Spec.run [.null] [.edit 0 [0] (.num 7), .assign 0 [0] 0] = some [.arr [.arr [.num 7]]] ∧
    run (start 1) [.edit 0 [0] (.num 7), .assign 0 [0] 0] = some cyclic ∧
    (∀ k, readAll cyclic.heap k (.arr (some 0)) = none) ∧
    run cyclic [.edit 0 [] (.num 1)]
      = some ⟨[some ⟨1, 8, [.arr (some 0)]⟩], [.num 1]⟩ := by
  refine ⟨?_, by decide +kernel, cyclic_reads, by decide +kernel⟩
  rfl

/-- The same if `j` shares its array with another variable: `j` first gets an array of its own,
which then contains itself, and the other variable keeps its value. -/
theorem own_cycle_shared :
    ∃ h a, run (start 2) [.edit 0 [0] (.num 7), .assign 1 [] 0, .assign 0 [0] 0]
        = some ⟨h, [.arr (some a), .arr (some 0)]⟩ ∧
      a ≠ 0 ∧ get h a = some ⟨2, 8, [.arr (some a)]⟩ ∧ get h 0 = some ⟨1, 8, [.num 7]⟩ :=
  ⟨[some ⟨1, 8, [.num 7]⟩, some ⟨2, 8, [.arr (some 1)]⟩], 1, by decide +kernel, by decide,
    by decide +kernel, by decide +kernel⟩

/-- **Exception 3.**  `x.insert(x.abegin() + k, x[i])` and `x.push_back(x[i])`: up to the
position the right element is inserted, behind it the element before the one that was asked
for; `x.push_back(x[x.size()])`, which should append a null, copies a place that was never
written. -/
theorem own_insert (s : State) (env : List JV) (hm : Means s env) (x : Nat) (l : List JV)
    (hx : env[x]? = some (.arr l)) (k : Option Nat) (i : Nat)
    (hk : k.getD l.length ≤ l.length) :
    (i = l.length → k.getD l.length = l.length → insertOwnStep s x k i = none) ∧
    ∀ u, l[if i ≤ k.getD l.length then i else i - 1]? = some u →
      ∃ s', insertOwnStep s x k i = some s' ∧
        Means s' (env.set x (.arr (l.take (k.getD l.length) ++ u :: l.drop (k.getD l.length)))) := by
  obtain ⟨D, hr, rfl⟩ := hm
  obtain ⟨v, hv, hl⟩ := var_of hx
  have hr0 := rep_var hr hv
  constructor
  · intro hi hkl
    simp [insertOwnStep, hv, insertOwn_end hr0 hl hkl hi]
  · intro u hu
    have hu' : (if i < k.getD l.length then l[i]? else if i = k.getD l.length then l[i]? else
        if i ≤ l.length then l[i - 1]? else some .null) = some u := by
      by_cases hik : i ≤ k.getD l.length
      · rw [if_pos hik] at hu
        by_cases h1 : i < k.getD l.length
        · rw [if_pos h1]; exact hu
        · rw [if_neg h1, if_pos (by omega)]; exact hu
      · rw [if_neg hik] at hu
        have := (List.getElem?_eq_some_iff.1 hu).1
        rw [if_neg (by omega), if_neg (by omega), if_pos (by omega)]; exact hu
    obtain ⟨h', v', D', h1, h2, h3, h4⟩ := insertOwn_ok hr0 hl hk hu'
    refine ⟨⟨h', s.vars.set x v'⟩, by simp [insertOwnStep, hv, h1], D', rep_back h2 hv, ?_⟩
    rw [map_set_eq h4, h3]

-- `[0, 1, 2].insert(abegin(), j[2])` inserts 1 instead of 2
example : ∃ s, run (start 1) [.edit 0 [0] (.num 0), .edit 0 [1] (.num 1), .edit 0 [2] (.num 2)]
      = some s ∧ Means s [.arr [.num 0, .num 1, .num 2]] ∧
    ∃ s', insertOwnStep s 0 (some 0) 2 = some s' ∧
      Means s' [.arr [.num 1, .num 0, .num 1, .num 2]] := by
  obtain ⟨s, h1, h2⟩ := run_ok
    [.edit 0 [0] (.num 0), .edit 0 [1] (.num 1), .edit 0 [2] (.num 2)] (start 1) _ _
    (start_means 1) (by decide) rfl
  exact ⟨s, h1, h2, (own_insert s _ h2 0 _ rfl (some 0) 2 (by decide)).2 _ rfl⟩

end Verif.Props.C72
