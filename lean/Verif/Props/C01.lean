import Verif.Trie.History
/-
C01: a table behaves as a map over any history of operations.
-/
namespace Verif.Props.C01
open Verif.Key (Bytes)
open Verif.Trie
variable {V : Type}

/-- Any finite history on a fresh table runs to completion (no undefined behaviour, failed
assertion or endless loop in the modelled code), and afterwards every lookup, of every byte
string, answers as the map obtained by performing the same operations on a map. -/
theorem history_is_map (ops : List (Op V)) (h : ∀ o ∈ ops, o.Valid) :
    ∃ outs t, run ops empty = some (outs, t) ∧
      ∀ k, get k t = some ((specRun ops (fun _ => none)).2 k) := by
  obtain ⟨t, h1, h2⟩ := run_spec empty_repr ops h
  exact ⟨_, t, h1, h2.2⟩

/-- Does an operation write key `k`? -/
def Touches (k : Bytes) : Op V → Prop
  | .put j _ => j = k
  | .update c _ j => j = k ∧ c = true
  | .remove j => j = k
  | .gc _ => False

theorem spec_untouched (k : Bytes) (ops : List (Op V)) (m : Bytes → Option V)
    (h : ∀ o ∈ ops, ¬ Touches k o) : (specRun ops m).2 k = m k := by
  induction ops generalizing m with
  | nil => rfl
  | cons o os ih =>
    rw [specRun]
    dsimp only
    rw [ih _ (fun o' h' => h o' (by simp [h']))]
    have := h o (by simp)
    match o, this with
    | .put j v, h => simp only [specStep]; rw [if_neg (fun e => h e.symm)]
    | .update true f j, h => simp only [specStep]; rw [if_neg (fun e => h ⟨e.symm, rfl⟩)]
    | .update false f j, _ => rfl
    | .remove j, h => simp only [specStep]; rw [if_neg (fun e => h e.symm)]
    | .gc j, _ => rfl

theorem specRun_append (a b : List (Op V)) (m : Bytes → Option V) :
    (specRun (a ++ b) m).2 = (specRun b (specRun a m).2).2 := by
  induction a generalizing m with
  | nil => rfl
  | cons o os ih => simp only [List.cons_append, specRun]; exact ih _

/-- The most recent value stored under a key is the one found, whatever happened before and
whatever operations on other keys (with the splits, layer creations, unlinkings and layer
collections they cause) happened since. -/
theorem last_put_found (before after : List (Op V)) (k : Bytes) (v : V)
    (h : ∀ o ∈ before ++ .put k v :: after, o.Valid) (hno : ∀ o ∈ after, ¬ Touches k o) :
    ∃ outs t, run (before ++ .put k v :: after) empty = some (outs, t) ∧ get k t = some (some v) := by
  obtain ⟨outs, t, h1, h2⟩ := history_is_map _ h
  refine ⟨outs, t, h1, ?_⟩
  rw [h2, specRun_append, specRun]
  dsimp only
  rw [spec_untouched k after _ hno]
  simp [specStep]

/-- A removed key stays absent until it is stored again. -/
theorem removed_absent (before after : List (Op V)) (k : Bytes)
    (h : ∀ o ∈ before ++ .remove k :: after, o.Valid) (hno : ∀ o ∈ after, ¬ Touches k o) :
    ∃ outs t, run (before ++ .remove k :: after) empty = some (outs, t) ∧ get k t = some none := by
  obtain ⟨outs, t, h1, h2⟩ := history_is_map _ h
  refine ⟨outs, t, h1, ?_⟩
  rw [h2, specRun_append, specRun]
  dsimp only
  rw [spec_untouched k after _ hno]
  simp [specStep]

/-- A key never stored is absent. -/
theorem never_stored_absent (ops : List (Op V)) (k : Bytes) (h : ∀ o ∈ ops, o.Valid)
    (hno : ∀ o ∈ ops, ¬ Touches k o) :
    ∃ outs t, run ops empty = some (outs, t) ∧ get k t = some none := by
  obtain ⟨outs, t, h1, h2⟩ := history_is_map _ h
  refine ⟨outs, t, h1, ?_⟩
  rw [h2, spec_untouched k ops _ hno]

/-- One operation changes the lookup of no other key. -/
theorem other_keys_unchanged {t : T V} (ht : Reachable t) (o : Op V) (ho : o.Valid) (k : Bytes)
    (hk : ¬ Touches k o) : ∃ out t', step o t = some (out, t') ∧ get k t' = get k t := by
  obtain ⟨m, hm⟩ := ht.repr
  obtain ⟨t', h1, h2⟩ := step_spec hm o ho
  refine ⟨_, t', h1, ?_⟩
  rw [h2.2, hm.2]
  have := spec_untouched k [o] m (by simpa using hk)
  simp only [specRun] at this
  rw [this]

/-! ### Concrete cases -/

/-- Keys that differ only in trailing zero bytes, keys that share a long prefix (two layers),
and the empty key, with a removal and a layer collection in the history. -/
def demoA : Bytes := [1, 2, 3]
def demoB : Bytes := [1, 2, 3, 0]
def demoP : Bytes := [1, 2, 3, 4, 5, 6, 7, 8]
def demoC : Bytes := demoP ++ [9, 9, 9, 9, 9, 9, 9, 9, 1]
def demoD : Bytes := demoP ++ [9, 9, 9, 9, 9, 9, 9, 9, 2]

def demoOps : List (Op Nat) :=
  [.put demoA 1, .put demoC 3, .put demoD 4, .put [] 5, .remove demoC, .gc demoP, .put demoB 2,
   .update true (fun o => o.getD 0 + 10) demoD, .update false (fun _ => 0) demoA, .remove [7]]

/-- `history_is_map` applies to it, and its conclusion names particular values. -/
example : ∃ outs t, run demoOps empty = some (outs, t) ∧ get demoA t = some (some 1) ∧
    get demoB t = some (some 2) ∧ get demoC t = some none ∧ get demoD t = some (some 14) ∧
    get [] t = some (some 5) ∧ get demoP t = some none := by
  obtain ⟨outs, t, h1, h2⟩ := history_is_map demoOps (by
    simp [demoOps, Op.Valid, demoP])
  refine ⟨outs, t, h1, ?_⟩
  simp only [h2]
  decide

/-- `last_put_found` with a non-trivial history before and after. -/
example : ∃ outs t, run ([Op.put demoA 7, .remove demoA] ++ .put demoA 1 :: [.put demoB 2, .remove demoC])
    empty = some (outs, t) ∧ get demoA t = some (some 1) :=
  last_put_found _ _ _ _ (by simp [Op.Valid]) (by simp [Touches, demoA, demoB, demoC, demoP])

/-- `removed_absent`. -/
example : ∃ outs t, run ([Op.put demoA 7, .put demoB 7] ++ .remove demoA :: [.put demoB 2])
    empty = some (outs, t) ∧ get demoA t = some none :=
  removed_absent _ _ _ (by simp [Op.Valid]) (by simp [Touches, demoA, demoB])

/-- `never_stored_absent`: a stored key is not confused with its zero-padded form. -/
example : ∃ outs t, run [Op.put demoA 7] empty = some (outs, t) ∧ get demoB t = some none :=
  never_stored_absent _ _ (by simp [Op.Valid]) (by simp [Touches, demoA, demoB])

/-- `other_keys_unchanged` at a reachable table. -/
example : ∃ out t', step (.remove demoB) (empty : T Nat) = some (out, t') ∧ get demoA t' = get demoA empty :=
  other_keys_unchanged ⟨[], by simp, [], rfl⟩ (.remove demoB) (by trivial) _ (by simp [Touches, demoA, demoB])

end Verif.Props.C01
