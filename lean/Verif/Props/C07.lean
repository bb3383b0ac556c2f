import Verif.Permuter.Lemmas

/-!
# C07 – the packed ordering word

Specification vocabulary: a word is read as `used ++ free`, a list of the 15 slot
numbers whose first `size` entries are the slots in use in key order.  The theorems
say how each edit changes these two lists, for every 64-bit word.
-/

namespace Verif.Props.C07
open Verif.Permuter

/-- What it means to be an ordering of the fifteen slots. -/
def IsOrdering (x : Word) : Prop := (used x ++ free x).Perm (List.range 15)

/-- Edits applied with in-range arguments, as the documented preconditions demand. -/
inductive Reachable : Word → Prop
  | empty : Reachable makeEmpty
  | sorted (n : Nat) : n ≤ 15 → Reachable (makeSorted n)
  | insert {x} (i : Nat) : Reachable x → i ≤ size x → size x < 15 → Reachable (insertFromBack x i).1
  | insertSel {x} (di si : Nat) : Reachable x → di ≤ size x → size x ≤ si → si < 15 →
      Reachable (insertSelected x di si)
  | remove {x} (i : Nat) : Reachable x → i < size x → Reachable (remove x i)
  | removeToBack {x} (i : Nat) : Reachable x → i < size x → Reachable (removeToBack x i)
  | rotate {x} (i j : Nat) : Reachable x → i ≤ j → j ≤ 15 → Reachable (rotate x i j)
  | exchange {x} (i j : Nat) : Reachable x → i < 15 → j < 15 → Reachable (exchange x i j)
  | exchangeValues {x} (a b : Nat) : Reachable x → a < 15 → b < 15 → Reachable (exchangeValues x a b)
  | setSize {x} (n : Nat) : Reachable x → n ≤ 15 → Reachable (setSize x n)

/-- Insertion: the slot taken is the last free one; it appears at position `i`; no other
used entry is disturbed; every other free slot stays free. -/
theorem insertFromBack_spec (x : Word) (i : Nat) (hi : i ≤ size x) (hs : size x < 15) :
    used (insertFromBack x i).1 = (used x).insertIdx i (insertFromBack x i).2
    ∧ free x = free (insertFromBack x i).1 ++ [(insertFromBack x i).2] := by
  have hsz := insert_size x i (by omega) hs
  have hv : (insertFromBack x i).2 = back x := rfl
  constructor
  · apply List.ext_getElem
    · rw [List.length_insertIdx, used_length, used_length, hsz, if_pos hi]
    · intro j h1 h2
      rw [used_length, hsz] at h1
      rw [used_get, insert_get x i (by omega) hs j (by omega), List.getElem_insertIdx]
      simp only [used_get, hv]
      split
      · rfl
      · split <;> rfl
  · apply List.ext_getElem
    · simp [free_length, hsz]; omega
    · intro j h1 h2
      rw [free_length] at h1
      rw [free_get, List.getElem_append]
      split
      · next h =>
        rw [free_length, hsz] at h
        rw [free_get, hsz, insert_get x i (by omega) hs _ (by omega), if_neg (by omega),
          if_neg (by omega)]
        congr 1; omega
      · next h =>
        rw [free_length, hsz] at h
        simp only [List.getElem_singleton, hv, back]
        congr 1; simp only [W]; omega

example : used (insertFromBack (insertFromBack makeEmpty 0).1 0).1 = [1, 0] := by decide

/-- Insertion of a chosen free slot. -/
theorem insertSelected_spec (x : Word) (di si : Nat) (hd : di ≤ size x) (h : size x ≤ si)
    (hsi : si < 15) :
    used (insertSelected x di si) = (used x).insertIdx di (get x si)
    ∧ free (insertSelected x di si) = (free x).eraseIdx (si - size x)
    ∧ (free x)[si - size x]? = some (get x si) := by
  have hs : size x < 15 := by omega
  have hds : di ≤ si := by omega
  have hsz := insertSelected_size x di si hds hsi hs
  refine ⟨?_, ?_, ?_⟩
  · apply List.ext_getElem
    · rw [List.length_insertIdx, used_length, used_length, hsz, if_pos hd]
    · intro j h1 h2
      rw [used_length, hsz] at h1
      rw [used_get, insertSelected_get x di si hds hsi hs j (by omega), List.getElem_insertIdx]
      simp only [used_get]
      split
      · rfl
      · split
        · rfl
        · rw [if_pos (by omega)]
  · apply List.ext_getElem
    · rw [List.length_eraseIdx, free_length, free_length, hsz, if_pos (by omega)]; omega
    · intro j h1 h2
      rw [free_length, hsz] at h1
      rw [free_get, insertSelected_get x di si hds hsi hs _ (by omega), if_neg (by omega),
        if_neg (by omega), List.getElem_eraseIdx]
      simp only [free_get, hsz]
      by_cases h3 : j < si - size x
      · rw [if_pos (by omega), dif_pos h3]; congr 1; omega
      · rw [if_neg (by omega), dif_neg h3]; congr 1; omega
  · rw [List.getElem?_eq_getElem (by rw [free_length]; omega), free_get]
    congr 2; omega

example : used (insertSelected (makeSorted 3) 1 14) = [0, 3, 1, 2] := by decide

/-- Removal: exactly the entry at `i` leaves; the freed slot becomes the first free one. -/
theorem remove_spec (x : Word) (i : Nat) (hi : i < size x) :
    used (remove x i) = (used x).eraseIdx i ∧ free (remove x i) = get x i :: free x
    ∧ (used x)[i]? = some (get x i) := by
  have hsz := remove_size x i hi
  have hle := size_le x
  refine ⟨?_, ?_, ?_⟩
  · apply List.ext_getElem
    · rw [List.length_eraseIdx, used_length, used_length, hsz, if_pos hi]
    · intro j h1 h2
      rw [used_length, hsz] at h1
      rw [used_get, remove_get x i hi j (by omega), List.getElem_eraseIdx]
      simp only [used_get]
      by_cases h3 : j < i
      · rw [if_pos h3, dif_pos h3]
      · rw [if_neg h3, dif_neg h3, if_pos (by omega)]
  · apply List.ext_getElem
    · simp [free_length, hsz]; omega
    · intro j h1 h2
      rw [free_length, hsz] at h1
      rw [free_get, hsz, remove_get x i hi _ (by omega), if_neg (by omega), if_neg (by omega)]
      cases j with
      | zero => rw [if_pos (by omega)]; rfl
      | succ j =>
        rw [if_neg (by omega), List.getElem_cons_succ, free_get]
        congr 1; omega
  · rw [List.getElem?_eq_getElem (by rw [used_length]; omega), used_get]

example : used (remove (makeSorted 5) 1) = [0, 2, 3, 4]
    ∧ free (remove (makeSorted 5) 1) = [1, 14, 13, 12, 11, 10, 9, 8, 7, 6, 5] := by decide

/-- Removal to the back: the freed slot becomes the last free one. -/
theorem removeToBack_spec (x : Word) (i : Nat) (hi : i < size x) :
    used (removeToBack x i) = (used x).eraseIdx i
    ∧ free (removeToBack x i) = free x ++ [get x i] := by
  have hsz := removeToBack_size x i hi
  have hle := size_le x
  constructor
  · apply List.ext_getElem
    · rw [List.length_eraseIdx, used_length, used_length, hsz, if_pos hi]
    · intro j h1 h2
      rw [used_length, hsz] at h1
      rw [used_get, removeToBack_get x i hi j (by omega), List.getElem_eraseIdx]
      simp only [used_get]
      by_cases h3 : j < i
      · rw [if_pos h3, dif_pos h3]
      · rw [if_neg h3, dif_neg h3, if_pos (by omega)]
  · apply List.ext_getElem
    · simp [free_length, hsz]; omega
    · intro j h1 h2
      rw [free_length, hsz] at h1
      rw [free_get, hsz, removeToBack_get x i hi _ (by omega), if_neg (by omega),
        List.getElem_append]
      by_cases h3 : j < 15 - size x
      · rw [if_pos (by omega), dif_pos (by rw [free_length]; exact h3), free_get]
        congr 1; omega
      · rw [if_neg (by omega), dif_neg (by rw [free_length]; exact h3)]
        simp

example : free (removeToBack (makeSorted 13) 4) = [14, 13, 4] := by decide

/-- Rotation: the code moves the block `[i, j)` behind everything else, including the free
slots (the header comment claims rotation modulo `size() - i`; see `rotate_doc_false`). -/
theorem rotate_spec (x : Word) (i j : Nat) (hij : i ≤ j) (hj : j ≤ 15) :
    slots (rotate x i j)
      = (slots x).take i ++ (slots x).drop j ++ ((slots x).drop i).take (j - i)
    ∧ size (rotate x i j) = size x := by
  refine ⟨?_, rotate_size x i j hij hj⟩
  apply List.ext_getElem
  · simp [slots_length]; omega
  · intro m h1 h2
    rw [slots_length] at h1
    rw [slots_get, rotate_get x i j hij hj m h1]
    simp only [List.getElem_append, List.length_append, List.length_take, List.length_drop,
      slots_length, List.getElem_take, List.getElem_drop, slots_get]
    by_cases h3 : m < i
    · rw [if_pos h3, dif_pos (by omega), dif_pos (by omega)]
    · rw [if_neg h3]
      by_cases h4 : m + (j - i) < 15
      · rw [if_pos h4, dif_pos (by omega), dif_neg (by omega)]; congr 1; omega
      · rw [if_neg h4, dif_neg (by omega)]; congr 1; omega

/-- For a full node the documented formula does hold. -/
theorem rotate_doc_full (x : Word) (i j : Nat) (hij : i ≤ j) (hj : j ≤ 15) (hi : i < 15)
    (k : Nat) (hk : i ≤ k) (hk' : k < 15) :
    get (rotate x i j) k = get x (i + (k - i + j - i) % (15 - i)) := by
  rw [rotate_get x i j hij hj k hk', if_neg (by omega)]
  by_cases h4 : k + (j - i) < 15
  · rw [if_pos h4, Nat.mod_eq_of_lt (by omega)]; congr 1; omega
  · rw [if_neg h4]
    have : (k - i + j - i) % (15 - i) = k + j - i - 15 := by
      have e : k - i + j - i = (k + j - i - 15) + (15 - i) := by omega
      rw [e, Nat.add_mod_right, Nat.mod_eq_of_lt (by omega)]
    rw [this]; congr 1; omega

/-- The documented formula (kpermuter.hh:237) is false of the code for a non-full node:
rotating `[0,1,2 | 14,...]` by `rotate(0,1)` leaves `1,2,14` in use, not `1,2,0`. -/
theorem rotate_doc_false :
    ¬ (∀ (x : Word) (i j : Nat), i ≤ j → j ≤ size x → ∀ k, i ≤ k → k < size x →
        get (rotate x i j) k = get x (i + (k - i + j - i) % (size x - i))) := by
  intro h
  exact absurd (h (makeSorted 3) 0 1 (by decide) (by decide) 2 (by decide) (by decide)) (by decide)

/-- Exchanging two positions. -/
theorem exchange_spec (x : Word) (i j : Nat) (hi : i < 15) (hj : j < 15) :
    slots (exchange x i j) = ((slots x).set i (get x j)).set j (get x i)
    ∧ size (exchange x i j) = size x := by
  refine ⟨?_, exchange_size x i j⟩
  apply List.ext_getElem
  · simp [slots_length]
  · intro m h1 h2
    rw [slots_length] at h1
    rw [slots_get, exchange_get x i j m h1]
    simp only [List.getElem_set, slots_get]
    by_cases h3 : m = i
    · subst h3
      rw [if_pos rfl]
      split
      · next h => subst h; rfl
      · rw [if_pos rfl]
    · rw [if_neg h3]
      by_cases h4 : m = j
      · subst h4; simp
      · rw [if_neg h4, if_neg (by omega), if_neg (by omega)]

example : slots (exchange (makeSorted 2) 0 14) = [2, 1, 14, 13, 12, 11, 10, 9, 8, 7, 6, 5, 4, 3, 0] := by
  decide

/-- Exchanging two slot numbers wherever they sit. -/
theorem exchangeValues_spec (x : Word) (a b : Nat) (ha : a < 15) (hb : b < 15) :
    slots (exchangeValues x a b)
      = (slots x).map (fun v => if v = a then b else if v = b then a else v)
    ∧ size (exchangeValues x a b) = size x := by
  refine ⟨?_, exchangeValues_size x a b (by omega) (by omega)⟩
  apply List.ext_getElem
  · simp [slots_length]
  · intro m h1 h2
    rw [slots_length] at h1
    rw [slots_get, exchangeValues_get x a b (by omega) (by omega) m h1]
    simp only [List.getElem_map, slots_get]

example : slots (exchangeValues (makeSorted 15) 0 3)
    = [3, 1, 2, 0, 4, 5, 6, 7, 8, 9, 10, 11, 12, 13, 14] := by decide

/-- `make_sorted(n)`: the first `n` slots in use in order, the others allocated in order
`n, n+1, ...` (allocation takes the last free slot). -/
theorem makeSorted_spec (n : Nat) (hn : n ≤ 15) :
    used (makeSorted n) = List.range n
    ∧ (free (makeSorted n)).reverse = (List.range (15 - n)).map (n + ·) := by
  have hsz := makeSorted_size n hn
  constructor
  · apply List.ext_getElem
    · simp [used_length, hsz]
    · intro j h1 h2
      rw [used_length, hsz] at h1
      rw [used_get, makeSorted_get n hn j (by omega), if_pos h1, List.getElem_range]
  · apply List.ext_getElem
    · simp [free_length, hsz]
    · intro j h1 h2
      simp only [List.length_reverse, free_length, hsz] at h1
      simp only [List.getElem_reverse, free_length, hsz, free_get, List.getElem_map,
        List.getElem_range]
      rw [makeSorted_get n hn _ (by omega), if_neg (by omega)]
      omega

theorem cons_eraseIdx_perm (l : List Nat) (i : Nat) (h : i < l.length) :
    (l[i] :: l.eraseIdx i).Perm l := by
  induction l generalizing i with
  | nil => simp at h
  | cons a l ih =>
    cases i with
    | zero => simp
    | succ i =>
      simp only [List.getElem_cons_succ, List.eraseIdx_cons_succ]
      exact (List.Perm.swap _ _ _).trans ((ih i (by simpa using h)).cons a)

theorem perm_insert_mid (l m : List Nat) (i v : Nat) (hi : i ≤ l.length) :
    (l.insertIdx i v ++ m).Perm (l ++ (m ++ [v])) := by
  have h1 : (l.insertIdx i v).Perm (v :: l) := List.perm_insertIdx v l hi
  have h2 : (v :: (l ++ m)).Perm (l ++ (m ++ [v])) := by
    rw [← List.append_assoc]
    exact (List.perm_append_singleton v (l ++ m)).symm
  exact (h1.append_right m).trans h2

/-- Every reachable word orders the fifteen slots: no slot is lost or duplicated. -/
theorem reachable_isOrdering {x : Word} (h : Reachable x) : IsOrdering x := by
  unfold IsOrdering
  induction h with
  | empty => decide
  | sorted n hn =>
    obtain ⟨h1, h2⟩ := makeSorted_spec n hn
    have h3 : (free (makeSorted n)).Perm ((List.range (15 - n)).map (n + ·)) := by
      rw [← h2]; exact (List.reverse_perm _).symm
    rw [h1]
    refine (List.Perm.append_left _ h3).trans ?_
    have : n + (15 - n) = 15 := by omega
    rw [← List.range_add, this]
  | @insert x i _ hi hs ih =>
    obtain ⟨h1, h2⟩ := insertFromBack_spec x i hi hs
    rw [h1]
    refine (perm_insert_mid _ _ _ _ (by rw [used_length]; exact hi)).trans ?_
    rw [← h2]; exact ih
  | @insertSel x di si _ hd hs hsi ih =>
    obtain ⟨h1, h2, h3⟩ := insertSelected_spec x di si hd hs hsi
    rw [h1, h2]
    refine (perm_insert_mid _ _ _ _ (by rw [used_length]; exact hd)).trans ?_
    refine (List.Perm.append_left _ ?_).trans ih
    obtain ⟨hlt, he⟩ := List.getElem?_eq_some_iff.1 h3
    refine (List.perm_append_singleton _ _).trans ?_
    rw [← he]
    exact cons_eraseIdx_perm _ _ hlt
  | @remove x i _ hi ih =>
    obtain ⟨h1, h2, h3⟩ := remove_spec x i hi
    rw [h1, h2]
    refine List.Perm.trans ?_ ih
    obtain ⟨hlt, he⟩ := List.getElem?_eq_some_iff.1 h3
    refine List.perm_middle.trans ?_
    rw [← List.cons_append]
    refine List.Perm.append_right _ ?_
    rw [← he]
    exact cons_eraseIdx_perm _ _ hlt
  | @removeToBack x i _ hi ih =>
    obtain ⟨h1, h2⟩ := removeToBack_spec x i hi
    obtain ⟨_, _, h3⟩ := remove_spec x i hi
    rw [h1, h2]
    refine List.Perm.trans ?_ ih
    obtain ⟨hlt, he⟩ := List.getElem?_eq_some_iff.1 h3
    rw [← List.append_assoc]
    refine (List.perm_append_singleton _ _).trans ?_
    rw [← List.cons_append]
    refine List.Perm.append_right _ ?_
    rw [← he]
    exact cons_eraseIdx_perm _ _ hlt
  | @rotate x i j _ hij hj ih =>
    rw [used_append_free] at ih ⊢
    rw [(rotate_spec x i j hij hj).1]
    refine List.Perm.trans ?_ ih
    have e : slots x = (slots x).take i ++ (((slots x).drop i).take (j - i) ++ (slots x).drop j) := by
      conv => lhs; rw [← List.take_append_drop i (slots x)]
      congr 1
      conv => lhs; rw [← List.take_append_drop (j - i) ((slots x).drop i)]
      rw [List.drop_drop]; congr 2; omega
    conv => rhs; rw [e]
    rw [List.append_assoc]
    exact List.Perm.append_left _ List.perm_append_comm
  | @exchange x i j _ hi hj ih =>
    rw [used_append_free] at ih ⊢
    rw [(exchange_spec x i j hi hj).1]
    refine List.Perm.trans ?_ ih
    have hi' : i < (slots x).length := by rw [slots_length]; exact hi
    have hj' : j < (slots x).length := by rw [slots_length]; exact hj
    rw [← slots_get x i hi', ← slots_get x j hj']
    exact List.set_set_perm hi' hj'
  | @exchangeValues x a b _ ha hb ih =>
    rw [used_append_free] at ih ⊢
    rw [(exchangeValues_spec x a b ha hb).1]
    refine (ih.map _).trans ?_
    have : ∀ a b : Fin 15, ((List.range 15).map
        (fun v => if v = a.val then b.val else if v = b.val then a.val else v)).Perm
        (List.range 15) := by decide
    exact this ⟨a, ha⟩ ⟨b, hb⟩
  | @setSize x n _ hn ih =>
    rw [used_append_free] at ih ⊢
    have : slots (setSize x n) = slots x := by
      apply List.ext_getElem
      · simp [slots_length]
      · intro m h1 h2
        rw [slots_length] at h1
        rw [slots_get, slots_get, setSize_get x n (by omega) m h1]
    rw [this]; exact ih

example : Reachable (remove (insertFromBack (insertFromBack makeEmpty 0).1 1).1 0) :=
  .remove 0 (.insert 1 (.insert 0 .empty (by decide) (by decide)) (by decide) (by decide)) (by decide)

/-- Consequence at the interface: the slot handed out by an insertion was not in use, is
in range, and everything in use keeps its slot. -/
theorem insert_fresh {x : Word} (h : Reachable x) (i : Nat) (hi : i ≤ size x) (hs : size x < 15) :
    (insertFromBack x i).2 ∉ used x ∧ (insertFromBack x i).2 < 15
    ∧ (used (insertFromBack x i).1).Nodup := by
  have hp := reachable_isOrdering h
  have hp' := reachable_isOrdering (.insert i h hi hs)
  unfold IsOrdering at hp hp'
  obtain ⟨_, h2⟩ := insertFromBack_spec x i hi hs
  have hmem : (insertFromBack x i).2 ∈ free x := by rw [h2]; simp
  have hnd : (used x ++ free x).Nodup := hp.nodup_iff.2 List.nodup_range
  refine ⟨?_, ?_, ?_⟩
  · intro hu
    exact (List.nodup_append.1 hnd).2.2 _ hu _ hmem rfl
  · have := hp.mem_iff.1 (List.mem_append_right (used x) hmem)
    simpa using this
  · exact (List.nodup_append.1 (hp'.nodup_iff.2 List.nodup_range)).1

end Verif.Props.C07

