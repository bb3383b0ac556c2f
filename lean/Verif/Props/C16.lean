import Verif.Row.BagLemmas

/-!
# C16: multi-column rows (bag layout): put changes exactly the named columns
-/
namespace Verif.Props.C16
open Verif.Row.Bag Verif.Key

/-- The value the updates give for column `i`: the last one listed, if any. -/
def named (ups : List (Nat × Bytes)) (i : Nat) : Option Bytes :=
  (ups.reverse.find? fun u => u.1 == i).map Prod.snd

/-- What column `i` should read after the updates. -/
def expected (r : Row) (ups : List (Nat × Bytes)) (i : Nat) : Bytes :=
  match named ups i with
  | some v => v
  | none => (r.col i).getD []

/-- The number of columns after the updates. -/
def width (r : Row) (ups : List (Nat × Bytes)) : Nat :=
  ups.foldl (fun n u => max n (u.1 + 1)) r.ncol

/-- The updated row's size, without the timestamp, fits the 16-bit offsets. -/
def Fit (r : Row) (ups : List (Nat × Bytes)) : Prop :=
  4 + 2 * width r ups + ((List.range (width r ups)).map fun i => (expected r ups i).length).sum < 65536

/-- The columns of the updates are strictly increasing: the documented precondition of `update`
(/repo/value_bag.hh:135-137). -/
def Increasing (ups : List (Nat × Bytes)) : Prop := ups.Pairwise fun u v => u.1 < v.1

/-- The rows the code can build: from nothing, from a whole value, or by updating. -/
inductive Made : Row → Prop where
  | create (ups : List (Nat × Bytes)) (ts : BitVec 64) (r : Row) : Increasing ups → Fit empty ups →
      create ups ts = some r → Made r
  | create1 (v : Bytes) (ts : BitVec 64) : v.length < 65530 → Made (create1 v ts)
  | update (r r' : Row) (ups : List (Nat × Bytes)) (ts : BitVec 64) : Made r → Increasing ups → Fit r ups →
      r.update ups ts = some r' → Made r'

theorem incr_of_pairwise : ∀ (ups : List (Nat × Bytes)) (k : Nat), Increasing ups → (∀ u ∈ ups, k ≤ u.1) → Incr k ups
  | [], _, _, _ => trivial
  | (i, v) :: ups, k, h, hk => by
    have h' := List.pairwise_cons.1 h
    exact ⟨hk (i, v) List.mem_cons_self, incr_of_pairwise ups (i + 1) h'.2 (fun u hu => h'.1 u hu)⟩

theorem named_cons (i : Nat) (v : Bytes) (ups : List (Nat × Bytes)) (j : Nat) :
    named ((i, v) :: ups) j = (named ups j).or (if i = j then some v else none) := by
  unfold named
  rw [List.reverse_cons, List.find?_append]
  cases hf : List.find? (fun u => u.fst == j) ups.reverse with
  | some u => simp
  | none =>
    by_cases h : i = j
    · subst h; simp
    · simp [h]

theorem named_none_of_lt {ups : List (Nat × Bytes)} {k j : Nat} (h : ∀ u ∈ ups, k ≤ u.1) (hj : j < k) : named ups j = none := by
  unfold named
  rw [Option.map_eq_none_iff, List.find?_eq_none]
  intro u hu
  have := h u (by simpa using hu)
  simp; omega

theorem incr_ge : ∀ (ups : List (Nat × Bytes)) (k : Nat), Incr k ups → ∀ u ∈ ups, k ≤ u.1
  | (i, v) :: ups, k, h, u, hu => by
    rcases List.mem_cons.1 hu with rfl | hu
    · exact h.1
    · have := incr_ge ups (i + 1) h.2 u hu
      have := h.1
      omega

theorem foldl_max (ups : List (Nat × Bytes)) (a b : Nat) :
    ups.foldl (fun n u => max n (u.1 + 1)) (max a b) = max a (ups.foldl (fun n u => max n (u.1 + 1)) b) := by
  induction ups generalizing b with
  | nil => rfl
  | cons u ups ih =>
    rw [List.foldl_cons, List.foldl_cons, Nat.max_assoc, ih]

theorem foldl_ge (ups : List (Nat × Bytes)) (a : Nat) : a ≤ ups.foldl (fun n u => max n (u.1 + 1)) a := by
  have := foldl_max ups a 0
  rw [Nat.max_eq_left (Nat.zero_le _)] at this
  omega

theorem over_length : ∀ (ups : List (Nat × Bytes)) (k : Nat) (cs : List Bytes), Incr k ups →
    k + (over k cs ups).length = ups.foldl (fun n u => max n (u.1 + 1)) (k + cs.length)
  | [], _, _, _ => rfl
  | (i, v) :: ups, k, cs, h => by
    have hki := h.1
    have ih := over_length ups (i + 1) (cs.drop (i - k + 1)) h.2
    simp only [over, List.foldl_cons, List.length_append, List.length_take, List.length_replicate, List.length_cons]
    rw [List.length_drop] at ih
    have e : max (k + cs.length) (i + 1) = i + 1 + (cs.length - (i - k + 1)) := by omega
    rw [e]
    omega

theorem over_get : ∀ (ups : List (Nat × Bytes)) (k : Nat) (cs : List Bytes), Incr k ups → ∀ j,
    (over k cs ups).getD j [] = (named ups (k + j)).getD (cs.getD j [])
  | [], _, _, _, _ => rfl
  | (i, v) :: ups, k, cs, h, j => by
    have hki := h.1
    rw [named_cons]
    simp only [over]
    have hl : (cs.take (i - k) ++ List.replicate (i - k - cs.length) []).length = i - k := by
      simp only [List.length_append, List.length_take, List.length_replicate]; omega
    rcases Nat.lt_trichotomy j (i - k) with hj | hj | hj
    · have hn : named ups (k + j) = none := named_none_of_lt (incr_ge ups (i + 1) h.2) (by omega)
      rw [hn, if_neg (by omega)]
      rw [List.getD_eq_getElem?_getD, List.getElem?_append_left (by omega)]
      by_cases hc : j < cs.length
      · rw [List.getElem?_append_left (by rw [List.length_take]; omega), List.getElem?_take, if_pos hj]
        rfl
      · rw [List.getElem?_append_right (by rw [List.length_take]; omega), List.getElem?_replicate, if_pos (by
          rw [List.length_take]; omega)]
        simp [List.getD_eq_getElem?_getD, List.getElem?_eq_none (show cs.length ≤ j by omega)]
    · have hn : named ups (k + j) = none := named_none_of_lt (incr_ge ups (i + 1) h.2) (by omega)
      rw [hn, if_pos (by omega)]
      rw [List.getD_eq_getElem?_getD, List.getElem?_append_right (by omega), hl, hj]
      simp
    · rw [if_neg (by omega)]
      rw [List.getD_eq_getElem?_getD, List.getElem?_append_right (by omega), hl]
      have e : j - (i - k) = (j - (i - k) - 1) + 1 := by omega
      rw [e, List.getElem?_cons_succ, ← List.getD_eq_getElem?_getD, over_get ups (i + 1) _ h.2]
      have e2 : i + 1 + (j - (i - k) - 1) = k + j := by omega
      rw [e2]
      have e3 : (cs.drop (i - k + 1)).getD (j - (i - k) - 1) [] = cs.getD j [] := by
        rw [List.getD_eq_getElem?_getD, List.getElem?_drop, List.getD_eq_getElem?_getD]
        congr 2
        omega
      rw [e3]
      cases named ups (k + j) <;> rfl

theorem flatten_length_eq (l : List Bytes) : l.flatten.length = ((List.range l.length).map fun i => (l.getD i []).length).sum := by
  rw [List.length_flatten]
  congr 1
  apply List.ext_getElem
  · simp
  · intro i h1 h2
    simp at h1
    simp [h1]

/-- What an update does to the row with columns `cs`. -/
theorem update_ofCols' (ts ts' : BitVec 64) {cs : List Bytes} (hf : Fits cs) {ups : List (Nat × Bytes)}
    (hi : Increasing ups) (hfit : Fit (ofCols ts cs) ups) :
    (ofCols ts cs).update ups ts' = some (ofCols ts' (over 0 cs ups)) ∧ Fits (over 0 cs ups) ∧
      (over 0 cs ups).length = width (ofCols ts cs) ups ∧
      ∀ i, (over 0 cs ups).getD i [] = expected (ofCols ts cs) ups i := by
  have hinc := incr_of_pairwise ups 0 hi (fun _ _ => Nat.zero_le _)
  have hw : (over 0 cs ups).length = width (ofCols ts cs) ups := by
    have := over_length ups 0 cs hinc
    rw [Nat.zero_add, Nat.zero_add] at this
    exact this
  have hg : ∀ i, (over 0 cs ups).getD i [] = expected (ofCols ts cs) ups i := by
    intro i
    rw [over_get ups 0 cs hinc i, Nat.zero_add]
    unfold expected
    rw [col_ofCols ts hf i]
    cases named ups i <;> rfl
  have hf' : Fits (over 0 cs ups) := by
    unfold Fits
    rw [flatten_length_eq, hw]
    unfold Fit at hfit
    simp only [hg]
    exact hfit
  exact ⟨update_ofCols ts ts' hf hinc hf', hf', hw, hg⟩

theorem empty_eq : empty = ofCols 0 [] := rfl

theorem create1_eq (v : Bytes) (ts : BitVec 64) (h : v.length < 65530) : create1 v ts = ofCols ts [v] := by
  have e : off16 (6 + v.length : Int) = 6 + v.length := by unfold off16; omega
  unfold create1
  rw [e]
  simp [ofCols, offs, hdr]

theorem Made.cols {r : Row} (h : Made r) : ∃ ts cs, r = ofCols ts cs ∧ Fits cs := by
  induction h with
  | create ups ts r hi hf e =>
    unfold Row.Bag.create at e
    rw [empty_eq] at e hf
    obtain ⟨h1, h2, _⟩ := update_ofCols' 0 ts (cs := []) (by unfold Fits; decide) hi hf
    rw [h1] at e
    cases e
    exact ⟨ts, _, rfl, h2⟩
  | create1 v ts h =>
    refine ⟨ts, [v], create1_eq v ts h, ?_⟩
    unfold Fits hdr
    simp only [List.length_singleton, List.flatten_singleton]
    omega
  | update r r' ups ts _ hi hf e ih =>
    obtain ⟨ts0, cs, rfl, hfs⟩ := ih
    obtain ⟨h1, h2, _⟩ := update_ofCols' ts0 ts hfs hi hf
    rw [h1] at e
    cases e
    exact ⟨ts, _, rfl, h2⟩

/-- Updating any row the code can build, with strictly increasing columns and a result that fits
the offset type, succeeds without reading or writing outside the rows' memory; each named
column then holds its value, every other column is unchanged, and columns never written are
empty. -/
theorem update_spec (r : Row) (h : Made r) (ups : List (Nat × Bytes)) (hi : Increasing ups) (hf : Fit r ups)
    (ts : BitVec 64) :
    ∃ r', r.update ups ts = some r' ∧ Made r' ∧ r'.ts = ts ∧ r'.ncol = width r ups ∧
      ∀ i, r'.col i = some (expected r ups i) := by
  obtain ⟨ts0, cs, rfl, hfs⟩ := h.cols
  obtain ⟨h1, h2, h3, h4⟩ := update_ofCols' ts0 ts hfs hi hf
  refine ⟨_, h1, .update _ _ ups ts h hi hf h1, rfl, h3, fun i => ?_⟩
  rw [col_ofCols ts h2, h4]

/-- The same for a new row. -/
theorem create_spec (ups : List (Nat × Bytes)) (hi : Increasing ups) (hf : Fit empty ups) (ts : BitVec 64) :
    ∃ r, create ups ts = some r ∧ Made r ∧ r.ts = ts ∧ ∀ i, r.col i = some ((named ups i).getD []) := by
  have hf0 := hf
  rw [empty_eq] at hf
  obtain ⟨h1, h2, h3, h4⟩ := update_ofCols' 0 ts (cs := []) (by unfold Fits; decide) hi hf
  refine ⟨_, h1, .create ups ts _ hi hf0 h1, rfl, fun i => ?_⟩
  rw [col_ofCols ts h2, h4]
  unfold expected
  cases named ups i with
  | some v => rfl
  | none =>
    dsimp only
    rw [col_ofCols 0 (by unfold Fits; decide)]
    rfl

/-- A whole value becomes column 0. -/
theorem create1_spec (v : Bytes) (hv : v.length < 65530) (ts : BitVec 64) :
    (create1 v ts).ts = ts ∧ (create1 v ts).ncol = 1 ∧ (create1 v ts).col 0 = some v ∧
      ∀ i, 0 < i → (create1 v ts).col i = some [] := by
  have hf : Fits [v] := by
    unfold Fits hdr
    simp only [List.length_singleton, List.flatten_singleton]
    omega
  refine ⟨rfl, rfl, ?_, fun i hi => ?_⟩
  · rw [create1_eq v ts hv, col_ofCols ts hf]; rfl
  · rw [create1_eq v ts hv, col_ofCols ts hf, List.getD_eq_getElem?_getD,
      List.getElem?_eq_none (by simp only [List.length_singleton]; omega)]
    rfl

/-- Every column of every row the code can build is readable within the row's memory. -/
theorem col_readable (r : Row) (h : Made r) (i : Nat) : (r.col i).isSome = true ∧ (r.ncol ≤ i → r.col i = some []) := by
  obtain ⟨ts, cs, rfl, hf⟩ := h.cols
  rw [col_ofCols ts hf]
  refine ⟨rfl, fun hi => ?_⟩
  rw [List.getD_eq_getElem?_getD, List.getElem?_eq_none hi]
  rfl

/-- The precondition is needed: the server passes a client's columns on unchecked
(/repo/mtd.cc:969-975), and naming a column twice makes the update copy a negative number of
bytes. -/
theorem duplicate_column_overruns :
    create [(0, [1, 2]), (1, [3])] 1 = some (ofCols 1 [[1, 2], [3]]) ∧
    (ofCols 1 [[1, 2], [3]]).update [(0, [7]), (0, [8])] 2 = none := by
  decide

/-- Columns out of order: the count of columns is taken from the last one. -/
theorem unsorted_columns_overrun : create [(5, [1]), (3, [2])] 1 = none := by decide

/-- The size limit is needed: a column of 65530 bytes reads back as empty. -/
theorem oversized_value_lost (v : Bytes) (hv : v.length = 65530) (ts : BitVec 64) :
    (create1 v ts).size = 8 ∧ (create1 v ts).at 1 = 0 := by
  have e : off16 (6 + v.length : Int) = 0 := by unfold off16; omega
  unfold Row.size Row.at create1
  rw [e]
  exact ⟨rfl, rfl⟩

/-! ### Concrete cases -/

example : Increasing [(1, [9]), (3, [4, 5])] ∧ Fit (ofCols 1 [[1, 2], [3]]) [(1, [9]), (3, [4, 5])] := by
  unfold Increasing Fit; decide

example : Made (ofCols 1 [[1, 2], [3]]) := .create [(0, [1, 2]), (1, [3])] 1 _ (by unfold Increasing; decide) (by unfold Fit; decide) (by decide)

example : (ofCols 1 [[1, 2], [3]]).update [(1, [9]), (3, [4, 5])] 2 = some (ofCols 2 [[1, 2], [9], [], [4, 5]]) := by decide

-- the special case of a column replaced by one of the same length
example : (ofCols 1 [[1, 2], [3]]).update [(0, [8, 9])] 2 = some (ofCols 2 [[8, 9], [3]]) := by decide

end Verif.Props.C16
