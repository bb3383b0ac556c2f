import Verif.Row.ArrayLemmas
import Verif.Row.Version

/-!
# C17: multi-column rows (array layouts): put changes exactly the named columns
-/
namespace Verif.Props.C17
open Verif.Row.Array Verif.Key

/-- The columns of the updates are strictly increasing, and there is at least one. -/
def Increasing (ups : List (Nat × Bytes)) : Prop := ups ≠ [] ∧ ups.Pairwise fun u v => u.1 < v.1

/-- The value the updates give for column `i`: the last one listed, if any. -/
def given (ups : List (Nat × Bytes)) (i : Nat) : Option Bytes :=
  (ups.reverse.find? fun u => u.1 == i).map Prod.snd

/-- The strings a row refers to. -/
def strings (cols : List (Option Nat)) : List Nat := cols.filterMap id

/-- The heap is sound for a stored row with these columns: no string was freed twice, the row's
strings are distinct and none of them was freed. -/
structure Sound (h : Heap) (cols : List (Option Nat)) : Prop where
  once : h.freed.Nodup
  old : ∀ p ∈ h.freed, p < h.next
  distinct : (strings cols).Nodup
  allocated : ∀ p ∈ strings cols, p < h.next
  live : ∀ p ∈ strings cols, p ∉ h.freed

theorem mem_strings {cols : List (Option Nat)} {p : Nat} : p ∈ strings cols ↔ ∃ j, ptr cols j = some p := by
  unfold strings
  rw [List.mem_filterMap]
  constructor
  · rintro ⟨a, ha, e⟩
    obtain ⟨j, hj, e'⟩ := List.mem_iff_getElem.1 ha
    refine ⟨j, ?_⟩
    show cols.getD j none = some p
    rw [List.getD_eq_getElem?_getD, List.getElem?_eq_getElem hj, e']
    simpa using e
  · rintro ⟨j, hj⟩
    have hj' : cols.getD j none = some p := hj
    rw [List.getD_eq_getElem?_getD] at hj'
    refine ⟨some p, ?_, rfl⟩
    cases hc : cols[j]? with
    | none => rw [hc] at hj'; cases hj'
    | some c =>
      rw [hc] at hj'
      have : c = some p := hj'
      subst this
      exact List.mem_of_getElem? hc

theorem inj_iff_nodup : ∀ {cols : List (Option Nat)}, Inj cols ↔ (strings cols).Nodup
  | [] => by
    constructor
    · intro _; exact List.nodup_nil
    · intro _ j k p h; simp [ptr] at h
  | c :: cols => by
    have ih := @inj_iff_nodup cols
    have h0 : ptr (c :: cols) 0 = c := rfl
    have hs : ∀ j, ptr (c :: cols) (j + 1) = ptr cols j := fun j => rfl
    cases c with
    | none =>
      have e : strings (none :: cols) = strings cols := rfl
      rw [e, ← ih]
      constructor
      · intro h j k p hj hk
        have := h (j + 1) (k + 1) p hj hk
        omega
      · intro h j k p hj hk
        cases j with
        | zero => rw [h0] at hj; cases hj
        | succ j =>
          cases k with
          | zero => rw [h0] at hk; cases hk
          | succ k => rw [h j k p hj hk]
    | some q =>
      have e : strings (some q :: cols) = q :: strings cols := rfl
      rw [e, List.nodup_cons, ← ih]
      constructor
      · intro h
        refine ⟨fun hq => ?_, fun j k p hj hk => ?_⟩
        · obtain ⟨j, hj⟩ := mem_strings.1 hq
          have := h 0 (j + 1) q rfl hj
          omega
        · have := h (j + 1) (k + 1) p hj hk
          omega
      · rintro ⟨hq, h⟩ j k p hj hk
        cases j with
        | zero =>
          cases k with
          | zero => rfl
          | succ k =>
            rw [h0] at hj
            cases hj
            exact absurd (mem_strings.2 ⟨k, hk⟩) hq
        | succ j =>
          cases k with
          | zero =>
            rw [h0] at hk
            cases hk
            exact absurd (mem_strings.2 ⟨j, hj⟩) hq
          | succ k => rw [h j k p hj hk]

theorem sound_iff {h : Heap} {cols : List (Option Nat)} : Sound h cols ↔ HeapOk h ∧ Own h cols := by
  constructor
  · intro s
    exact ⟨⟨s.once, s.old⟩, ⟨inj_iff_nodup.2 s.distinct, fun j p hp => s.allocated p (mem_strings.2 ⟨j, hp⟩),
      fun j p hp => s.live p (mem_strings.2 ⟨j, hp⟩)⟩⟩
  · rintro ⟨a, b⟩
    refine ⟨a.once, a.below, inj_iff_nodup.1 b.inj, ?_, ?_⟩
    · intro p hp
      obtain ⟨j, hj⟩ := mem_strings.1 hp
      exact b.below j p hj
    · intro p hp
      obtain ⟨j, hj⟩ := mem_strings.1 hp
      exact b.live j p hj

theorem col_eq (r : Row) (h : Heap) (i : Nat) : r.col h i = h.val (ptr r.cols i) := by
  unfold Row.col Heap.val ptr
  cases r.cols.getD i none <;> rfl

theorem le_last {ups : List (Nat × Bytes)} (hp : ups.Pairwise fun u v => u.1 < v.1) {l : Nat × Bytes}
    (hl : ups.getLast? = some l) : ∀ u ∈ ups, u.1 ≤ l.1 := by
  intro u hu
  obtain ⟨ys, rfl⟩ := List.getLast?_eq_some_iff.1 hl
  rcases List.mem_append.1 hu with h | h
  · exact Nat.le_of_lt ((List.pairwise_append.1 hp).2.2 u h l (by simp))
  · simp at h; subst h; exact Nat.le_refl _

theorem inj_append_nulls {cols : List (Option Nat)} {n : Nat} (h : Inj cols) : Inj (cols ++ List.replicate n none) := by
  intro j k p hj hk
  rw [ptr_append_nulls] at hj hk
  exact h j k p hj hk

/-- Putting increasing columns into a stored row of the array layout succeeds.  The new row has each
named column's new value and every other column's old one.  The old row's columns still read as
before (a reader that holds it sees the whole old row).  The row's new columns are all usable, no
column string is freed twice, and the strings freed are exactly those of the old row that the
new row does not use. -/
theorem put_spec {h : Heap} {r : Row} (s : Sound h r.cols) {ups : List (Nat × Bytes)} (hu : Increasing ups)
    (ts : BitVec 64) :
    ∃ r' h', put r h ups ts = some (r', h') ∧ r'.ts = ts ∧
      (∀ i, r'.col h' i = (given ups i).getD (r.col h i)) ∧
      (∀ i, r.col h' i = r.col h i) ∧
      (∀ u ∈ ups, u.1 < r'.cols.length) ∧ r.cols.length ≤ r'.cols.length ∧
      Sound h' r'.cols ∧
      (∀ p, p ∈ h'.freed ↔ p ∈ h.freed ∨ (p ∈ strings r.cols ∧ p ∉ strings r'.cols)) := by
  obtain ⟨hne, hp⟩ := hu
  obtain ⟨hk, ho⟩ := sound_iff.1 s
  obtain ⟨l, hl⟩ : ∃ l, ups.getLast? = some l := by
    cases e : ups.getLast? with
    | none => exact absurd (List.getLast?_eq_none_iff.1 e) hne
    | some l => exact ⟨l, rfl⟩
  obtain ⟨li, lv⟩ := l
  have hle := le_last hp hl
  let n := max r.cols.length (li + 1)
  let cols0 := r.cols ++ List.replicate (n - r.cols.length) none
  have hlen0 : cols0.length = n := by
    show (r.cols ++ List.replicate (n - r.cols.length) none).length = n
    rw [List.length_append, List.length_replicate]
    have : r.cols.length ≤ n := Nat.le_max_left _ _
    omega
  have hn : li + 1 ≤ n := Nat.le_max_right _ _
  have hp0 : ∀ j, ptr cols0 j = ptr r.cols j := fun j => ptr_append_nulls _ _ _
  obtain ⟨cols', h1, e1, l1, f1, n1, s1, v1, k1, b1, i1, w1⟩ := assignAll_spec ups h cols0
    (fun u hu => by have := hle u hu; simp only at this; omega) (inj_append_nulls ho.inj)
    (fun j p hj => ho.below j p (by rw [← hp0]; exact hj))
  have hfresh : ∀ j p, ptr cols' j = some p → (named ups j = none ∧ ptr r.cols j = some p) ∨ h.next ≤ p := by
    intro j p hj
    cases hnm : named ups j with
    | none => left; rw [k1 j hnm, hp0] at hj; exact ⟨rfl, hj⟩
    | some v => right; exact b1 j p (by rw [hnm]; rfl) hj
  obtain ⟨g1, g2, g3, g4⟩ := freeAfterUpdate_spec r ups h1 hp ho.inj
    (fun j p _ hj => by rw [f1]; exact ho.live j p hj) (by rw [f1]; exact hk.once)
  have hupd : r.update h ups ts = some ({ ts := ts, cols := cols' }, h1) := by
    unfold Row.update
    rw [hl]
    show (match assignAll h cols0 ups with
      | none => none
      | some (cols, h) => some (({ ts := ts, cols := cols } : Row), h)) = _
    rw [e1]
  have hval : ∀ c, (r.freeAfterUpdate h1 ups).val c = h1.val c := by
    intro c; cases c with
    | none => rfl
    | some p => show (r.freeAfterUpdate h1 ups).str p = h1.str p; rw [g3]
  have holdval : ∀ j, h1.val (ptr r.cols j) = h.val (ptr r.cols j) := by
    intro j
    cases e : ptr r.cols j with
    | none => rfl
    | some p => exact s1 p (ho.below j p e)
  refine ⟨⟨ts, cols'⟩, r.freeAfterUpdate h1 ups, ?_, rfl, ?_, ?_, ?_, ?_, ?_, ?_⟩
  · unfold put; rw [hupd]
  · intro i
    rw [col_eq, col_eq, hval, v1 i, hp0]
    rfl
  · intro i
    rw [col_eq, col_eq, hval, holdval]
  · intro u hu
    have := hle u hu
    show u.1 < cols'.length
    simp only at this
    omega
  · show r.cols.length ≤ cols'.length
    have : r.cols.length ≤ n := Nat.le_max_left _ _
    omega
  · refine sound_iff.2 ⟨⟨g1, ?_⟩, ⟨i1, ?_, ?_⟩⟩
    · intro p hp
      rw [g2]
      rcases (g4 p).1 hp with hp | ⟨u, _, hu⟩
      · rw [f1] at hp; have := hk.below p hp; omega
      · have := ho.below _ _ hu; omega
    · rw [g2]; exact w1
    · intro j p hj hp
      rcases (g4 p).1 hp with hp | ⟨u, hu, hup⟩
      · rw [f1] at hp
        rcases hfresh j p hj with ⟨_, hj⟩ | hge
        · exact ho.live j p hj hp
        · have := hk.below p hp; omega
      · rcases hfresh j p hj with ⟨hnm, hj⟩ | hge
        · have := ho.inj _ _ _ hj hup
          have h2 := (named_isSome ups j).2 ⟨u, hu, this.symm⟩
          rw [hnm] at h2; cases h2
        · have := ho.below _ _ hup; omega
  · intro p
    rw [g4, f1]
    constructor
    · rintro (h | ⟨u, hu, hup⟩)
      · exact .inl h
      · refine .inr ⟨mem_strings.2 ⟨_, hup⟩, fun hm => ?_⟩
        obtain ⟨j, hj⟩ := mem_strings.1 hm
        rcases hfresh j p hj with ⟨hnm, hj⟩ | hge
        · have := ho.inj _ _ _ hj hup
          have h2 := (named_isSome ups j).2 ⟨u, hu, this.symm⟩
          rw [hnm] at h2; cases h2
        · have := ho.below _ _ hup; omega
    · rintro (h | ⟨hm, hn⟩)
      · exact .inl h
      · obtain ⟨j, hj⟩ := mem_strings.1 hm
        right
        cases hnm : named ups j with
        | none => exact absurd (mem_strings.2 ⟨j, by rw [k1 j hnm, hp0]; exact hj⟩) hn
        | some v =>
          obtain ⟨u, hu, rfl⟩ := (named_isSome ups j).1 (by rw [hnm]; rfl)
          exact ⟨u, hu, hj⟩

/-- A new row made from increasing columns has exactly those columns. -/
theorem create_spec {h : Heap} (s : Sound h []) {ups : List (Nat × Bytes)} (hu : Increasing ups) (ts : BitVec 64) :
    ∃ r h', create h ups ts = some (r, h') ∧ r.ts = ts ∧ (∀ i, r.col h' i = (given ups i).getD []) ∧
      Sound h' r.cols ∧ h'.freed = h.freed := by
  obtain ⟨r, h', e, t, c, -, -, -, sd, fr⟩ := put_spec (r := ⟨0, []⟩) s hu ts
  unfold put at e
  cases eu : Row.update ⟨0, []⟩ h ups ts with
  | none => rw [eu] at e; cases e
  | some x =>
    obtain ⟨r1, h1⟩ := x
    rw [eu] at e
    have hfa : Row.freeAfterUpdate ⟨0, []⟩ h1 ups = h1 := by
      cases ups with
      | nil => rfl
      | cons u ups => rfl
    simp only [hfa, Option.some.injEq, Prod.mk.injEq] at e
    obtain ⟨rfl, rfl⟩ := e
    refine ⟨r1, h1, eu, t, fun i => ?_, sd, ?_⟩
    · rw [c i]; rfl
    · unfold Row.update at eu
      cases hl : ups.getLast? with
      | none => rw [hl] at eu; cases eu
      | some l =>
        rw [hl] at eu
        obtain ⟨li, lv⟩ := l
        simp only at eu
        have hle := le_last hu.2 hl
        obtain ⟨cols', h2, e1, _, f1, _⟩ := assignAll_spec ups h
          ([] ++ List.replicate (max ([] : List (Option Nat)).length (li + 1) - ([] : List (Option Nat)).length) none)
          (fun u hu => by have := hle u hu; simp at this ⊢; omega)
          (inj_append_nulls (fun j k p h => by simp [ptr] at h))
          (fun j p hj => by rw [ptr_append_nulls] at hj; simp [ptr] at hj)
        rw [e1] at eu
        simp only [Option.some.injEq, Prod.mk.injEq] at eu
        rw [← eu.2]; exact f1

/-- A row made from a whole value has that value in column 0. -/
theorem create1_spec (h : Heap) (s : Sound h []) (v : Bytes) (ts : BitVec 64) :
    (create1 h v ts).1.ts = ts ∧
      (∀ i, (create1 h v ts).1.col (create1 h v ts).2 i = if i = 0 then v else []) ∧
      Sound (create1 h v ts).2 (create1 h v ts).1.cols := by
  refine ⟨rfl, ?_⟩
  unfold create1 Heap.make
  by_cases hv : v = []
  · subst hv
    simp only [if_pos]
    refine ⟨fun i => ?_, ⟨s.once, s.old, List.nodup_nil, by simp [strings], by simp [strings]⟩⟩
    rw [col_eq]
    cases i <;> simp [Heap.val, ptr]
  · simp only [if_neg hv]
    refine ⟨fun i => ?_, ⟨s.once, fun p hp => Nat.lt_succ_of_lt (s.old p hp), by simp [strings], ?_, ?_⟩⟩
    · rw [col_eq]
      cases i <;> simp [Heap.val, ptr]
    · intro p hp
      simp [strings] at hp
      show p < h.next + 1
      omega
    · intro p hp hf
      simp [strings] at hp
      have := s.old p hf
      omega

theorem free_all : ∀ (cols : List (Option Nat)) (h : Heap), (cols.foldl Heap.free h).next = h.next ∧
    (cols.foldl Heap.free h).str = h.str ∧ (cols.foldl Heap.free h).freed = (strings cols).reverse ++ h.freed
  | [], _ => ⟨rfl, rfl, rfl⟩
  | none :: cols, h => free_all cols h
  | some p :: cols, h => by
    obtain ⟨a, b, c⟩ := free_all cols (h.free (some p))
    refine ⟨a, b, c.trans ?_⟩
    show _ ++ p :: h.freed = (p :: strings cols).reverse ++ h.freed
    rw [List.reverse_cons, List.append_assoc]; rfl

/-- Deleting a row frees its strings, each once, and nothing else. -/
theorem freed_all {h : Heap} {cols : List (Option Nat)} (s : Sound h cols) :
    Sound (cols.foldl Heap.free h) [] ∧
      (∀ p, p ∈ (cols.foldl Heap.free h).freed ↔ p ∈ h.freed ∨ p ∈ strings cols) ∧
      ∀ q, (cols.foldl Heap.free h).str q = h.str q := by
  obtain ⟨a, b, c⟩ := free_all cols h
  have hm : ∀ p, p ∈ (cols.foldl Heap.free h).freed ↔ p ∈ h.freed ∨ p ∈ strings cols := by
    intro p
    rw [c, List.mem_append, List.mem_reverse]
    exact Or.comm
  refine ⟨⟨?_, ?_, List.nodup_nil, by simp [strings], by simp [strings]⟩, hm, fun q => by rw [b]⟩
  · rw [c]
    refine List.nodup_append.2 ⟨(List.reverse_perm _).nodup_iff.2 s.distinct, s.once, fun x hx y hy e => ?_⟩
    subst e
    exact s.live x (List.mem_reverse.1 hx) hy
  · intro p hp
    rw [a]
    exact ((hm p).1 hp).elim (s.old p) (s.allocated p)

theorem freeAll_spec {h : Heap} {r : Row} (s : Sound h r.cols) :
    Sound (r.freeAll h) [] ∧ (∀ p, p ∈ (r.freeAll h).freed ↔ p ∈ h.freed ∨ ∃ i, ptr r.cols i = some p) ∧
      ∀ q, (r.freeAll h).str q = h.str q := by
  obtain ⟨a, b, c⟩ := freed_all s
  exact ⟨a, fun p => (b p).trans (or_congr_right mem_strings), c⟩

/-- Any sequence of puts: each column holds the value of the last put that named it. -/
def puts : Row → Heap → List (List (Nat × Bytes) × BitVec 64) → Option (Row × Heap)
  | r, h, [] => some (r, h)
  | r, h, (ups, ts) :: rest =>
    match put r h ups ts with
    | none => none
    | some (r', h') => puts r' h' rest

theorem puts_spec : ∀ (ps : List (List (Nat × Bytes) × BitVec 64)) {h : Heap} {r : Row}, Sound h r.cols →
    (∀ p ∈ ps, Increasing p.1) →
    ∃ r' h', puts r h ps = some (r', h') ∧ Sound h' r'.cols ∧
      ∀ i, r'.col h' i = (given (ps.flatMap Prod.fst) i).getD (r.col h i)
  | [], h, r, s, _ => ⟨r, h, rfl, s, fun _ => rfl⟩
  | (ups, ts) :: ps, h, r, s, hu => by
    obtain ⟨r1, h1, e1, -, c1, -, -, -, s1, -⟩ := put_spec s (hu (ups, ts) List.mem_cons_self) ts
    obtain ⟨r2, h2, e2, s2, c2⟩ := puts_spec ps s1 (fun p hp => hu p (List.mem_cons_of_mem _ hp))
    refine ⟨r2, h2, ?_, s2, fun i => ?_⟩
    · unfold puts; rw [e1]; exact e2
    · rw [c2 i, c1 i]
      unfold given
      rw [List.flatMap_cons, List.reverse_append, List.find?_append]
      cases List.find? (fun u => u.1 == i) (List.flatMap Prod.fst ps).reverse <;> simp

/-! ### Versioned rows, without concurrency -/

/-- A stored versioned row: its capacity is its number of columns. -/
def Full (r : VRow) : Prop := r.ncol = r.cols.length

/-- Deleting a stored versioned row frees its strings, each once, and nothing else. -/
theorem vfreeAll_spec {h : Heap} {r : VRow} (hf : Full r) (s : Sound h r.cols) :
    Sound (r.freeAll h) [] ∧ (∀ p, p ∈ (r.freeAll h).freed ↔ p ∈ h.freed ∨ ∃ i, ptr r.cols i = some p) ∧
      ∀ q, (r.freeAll h).str q = h.str q := by
  have e : r.cols.take r.ncol = r.cols := by rw [hf, List.take_length]
  obtain ⟨a, b, c⟩ := freed_all s
  unfold VRow.freeAll
  rw [e]
  exact ⟨a, fun p => (b p).trans (or_congr_right mem_strings), c⟩

theorem vcol_eq (r : VRow) (hf : Full r) (h : Heap) (i : Nat) : r.col h i = h.val (ptr r.cols i) := by
  unfold VRow.col
  by_cases hi : i < r.ncol
  · rw [if_pos hi]
    unfold Heap.val ptr
    cases r.cols.getD i none <;> rfl
  · rw [if_neg hi]
    have : r.cols.length ≤ i := by unfold Full at hf; omega
    simp [ptr, List.getD_eq_getElem?_getD, List.getElem?_eq_none this, Heap.val]

/-- Updating a stored versioned row: the resulting row (a new one when the row has to grow, the
same one otherwise) has each named column's new value and every other column's old one; it is
again a stored row with usable columns; the strings freed are those no longer used, none twice. -/
theorem vupdate_spec {h : Heap} {r : VRow} (hf : Full r) (s : Sound h r.cols) {ups : List (Nat × Bytes)}
    (hu : Increasing ups) (ts : BitVec 64) :
    ∃ copy r' h', r.update h ups ts false = some (copy, r', h') ∧ Full r' ∧
      (copy = true ↔ ∃ u ∈ ups, r.ncol ≤ u.1) ∧
      (∀ i, r'.col h' i = (given ups i).getD (r.col h i)) ∧
      Sound h' r'.cols ∧
      (∀ p, p < h.next → (p ∈ h'.freed ↔ p ∈ h.freed ∨ (p ∈ strings r.cols ∧ p ∉ strings r'.cols))) ∧
      (∀ p, p < h.next → h'.str p = h.str p) := by
  obtain ⟨hne, hp⟩ := hu
  obtain ⟨hk, ho⟩ := sound_iff.1 s
  obtain ⟨⟨li, lv⟩, hl⟩ : ∃ l, ups.getLast? = some l := by
    cases e : ups.getLast? with
    | none => exact absurd (List.getLast?_eq_none_iff.1 e) hne
    | some l => exact ⟨l, rfl⟩
  have hle := le_last hp hl
  have hlm : (li, lv) ∈ ups := List.mem_of_getLast? hl
  have hfl : r.ncol = r.cols.length := hf
  -- the columns before the replacement, and the outcome
  have main : ∀ (row : VRow), Full row → (∀ j, ptr row.cols j = ptr r.cols j) → li < row.cols.length →
      ∃ cols' h', replaceAll h row.cols ups = some (cols', h') ∧ Full { row with cols := cols' } ∧
      (∀ i, VRow.col { row with cols := cols' } h' i = (given ups i).getD (r.col h i)) ∧
      Sound h' cols' ∧
      (∀ p, p < h.next → (p ∈ h'.freed ↔ p ∈ h.freed ∨ (p ∈ strings r.cols ∧ p ∉ strings cols'))) ∧
      (∀ p, p < h.next → h'.str p = h.str p) := by
    intro row hrf hptr hlt
    obtain ⟨cols', h', e1, l1, n1, s1, v1, k1, hk', ho', fsub, ffrom, fin⟩ := replaceAll_spec ups h row.cols
      (fun u hu => by have := hle u hu; simp only at this; omega) hk
      ⟨fun j k p hj hk => ho.inj j k p (by rw [← hptr]; exact hj) (by rw [← hptr]; exact hk),
       fun j p hj => ho.below j p (by rw [← hptr]; exact hj), fun j p hj => ho.live j p (by rw [← hptr]; exact hj)⟩
    have hful : Full { row with cols := cols' } := by
      show row.ncol = cols'.length
      rw [l1]; exact hrf
    refine ⟨cols', h', e1, hful, ?_, sound_iff.2 ⟨hk', ho'⟩, ?_, s1⟩
    · intro i
      rw [vcol_eq _ hful, vcol_eq _ hf]
      show h'.val (ptr cols' i) = _
      rw [v1 i, hptr]; rfl
    · intro p hpn
      constructor
      · intro hm
        rcases ffrom p hm hpn with hm' | ⟨j, hj, hjp⟩
        · exact .inl hm'
        · refine .inr ⟨mem_strings.2 ⟨j, by rw [← hptr]; exact hjp⟩, fun hin => ?_⟩
          obtain ⟨k, hk2⟩ := mem_strings.1 hin
          exact ho'.live k p hk2 hm
      · rintro (hm | ⟨hin, hnin⟩)
        · exact fsub p hm
        · obtain ⟨j, hj⟩ := mem_strings.1 hin
          cases hnm : named ups j with
          | none => exact absurd (mem_strings.2 ⟨j, by rw [k1 j hnm, hptr]; exact hj⟩) hnin
          | some v => exact fin j p (by rw [hnm]; rfl) (by rw [hptr]; exact hj)
  by_cases hc : li + 1 > r.cols.length
  · let row : VRow := { ts := ts, ncol := li + 1, cols := r.cols.take r.ncol ++ List.replicate (li + 1 - r.ncol) none }
    have htake : r.cols.take r.ncol = r.cols := by rw [hfl]; exact List.take_length
    obtain ⟨cols', h', e1, f1, c1, sd1, fr1, st1⟩ := main row
      (by show li + 1 = (r.cols.take r.ncol ++ List.replicate (li + 1 - r.ncol) none).length
          rw [htake, List.length_append, List.length_replicate]; omega)
      (by intro j
          show ptr (r.cols.take r.ncol ++ List.replicate (li + 1 - r.ncol) none) j = _
          rw [htake, ptr_append_nulls])
      (by show li < (r.cols.take r.ncol ++ List.replicate (li + 1 - r.ncol) none).length
          rw [htake, List.length_append, List.length_replicate]; omega)
    refine ⟨true, { row with cols := cols' }, h', ?_, f1, ?_, c1, sd1, fr1, st1⟩
    · unfold VRow.update
      rw [hl]
      have hcd : decide (li + 1 > r.cols.length) = true := decide_eq_true hc
      have h2 : ¬ li + 1 < r.ncol := by omega
      simp only [hcd, Bool.true_or, if_true, Bool.true_and, decide_eq_true_eq, h2, if_false]
      show (match replaceAll h row.cols ups with
        | none => none
        | some (cols, h) => some (true, ({ row with cols := cols } : VRow), h)) = _
      rw [e1]
    · exact ⟨fun _ => ⟨_, hlm, by simp only; omega⟩, fun _ => rfl⟩
  · obtain ⟨cols', h', e1, f1, c1, sd1, fr1, st1⟩ := main r hf (fun _ => rfl) (by omega)
    refine ⟨false, { r with cols := cols' }, h', ?_, f1, ?_, c1, sd1, fr1, st1⟩
    · unfold VRow.update
      rw [hl]
      have hcd : decide (li + 1 > r.cols.length) = false := decide_eq_false hc
      have h2 : ¬ li + 1 > r.ncol := by omega
      have h3 : max r.ncol (li + 1) = r.ncol := by omega
      simp only [hcd, Bool.or_false, Bool.false_and, Bool.false_eq_true, if_false, h2, h3]
      rw [e1]
    · constructor
      · intro h; cases h
      · rintro ⟨u, hu, hge⟩
        have := hle u hu
        simp only at this
        omega

/-- With no update running, a snapshot of a stored row agrees with the row: on every column when no
single column was asked for, on the asked column otherwise.  Storage already large enough costs
no string its life. -/
theorem vsnapshot_spec {h : Heap} {r : VRow} (hf : Full r) (st : Option VRow)
    (hst : ∀ s, st = some s → r.ncol ≤ s.cols.length) (f : List Nat) :
    (f.length ≠ 1 → ∃ s', r.snapshot h st f = some (s', h) ∧ ∀ i, s'.col h i = r.col h i) ∧
    (∀ i, f = [i] → i < r.ncol → ∃ s', r.snapshot h st f = some (s', h) ∧ s'.col h i = r.col h i) := by
  have hfl : r.ncol = r.cols.length := hf
  -- the storage used
  obtain ⟨s0, hs0, hlen⟩ : ∃ s0 : VRow, r.storageFor h st = (s0, h) ∧
      r.ncol ≤ s0.cols.length := by
    cases st with
    | none => exact ⟨_, rfl, by simp [sizedRow]⟩
    | some s => exact ⟨s, if_neg (by have := hst s rfl; omega), hst s rfl⟩
  have hget : ∀ (cols : List (Option Nat)) i, i < r.ncol → ptr cols i = ptr r.cols i →
      VRow.col { s0 with ncol := r.ncol, cols := cols } h i = r.col h i := by
    intro cols i hi e
    have e' : cols.getD i none = r.cols.getD i none := e
    unfold VRow.col
    simp only [hi, if_true]
    rw [e']
  constructor
  · intro hlen1
    refine ⟨{ s0 with ncol := r.ncol, cols := r.cols.take r.ncol ++ s0.cols.drop r.ncol }, ?_, fun i => ?_⟩
    · unfold VRow.snapshot
      simp only [hs0]
      match f, hlen1 with
      | [], _ => rfl
      | a :: b :: c, _ => rfl
    · by_cases hi : i < r.ncol
      · apply hget _ i hi
        show (r.cols.take r.ncol ++ s0.cols.drop r.ncol).getD i none = r.cols.getD i none
        rw [List.getD_eq_getElem?_getD, List.getElem?_append_left (by rw [List.length_take]; omega),
          List.getElem?_take, if_pos hi, List.getD_eq_getElem?_getD]
      · unfold VRow.col; simp only [hi, if_false]
  · rintro i rfl hi
    refine ⟨{ s0 with ncol := r.ncol, cols := s0.cols.set i (r.cols.getD i none) }, ?_, ?_⟩
    · unfold VRow.snapshot
      simp only [hs0]
      rw [if_pos ⟨by omega, by omega⟩]
    · exact hget _ i hi (ptr_set_eq (by omega))

/-! ### Versioned rows, with concurrent updates in place -/

section Concurrent
open Verif.Row.Version

theorem or_and (x y z : Word) : (x ||| y) &&& z = (x &&& z) ||| (y &&& z) := by
  apply BitVec.eq_of_getLsbD_eq
  intro i _
  simp [Bool.and_or_distrib_right]

theorem ctr_setdirty (u : Word) : ctr (setdirty u) = ctr u := by
  unfold ctr setdirty
  rw [or_and]
  have : 0x80000000#32 &&& 0x7fffffff#32 = 0#32 := by decide
  rw [this, BitVec.or_zero]

theorem dirty_setdirty (u : Word) : dirty (setdirty u) = true := by
  unfold dirty setdirty
  rw [or_and, BitVec.and_self]
  have h : ∀ x : Word, (x ||| 0x80000000#32) ≠ 0#32 := by
    intro x e
    have := congrArg (fun y : Word => y.getLsbD 31) e
    simp at this
  exact bne_iff_ne.2 (h _)

theorem ctr_eq (u : Word) : ctr u = u.toNat % 2 ^ 31 := by
  unfold ctr
  rw [BitVec.toNat_and]
  exact Nat.and_two_pow_sub_one_eq_mod u.toNat 31

theorem dirty_clear (u : Word) : dirty (clearandbump u) = false := by
  unfold dirty clearandbump
  rw [BitVec.and_assoc]
  have : 0x7fffffff#32 &&& 0x80000000#32 = 0#32 := by decide
  rw [this, BitVec.and_zero]
  rfl

theorem ctr_clear (u : Word) : ctr (clearandbump u) = (ctr u + 1) % 2 ^ 31 := by
  have : ctr (clearandbump u) = ctr (u + 1#32) := by
    unfold ctr clearandbump
    rw [BitVec.and_assoc, BitVec.and_self]
  rw [this, ctr_eq, ctr_eq, BitVec.toNat_add]
  have : (1#32).toNat = 1 := rfl
  omega

/-- The word follows the updates. -/
theorem word_inv (e : Exec) (n : Nat) : dirty (e.st n).ver = (e.st n).busy ∧ ctr (e.st n).ver = e.finished n % 2 ^ 31 := by
  induction n with
  | zero =>
    rw [e.init.1, e.init.2]
    exact ⟨by decide, by show ctr 0 = 0 % 2 ^ 31; decide⟩
  | succ n ih =>
    have hs := e.step n
    unfold Exec.finished
    generalize e.st n = s at hs ih ⊢
    generalize e.st (n + 1) = s' at hs ⊢
    cases hs with
    | idle =>
      have h : ¬ (s.busy = true ∧ s.busy = false) := by rintro ⟨a, b⟩; rw [a] at b; cases b
      rw [if_neg h]; exact ih
    | begin hb =>
      refine ⟨dirty_setdirty _, ?_⟩
      rw [if_neg (by rintro ⟨a, -⟩; rw [hb] at a; cases a)]
      exact (ctr_setdirty _).trans ih.2
    | write i p hb =>
      refine ⟨ih.1, ?_⟩
      rw [if_neg (by rintro ⟨-, a⟩; exact absurd (hb.symm.trans a) (by decide))]
      exact ih.2
    | finish hb =>
      refine ⟨dirty_clear _, ?_⟩
      rw [if_pos ⟨hb, rfl⟩]
      show ctr (clearandbump s.ver) = _
      rw [ctr_clear, ih.2]
      omega

/-- The execution as a versioned object. -/
noncomputable def toRun (e : Exec) : Verif.Seqlock.Run (List (Option Nat)) where
  dirty n := (e.st n).busy = true
  done := e.finished
  mem n := (e.st n).cols
  clean n hn := by
    have hs := e.step n
    refine ⟨?_, by show e.finished n + _ = _; rw [if_neg (fun h => hn h.1)]; rfl⟩
    generalize e.st n = s at hs hn ⊢
    generalize e.st (n + 1) = s' at hs ⊢
    cases hs with
    | idle => rfl
    | begin => rfl
    | write i p hb => exact absurd hb hn
    | finish => rfl
  clear n h1 h2 := by
    show e.finished n + _ = _
    rw [if_pos ⟨h1, by simpa using h2⟩]
  keep n h1 h2 := by
    show e.finished n + _ = _
    rw [if_neg (by rintro ⟨-, a⟩; exact absurd (h2.symm.trans a) (by decide))]
    rfl

/-- A reader that sees a clean version at time `a`, copies the columns one by one at arbitrary later
times, and at time `b` sees a clean version with the same counter, has copied the columns as
they all were at time `a`, whatever updates ran, provided fewer than 2^31 updates finished in
between. -/
theorem snapshot_consistent (e : Exec) {a b : Nat} (hab : a ≤ b)
    (ha : dirty (e.st a).ver = false) (hb : dirty (e.st b).ver = false)
    (hv : hasChanged (e.st a).ver (e.st b).ver = false)
    (hfew : e.finished b < e.finished a + 2 ^ 31)
    (when : Nat → Nat) (hw : ∀ i, a ≤ when i ∧ when i ≤ b) :
    ∀ i, ptr (e.st (when i)).cols i = ptr (e.st a).cols i := by
  have h1 := word_inv e a
  have h2 := word_inv e b
  have hc : ctr (e.st b).ver = ctr (e.st a).ver := by simpa [hasChanged] using hv
  have hd : e.finished a = e.finished b := by
    have h3 := (toRun e).mono hab
    have h3 : e.finished a ≤ e.finished b := h3
    rw [h1.2, h2.2] at hc
    omega
  intro i
  have := ((toRun e).stable (a := a) (b := b) (by show ¬ (e.st a).busy = true; rw [← h1.1, ha]; decide)
    (by show ¬ (e.st b).busy = true; rw [← h2.1, hb]; decide) hd (hw i).1 (hw i).2).2
  have h4 : (e.st (when i)).cols = (e.st a).cols := this
  rw [h4]

/-- Two updates, then the reader finds the counter changed by one. -/
example : ctr (clearandbump (setdirty 0)) = 1 ∧ hasChanged (0 : Word) (clearandbump (setdirty 0)) = true := by decide

/-- An execution in which an update replaces column 1 at times 2 to 4. -/
def demoExec : Exec where
  st n := match n with
    | 0 | 1 => ⟨0, [some 0, some 1], false⟩
    | 2 => ⟨setdirty 0, [some 0, some 1], true⟩
    | 3 => ⟨setdirty 0, [some 0, some 2], true⟩
    | _ => ⟨clearandbump (setdirty 0), [some 0, some 2], false⟩
  init := ⟨rfl, rfl⟩
  step n := by
    match n with
    | 0 => exact .idle _
    | 1 => exact .begin _ rfl
    | 2 => exact .write ⟨setdirty 0, [some 0, some 1], true⟩ 1 (some 2) rfl
    | 3 => exact .finish _ rfl
    | n + 4 => exact .idle _

example : ∀ i, ptr (demoExec.st 5).cols i = ptr (demoExec.st 4).cols i :=
  snapshot_consistent demoExec (a := 4) (b := 7) (by decide) rfl rfl rfl (by
    simp [Exec.finished, demoExec]) (fun _ => 5) (fun _ => by decide)

/-- The validation matters: a reader that straddles the update sees the change. -/
example : hasChanged (demoExec.st 1).ver (demoExec.st 4).ver = true := by decide

end Concurrent

/-! ### Cases -/

def demoHeap : Heap := { next := 2, str := fun p => if p = 0 then [1, 1] else [2], freed := [] }
def demoRow : Row := { ts := 2, cols := [some 0, none, some 1] }

theorem demo_sound : Sound demoHeap demoRow.cols :=
  ⟨by decide, by decide, by decide, by decide, by decide⟩

/-- Column 0 replaced, column 4 added. -/
example : ∃ r' h', put demoRow demoHeap [(0, [9]), (4, [7, 7])] 4 = some (r', h') ∧
    (List.range 6).map (r'.col h') = [[9], [], [2], [], [7, 7], []] ∧ h'.freed = [0] := by
  exact ⟨_, _, rfl, by decide, by decide⟩

example : Increasing [(0, [9]), (4, [7, 7])] := by unfold Increasing; decide

def demoVRow : VRow := { ts := 2, ncol := 3, cols := [some 0, none, some 1] }

example : Full demoVRow := rfl

/-- Deleting the row frees its two strings. -/
example : (demoRow.freeAll demoHeap).freed = [1, 0] ∧ (demoVRow.freeAll demoHeap).freed = [1, 0] := by decide

/-- In place and by copy. -/
example : ((demoVRow.update demoHeap [(1, [9])] 4 false).map fun x => (x.1, (List.range 4).map (x.2.1.col x.2.2))) =
    some (false, [[1, 1], [9], [2], []]) := by decide
example : ((demoVRow.update demoHeap [(1, [9]), (3, [8])] 4 false).map fun x => (x.1, (List.range 5).map (x.2.1.col x.2.2))) =
    some (true, [[1, 1], [9], [2], [8], []]) := by decide

/-! ### What does not hold -/

/-- Naming a column twice in one put frees its old string twice. -/
theorem duplicate_column_freed_twice :
    ((put demoRow demoHeap [(0, [9]), (0, [8])] 4).map fun x => x.2.freed) = some [0, 0] := by decide

/-- Columns out of order: a column beyond the last listed one is written out of bounds. -/
theorem unsorted_columns_out_of_bounds : put demoRow demoHeap [(5, [9]), (0, [8])] 4 = none := rfl

/-- An update in place leaves the row's timestamp as it was, although `apply_put` (/repo/kvrow.hh:195-201)
assigned a later one. -/
theorem in_place_keeps_timestamp :
    ((demoVRow.update demoHeap [(0, [9])] 4 false).map fun x => x.2.1.ts) = some 2 := by decide

/-- Taking a snapshot of a wider row into storage that already holds a snapshot frees the strings of
the row snapshot before, which is still stored. -/
theorem growing_snapshot_frees_live_columns :
    ∃ s1 h1 s2 h2, demoVRow.snapshot demoHeap none [] = some (s1, h1) ∧
      VRow.snapshot { ts := 2, ncol := 4, cols := [none, none, none, none] } h1 (some s1) [] = some (s2, h2) ∧
      ∃ p, ptr demoVRow.cols 0 = some p ∧ p ∈ h2.freed :=
  ⟨_, _, _, _, rfl, rfl, 0, rfl, by decide⟩

/-- Asking for one column past the row's end reads and writes out of bounds. -/
theorem snapshot_one_column_out_of_bounds : demoVRow.snapshot demoHeap none [3] = none := rfl

end Verif.Props.C17
