import Verif.Row.Array

/-!
# Rows in the array layouts: what updates build, use and free
-/
namespace Verif.Row.Array
open Verif.Key (Bytes)

/-- The pointer of column `j`. -/
abbrev ptr (cols : List (Option Nat)) (j : Nat) : Option Nat := cols.getD j none

/-- The string of a column pointer. -/
def Heap.val (h : Heap) : Option Nat → Bytes
  | some p => h.str p
  | none => []

/-- No two columns share a string. -/
def Inj (cols : List (Option Nat)) : Prop := ∀ j k p, ptr cols j = some p → ptr cols k = some p → j = k

/-- Every column is allocated. -/
def Below (n : Nat) (cols : List (Option Nat)) : Prop := ∀ j p, ptr cols j = some p → p < n

theorem ptr_set_eq {cols : List (Option Nat)} {i : Nat} {c : Option Nat} (h : i < cols.length) : ptr (cols.set i c) i = c := by
  show (cols.set i c).getD i none = c
  rw [List.getD_eq_getElem?_getD, List.getElem?_set_self h]; rfl

theorem ptr_set_ne {cols : List (Option Nat)} {i j : Nat} {c : Option Nat} (h : j ≠ i) : ptr (cols.set i c) j = ptr cols j := by
  show (cols.set i c).getD j none = cols.getD j none
  rw [List.getD_eq_getElem?_getD, List.getElem?_set_ne (Ne.symm h), List.getD_eq_getElem?_getD]

theorem ptr_append_nulls (cols : List (Option Nat)) (n j : Nat) : ptr (cols ++ List.replicate n none) j = ptr cols j := by
  show (cols ++ List.replicate n none).getD j none = cols.getD j none
  rw [List.getD_eq_getElem?_getD, List.getD_eq_getElem?_getD]
  by_cases h : j < cols.length
  · rw [List.getElem?_append_left h]
  · rw [List.getElem?_append_right (by omega), List.getElem?_eq_none (show cols.length ≤ j by omega),
      List.getElem?_replicate]
    split <;> rfl

theorem Heap.make_val (h : Heap) (v : Bytes) : (h.make v).2.val (h.make v).1 = v := by
  unfold Heap.make
  split
  · rename_i e; subst e; rfl
  · simp [Heap.val]

theorem Heap.make_facts (h : Heap) (v : Bytes) : h.next ≤ (h.make v).2.next ∧ (h.make v).2.freed = h.freed ∧
    (∀ p, p < h.next → (h.make v).2.str p = h.str p) ∧
    (∀ p, (h.make v).1 = some p → p = h.next ∧ (h.make v).2.next = h.next + 1) ∧
    ((h.make v).1 = none → (h.make v).2.next = h.next) := by
  unfold Heap.make
  split
  · exact ⟨Nat.le_refl _, rfl, fun _ _ => rfl, by simp, fun _ => rfl⟩
  · refine ⟨Nat.le_succ _, rfl, ?_, ?_, by simp⟩
    · intro p hp
      show (if p = h.next then v else h.str p) = h.str p
      rw [if_neg (by omega)]
    · intro p hp
      exact ⟨(Option.some.inj hp).symm, rfl⟩

/-- The value given for column `j`: the last one listed, if any. -/
def named (ups : List (Nat × Bytes)) (j : Nat) : Option Bytes :=
  (ups.reverse.find? fun u => u.1 == j).map Prod.snd

theorem named_cons (i : Nat) (v : Bytes) (ups : List (Nat × Bytes)) (j : Nat) :
    named ((i, v) :: ups) j = (named ups j).or (if i = j then some v else none) := by
  unfold named
  rw [List.reverse_cons, List.find?_append]
  cases hf : List.find? (fun u => u.fst == j) ups.reverse with
  | some u => simp
  | none =>
    by_cases h : i = j
    · subst h; simp
    · simp [h]

theorem named_isSome (ups : List (Nat × Bytes)) (j : Nat) : (named ups j).isSome = true ↔ ∃ u ∈ ups, u.1 = j := by
  induction ups with
  | nil => simp [named]
  | cons u ups ih =>
    obtain ⟨i, v⟩ := u
    rw [named_cons]
    by_cases h : i = j
    · rw [if_pos h]
      constructor
      · intro _; exact ⟨(i, v), List.mem_cons_self, h⟩
      · intro _; cases named ups j <;> rfl
    · rw [if_neg h, Option.or_none, ih]
      constructor
      · rintro ⟨u, hu, e⟩; exact ⟨u, List.mem_cons_of_mem _ hu, e⟩
      · rintro ⟨u, hu, e⟩
        rcases List.mem_cons.1 hu with rfl | hu
        · exact absurd e h
        · exact ⟨u, hu, e⟩

/-- What the assignments of an update do. -/
theorem assignAll_spec : ∀ (ups : List (Nat × Bytes)) (h : Heap) (cols : List (Option Nat)),
    (∀ u ∈ ups, u.1 < cols.length) → Inj cols → Below h.next cols →
    ∃ cols' h', assignAll h cols ups = some (cols', h') ∧ cols'.length = cols.length ∧ h'.freed = h.freed ∧
      h.next ≤ h'.next ∧ (∀ p, p < h.next → h'.str p = h.str p) ∧
      (∀ j, h'.val (ptr cols' j) = (named ups j).getD (h.val (ptr cols j))) ∧
      (∀ j, named ups j = none → ptr cols' j = ptr cols j) ∧
      (∀ j p, (named ups j).isSome = true → ptr cols' j = some p → h.next ≤ p) ∧
      Inj cols' ∧ Below h'.next cols'
  | [], h, cols, _, hi, hb => ⟨cols, h, rfl, rfl, rfl, Nat.le_refl _, fun _ _ => rfl, fun _ => rfl, fun _ _ => rfl,
      by simp [named], hi, hb⟩
  | (i, v) :: ups, h, cols, hl, hi, hb => by
    have hil := hl (i, v) List.mem_cons_self
    obtain ⟨m1, m2, m3, m4, m5⟩ := h.make_facts v
    have m6 := h.make_val v
    have hi' : Inj (cols.set i (h.make v).1) := by
      intro j k p hj hk
      by_cases e1 : j = i
      · by_cases e2 : k = i
        · omega
        · rw [e1, ptr_set_eq hil] at hj
          rw [ptr_set_ne e2] at hk
          have := (m4 p hj).1; have := hb k p hk; omega
      · rw [ptr_set_ne e1] at hj
        by_cases e2 : k = i
        · rw [e2, ptr_set_eq hil] at hk
          have := (m4 p hk).1; have := hb j p hj; omega
        · rw [ptr_set_ne e2] at hk
          exact hi j k p hj hk
    have hb' : Below (h.make v).2.next (cols.set i (h.make v).1) := by
      intro j p hj
      by_cases e1 : j = i
      · rw [e1, ptr_set_eq hil] at hj
        have := m4 p hj; omega
      · rw [ptr_set_ne e1] at hj
        have := hb j p hj; omega
    obtain ⟨cols', h', e, a1, a2, a3, a4, a5, a6, a7, a8, a9⟩ := assignAll_spec ups (h.make v).2 (cols.set i (h.make v).1)
      (fun u hu => by rw [List.length_set]; exact hl u (List.mem_cons_of_mem _ hu)) hi' hb'
    have hval : ∀ c, (∀ p, c = some p → p < h.next) → (h.make v).2.val c = h.val c := by
      intro c hc
      cases c with
      | none => rfl
      | some p => exact m3 p (hc p rfl)
    refine ⟨cols', h', ?_, by rw [a1, List.length_set], by rw [a2, m2], by omega, ?_, ?_, ?_, ?_, a8, a9⟩
    · unfold assignAll
      rw [if_pos hil]
      exact e
    · intro p hp
      rw [a4 p (by omega), m3 p hp]
    · intro j
      rw [a5 j, named_cons]
      by_cases hj : i = j
      · rw [if_pos hj, ← hj, ptr_set_eq hil, m6]
        cases named ups i <;> rfl
      · rw [if_neg hj, ptr_set_ne (Ne.symm hj), Option.or_none, hval _ (hb j)]
    · intro j hn
      rw [named_cons] at hn
      by_cases hj : i = j
      · rw [if_pos hj] at hn
        cases hx : named ups j <;> rw [hx] at hn <;> cases hn
      · rw [if_neg hj, Option.or_none] at hn
        rw [a6 j hn, ptr_set_ne (Ne.symm hj)]
    · intro j p hn hp
      cases hx : named ups j with
      | some w => have := a7 j p (by rw [hx]; rfl) hp; omega
      | none =>
        rw [named_cons, hx] at hn
        by_cases hj : i = j
        · rw [a6 j hx, ← hj, ptr_set_eq hil] at hp
          have := (m4 p hp).1; omega
        · rw [if_neg hj] at hn; cases hn

/-- A row's columns are allocated, distinct and not freed. -/
structure Own (h : Heap) (cols : List (Option Nat)) : Prop where
  inj : Inj cols
  below : Below h.next cols
  live : ∀ j p, ptr cols j = some p → p ∉ h.freed

structure HeapOk (h : Heap) : Prop where
  once : h.freed.Nodup
  below : ∀ p ∈ h.freed, p < h.next

/-- What freeing the replaced columns does. -/
theorem freeAfterUpdate_spec (r : Row) : ∀ (ups : List (Nat × Bytes)) (h : Heap), ups.Pairwise (fun u v => u.1 < v.1) →
    Inj r.cols →
    (∀ j p, (∃ u ∈ ups, u.1 = j) → ptr r.cols j = some p → p ∉ h.freed) → h.freed.Nodup →
    (r.freeAfterUpdate h ups).freed.Nodup ∧ (r.freeAfterUpdate h ups).next = h.next ∧
      (r.freeAfterUpdate h ups).str = h.str ∧
      ∀ p, p ∈ (r.freeAfterUpdate h ups).freed ↔ p ∈ h.freed ∨ ∃ u ∈ ups, ptr r.cols u.1 = some p
  | [], h, _, _, _, hn => ⟨hn, rfl, rfl, by simp [Row.freeAfterUpdate]⟩
  | (i, v) :: ups, h, hi, hinj, hd, hn => by
    have hi' := List.pairwise_cons.1 hi
    unfold Row.freeAfterUpdate
    by_cases hl : i < r.cols.length
    · rw [if_pos hl]
      have hfr : ∀ q, q ∈ (h.free (ptr r.cols i)).freed ↔ q ∈ h.freed ∨ ptr r.cols i = some q := by
        intro q
        cases hc : ptr r.cols i with
        | none => simp [Heap.free]
        | some p =>
          simp only [Heap.free, List.mem_cons, Option.some.injEq]
          constructor
          · rintro (e | e)
            · exact .inr e.symm
            · exact .inl e
          · rintro (e | e)
            · exact .inr e
            · exact .inl e.symm
      obtain ⟨a1, a2, a3, a4⟩ := freeAfterUpdate_spec r ups (h.free (ptr r.cols i)) hi'.2 hinj (by
          rintro j p ⟨u, hu, e⟩ hp hm
          rcases (hfr p).1 hm with hm | hm
          · exact hd j p ⟨u, List.mem_cons_of_mem _ hu, e⟩ hp hm
          · have := hinj i j p hm hp
            have := hi'.1 u hu
            dsimp only at this
            omega)
        (by
          cases hc : ptr r.cols i with
          | none => exact hn
          | some p => exact List.nodup_cons.2 ⟨hd i p ⟨_, List.mem_cons_self, rfl⟩ hc, hn⟩)
      refine ⟨a1, ?_, ?_, ?_⟩
      · rw [a2]; cases ptr r.cols i <;> rfl
      · rw [a3]; cases ptr r.cols i <;> rfl
      · intro q
        rw [a4 q, hfr q]
        constructor
        · rintro ((h1 | h1) | ⟨u, hu, h1⟩)
          · exact .inl h1
          · exact .inr ⟨_, List.mem_cons_self, h1⟩
          · exact .inr ⟨u, List.mem_cons_of_mem _ hu, h1⟩
        · rintro (h1 | ⟨u, hu, h1⟩)
          · exact .inl (.inl h1)
          · rcases List.mem_cons.1 hu with rfl | hu
            · exact .inl (.inr h1)
            · exact .inr ⟨u, hu, h1⟩
    · rw [if_neg hl]
      refine ⟨hn, rfl, rfl, fun p => ⟨.inl, ?_⟩⟩
      rintro (h1 | ⟨u, hu, h1⟩)
      · exact h1
      · exfalso
        have hge : i ≤ u.1 := by
          rcases List.mem_cons.1 hu with rfl | hu
          · exact Nat.le_refl _
          · exact Nat.le_of_lt (hi'.1 u hu)
        have : ptr r.cols u.1 = none := by
          show r.cols.getD u.1 none = none
          rw [List.getD_eq_getElem?_getD, List.getElem?_eq_none (by omega)]; rfl
        rw [this] at h1
        cases h1

/-- What the assignments of the versioned layout's update do. -/
theorem replaceAll_spec : ∀ (ups : List (Nat × Bytes)) (h : Heap) (cols : List (Option Nat)),
    (∀ u ∈ ups, u.1 < cols.length) → HeapOk h → Own h cols →
    ∃ cols' h', replaceAll h cols ups = some (cols', h') ∧ cols'.length = cols.length ∧
      h.next ≤ h'.next ∧ (∀ p, p < h.next → h'.str p = h.str p) ∧
      (∀ j, h'.val (ptr cols' j) = (named ups j).getD (h.val (ptr cols j))) ∧
      (∀ j, named ups j = none → ptr cols' j = ptr cols j) ∧
      HeapOk h' ∧ Own h' cols' ∧ (∀ p ∈ h.freed, p ∈ h'.freed) ∧
      (∀ p ∈ h'.freed, p < h.next → p ∈ h.freed ∨ ∃ j, (named ups j).isSome = true ∧ ptr cols j = some p) ∧
      (∀ j p, (named ups j).isSome = true → ptr cols j = some p → p ∈ h'.freed)
  | [], h, cols, _, hk, ho => ⟨cols, h, rfl, rfl, Nat.le_refl _, fun _ _ => rfl, fun _ => rfl, fun _ _ => rfl, hk, ho,
      fun _ hp => hp, fun _ hp _ => .inl hp, by simp [named]⟩
  | (i, v) :: ups, h, cols, hl, hk, ho => by
    have hil := hl (i, v) List.mem_cons_self
    have hfr : ∀ q, q ∈ (h.free (ptr cols i)).freed ↔ q ∈ h.freed ∨ ptr cols i = some q := by
      intro q
      cases hc : ptr cols i with
      | none => simp [Heap.free]
      | some p =>
        simp only [Heap.free, List.mem_cons, Option.some.injEq]
        constructor
        · rintro (e | e)
          · exact .inr e.symm
          · exact .inl e
        · rintro (e | e)
          · exact .inr e
          · exact .inl e.symm
    have hfn : (h.free (ptr cols i)).next = h.next ∧ (h.free (ptr cols i)).str = h.str := by
      cases ptr cols i <;> exact ⟨rfl, rfl⟩
    generalize hg : h.free (ptr cols i) = g at *
    have hgn : g.freed.Nodup := by
      rw [← hg]
      cases hc : ptr cols i with
      | none => exact hk.once
      | some p => exact List.nodup_cons.2 ⟨ho.live i p hc, hk.once⟩
    obtain ⟨m1, m2, m3, m4, m5⟩ := g.make_facts v
    have m6 := g.make_val v
    have hi' : Inj (cols.set i (g.make v).1) := by
      intro j k p hj hk'
      by_cases e1 : j = i
      · by_cases e2 : k = i
        · omega
        · rw [e1, ptr_set_eq hil] at hj
          rw [ptr_set_ne e2] at hk'
          have := (m4 p hj).1; have := ho.below k p hk'; omega
      · rw [ptr_set_ne e1] at hj
        by_cases e2 : k = i
        · rw [e2, ptr_set_eq hil] at hk'
          have := (m4 p hk').1; have := ho.below j p hj; omega
        · rw [ptr_set_ne e2] at hk'
          exact ho.inj j k p hj hk'
    have hb' : Below (g.make v).2.next (cols.set i (g.make v).1) := by
      intro j p hj
      by_cases e1 : j = i
      · rw [e1, ptr_set_eq hil] at hj
        have := m4 p hj; omega
      · rw [ptr_set_ne e1] at hj
        have := ho.below j p hj; omega
    have hgb : ∀ p ∈ g.freed, p < g.next := by
      intro p hp
      rcases (hfr p).1 hp with hp | hp
      · have := hk.below p hp; omega
      · have := ho.below i p hp; omega
    have hk2 : HeapOk (g.make v).2 := ⟨by rw [m2]; exact hgn, by rw [m2]; intro p hp; have := hgb p hp; omega⟩
    have hlive : ∀ j p, ptr (cols.set i (g.make v).1) j = some p → p ∉ (g.make v).2.freed := by
      intro j p hj hm
      rw [m2] at hm
      by_cases e1 : j = i
      · rw [e1, ptr_set_eq hil] at hj
        have := (m4 p hj).1; have := hgb p hm; omega
      · rw [ptr_set_ne e1] at hj
        rcases (hfr p).1 hm with hm | hm
        · exact ho.live j p hj hm
        · exact e1 (ho.inj j i p hj hm)
    obtain ⟨cols', h', e, a1, a3, a4, a5, a6, a7, a8, a9, a10, a11⟩ := replaceAll_spec ups (g.make v).2
      (cols.set i (g.make v).1) (fun u hu => by rw [List.length_set]; exact hl u (List.mem_cons_of_mem _ hu))
      hk2 ⟨hi', hb', hlive⟩
    have hval : ∀ c, (∀ p, c = some p → p < h.next) → (g.make v).2.val c = h.val c := by
      intro c hc
      cases c with
      | none => rfl
      | some p =>
        show (g.make v).2.str p = h.str p
        rw [m3 p (by have := hc p rfl; omega), hfn.2]
    refine ⟨cols', h', ?_, by rw [a1, List.length_set], by omega, ?_, ?_, ?_, a7, a8, ?_, ?_, ?_⟩
    · unfold replaceAll
      rw [if_pos hil, hg]
      exact e
    · intro p hp
      rw [a4 p (by omega), m3 p (by omega), hfn.2]
    · intro j
      rw [a5 j, named_cons]
      by_cases hj : i = j
      · rw [if_pos hj, ← hj, ptr_set_eq hil, m6]
        cases named ups i <;> rfl
      · rw [if_neg hj, ptr_set_ne (Ne.symm hj), Option.or_none, hval _ (ho.below j)]
    · intro j hn
      rw [named_cons] at hn
      by_cases hj : i = j
      · rw [if_pos hj] at hn
        cases hx : named ups j <;> rw [hx] at hn <;> cases hn
      · rw [if_neg hj, Option.or_none] at hn
        rw [a6 j hn, ptr_set_ne (Ne.symm hj)]
    · intro p hp
      exact a9 p (by rw [m2]; exact (hfr p).2 (.inl hp))
    · intro p hp hlt
      rcases a10 p hp (by omega) with hq | ⟨j, hj, hq⟩
      · rw [m2] at hq
        rcases (hfr p).1 hq with hq | hq
        · exact .inl hq
        · refine .inr ⟨i, ?_, hq⟩
          rw [named_cons, if_pos rfl]
          cases named ups i <;> rfl
      · by_cases e1 : j = i
        · rw [e1, ptr_set_eq hil] at hq
          have := (m4 p hq).1; omega
        · rw [ptr_set_ne e1] at hq
          refine .inr ⟨j, ?_, hq⟩
          rw [named_cons, if_neg (Ne.symm e1), Option.or_none]
          exact hj
    · intro j p hn hp
      rw [named_cons] at hn
      by_cases hj : i = j
      · subst hj
        exact a9 p (by rw [m2]; exact (hfr p).2 (.inr hp))
      · rw [if_neg hj, Option.or_none] at hn
        exact a11 j p hn (by rw [ptr_set_ne (Ne.symm hj)]; exact hp)

end Verif.Row.Array
