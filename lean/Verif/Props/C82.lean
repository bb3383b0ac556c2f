import Verif.Runner.Model

/-!
# C82: The list of tests keeps its order, and is printed complete and in columns
-/
namespace Verif.Props.C82
open Verif.Runner

/-! ## The list -/

/-- From `p` on the list has the objects and names `l`. -/
def Chain (s : Reg) : Option Nat → List (Nat × Bytes) → Prop
  | p, [] => p = none
  | p, x :: l => p = some x.1 ∧ s.name x.1 = x.2 ∧ Chain s (s.next x.1) l

structure Good (s : Reg) (l : List (Nat × Bytes)) : Prop where
  chain : Chain s s.head l
  tail : s.tail = (l.getLast?).map (·.1)
  nodup : (l.map (·.1)).Nodup

theorem chain_snoc {s s' : Reg} {o : Nat} {nm : Bytes} (hn : s'.name o = nm) (ho : s'.next o = none) :
    ∀ (l : List (Nat × Bytes)) (p : Option Nat) (t : Nat), Chain s p l → l.getLast?.map (·.1) = some t →
    (l.map (·.1)).Nodup → (∀ x ∈ l, s'.name x.1 = s.name x.1) → (∀ x ∈ l, x.1 ≠ t → s'.next x.1 = s.next x.1) →
    s'.next t = some o → Chain s' p (l ++ [(o, nm)]) := by
  intro l
  induction l with
  | nil => intro p t _ h; cases h
  | cons x l ih =>
    intro p t hc hl hd hnm hnx ht
    obtain ⟨h1, h2, h3⟩ := hc
    refine ⟨h1, (hnm x List.mem_cons_self).trans h2, ?_⟩
    cases l with
    | nil =>
      have : x.1 = t := by simpa using hl
      rw [this, ht]
      exact ⟨rfl, hn, ho⟩
    | cons y l =>
      have hl' : (y :: l).getLast?.map (·.1) = some t := by simpa [List.getLast?_cons] using hl
      rw [List.map_cons, List.nodup_cons] at hd
      have hx : x.1 ≠ t := by
        intro e
        obtain ⟨z, hz, rfl⟩ := Option.map_eq_some_iff.mp hl'
        exact hd.1 (e ▸ List.mem_map_of_mem (List.mem_of_getLast? hz))
      rw [hnx x List.mem_cons_self hx]
      exact ih _ t h3 hl' hd.2 (fun z hz => hnm z (List.mem_cons_of_mem _ hz))
        (fun z hz => hnx z (List.mem_cons_of_mem _ hz)) ht

theorem add_good {s : Reg} {l : List (Nat × Bytes)} (h : Good s l) {o : Nat} (nm : Bytes) (ho : o ∉ l.map (·.1)) :
    Good (s.add o nm) (l ++ [(o, nm)]) := by
  have hd : ((l ++ [(o, nm)]).map (·.1)).Nodup := by
    rw [List.map_append, List.nodup_append]
    refine ⟨h.nodup, by simp, fun a ha b hb e => ho ?_⟩
    have : b = o := by simpa using hb
    exact this ▸ e ▸ ha
  cases l with
  | nil =>
    have hh : s.head = none := h.chain
    have : s.add o nm = ⟨some o, some o, upd s.next o none, upd s.name o nm⟩ := by simp [Reg.add, hh]
    rw [this]
    exact ⟨⟨rfl, by simp [upd], by simp [upd, Chain]⟩, rfl, hd⟩
  | cons x l =>
    have hh : s.head = some x.1 := h.chain.1
    obtain ⟨z, hz⟩ : ∃ z, (x :: l).getLast? = some z := ⟨_, List.getLast?_eq_some_getLast (List.cons_ne_nil x l)⟩
    have ht : s.tail = some z.1 := by rw [h.tail, hz]; rfl
    have hzm : z.1 ∈ (x :: l).map (·.1) := List.mem_map_of_mem (List.mem_of_getLast? hz)
    have hne : ∀ y ∈ x :: l, y.1 ≠ o := fun y hy e => ho (e ▸ List.mem_map_of_mem hy)
    have hzo : o ≠ z.1 := fun e => ho (e ▸ hzm)
    have : s.add o nm = ⟨s.head, some o, upd (upd s.next o none) z.1 (some o), upd s.name o nm⟩ := by
      simp [Reg.add, hh, ht]
    rw [this]
    refine ⟨?_, by rw [List.getLast?_concat]; rfl, hd⟩
    refine chain_snoc (s := s) (by simp [upd]) (by simp [upd, hzo]) (x :: l) s.head z.1 h.chain (by rw [hz]; rfl)
      h.nodup ?_ ?_ (by simp [upd])
    · intro y hy
      simp [upd, hne y hy]
    · intro y hy hyz
      simp [upd, hne y hy, hyz]

theorem addAll_good (l : List (Nat × Bytes)) : ∀ {s : Reg} {l0 : List (Nat × Bytes)}, Good s l0 →
    ((l0 ++ l).map (·.1)).Nodup → Good (s.addAll l) (l0 ++ l) := by
  induction l with
  | nil => intro s l0 h _; simpa [Reg.addAll] using h
  | cons x l ih =>
    intro s l0 h hd
    have hx : x.1 ∉ l0.map (·.1) := by
      rw [List.map_append, List.nodup_append] at hd
      exact fun hm => hd.2.2 x.1 hm x.1 (by simp) rfl
    have := ih (add_good h x.2 hx) (by simpa using hd)
    simpa [Reg.addAll] using this

theorem find_chain {s : Reg} (nm : Bytes) : ∀ (l : List (Nat × Bytes)) (p : Option Nat) (k : Nat), Chain s p l →
    l.length ≤ k → s.find nm k p = (l.find? fun x => x.2 == nm).map (·.1) := by
  intro l
  induction l with
  | nil => intro p k h _; cases h; simp [Reg.find]
  | cons x l ih =>
    intro p k h hk
    obtain ⟨rfl, h2, h3⟩ := h
    cases k with
    | zero => simp at hk
    | succ k =>
      unfold Reg.find
      rw [h2]
      by_cases he : x.2 = nm
      · simp [he]
      · have : (x.2 == nm) = false := by simpa using he
        rw [if_pos he, List.find?_cons, this]
        exact ih _ k h3 (by simpa using hk)

theorem names_chain {s : Reg} : ∀ (l : List (Nat × Bytes)) (p : Option Nat) (k : Nat), Chain s p l →
    l.length ≤ k → s.names k p = l.map (·.2) := by
  intro l
  induction l with
  | nil => intro p k h _; cases h; simp [Reg.names]
  | cons x l ih =>
    intro p k h hk
    obtain ⟨rfl, h2, h3⟩ := h
    cases k with
    | zero => simp at hk
    | succ k =>
      unfold Reg.names
      rw [h2, ih _ k h3 (by simpa using hk)]
      rfl

theorem all_good {l : List (Nat × Bytes)} (hd : (l.map (·.1)).Nodup) : Good (Reg.empty.addAll l) l :=
  addAll_good l (l0 := []) ⟨rfl, rfl, List.nodup_nil⟩ hd

/-- `find` ends and gives the first test with the name. -/
theorem find_eq {l : List (Nat × Bytes)} (hd : (l.map (·.1)).Nodup) (nm : Bytes) {k : Nat} (hk : l.length ≤ k) :
    (Reg.empty.addAll l).find nm k (Reg.empty.addAll l).head = (l.find? fun x => x.2 == nm).map (·.1) :=
  find_chain nm l _ k (all_good hd).chain hk

/-- The names are those of all tests, in the order of their construction. -/
theorem names_eq {l : List (Nat × Bytes)} (hd : (l.map (·.1)).Nodup) {k : Nat} (hk : l.length ≤ k) :
    (Reg.empty.addAll l).names k (Reg.empty.addAll l).head = l.map (·.2) :=
  names_chain l _ k (all_good hd).chain hk

/-- `first` gives the test that was made first. -/
theorem first_eq {l : List (Nat × Bytes)} (hd : (l.map (·.1)).Nodup) :
    (Reg.empty.addAll l).head = l.head?.map (·.1) := by
  have := (all_good hd).chain
  cases l with
  | nil => exact this
  | cons x l => exact this.1

/-! ## Columns -/

theorem col_lt {n ncol i : Nat} (h0 : 0 < ncol) (hi : i < n) : 0 < percol n ncol ∧ i / percol n ncol < ncol := by
  have h1 : 0 < percol n ncol := Nat.div_pos (by omega) h0
  refine ⟨h1, (Nat.div_lt_iff_lt_mul h1).mpr ?_⟩
  unfold percol
  have h2 := Nat.div_add_mod (n + ncol - 1) ncol
  have h3 := Nat.mod_lt (n + ncol - 1) h0
  omega

theorem getD_set (w : List Nat) (j c v : Nat) (hj : j < w.length) :
    (w.set j v).getD c 0 = if c = j then v else w.getD c 0 := by
  simp only [List.getD_eq_getElem?_getD, List.getElem?_set]
  by_cases h : c = j
  · subst h; simp [hj]
  · have : j ≠ c := fun e => h e.symm
    simp [h, this]

theorem widen_spec (names : List Bytes) (pc : Nat) : ∀ (is : List Nat) (w : List Nat),
    (∀ i ∈ is, i / pc < w.length) → ∃ w', widen names pc is w = some w' ∧ w'.length = w.length ∧
      (∀ c, w.getD c 0 ≤ w'.getD c 0) ∧ (∀ i ∈ is, len names i ≤ w'.getD (i / pc) 0) ∧
      ∀ c, w'.getD c 0 = w.getD c 0 ∨ ∃ i ∈ is, i / pc = c ∧ len names i = w'.getD c 0 := by
  intro is
  induction is with
  | nil => intro w _; exact ⟨w, rfl, rfl, fun c => Nat.le_refl _, by simp, fun c => .inl rfl⟩
  | cons i is ih =>
    intro w h
    have hi := h i List.mem_cons_self
    unfold widen
    rw [if_pos hi]
    obtain ⟨w', h1, h2, h3, h4, h5⟩ := ih (w.set (i / pc) (max (w.getD (i / pc) 0) (len names i)))
      (fun j hj => by rw [List.length_set]; exact h j (List.mem_cons_of_mem _ hj))
    have hs := fun c => getD_set w (i / pc) c (max (w.getD (i / pc) 0) (len names i)) hi
    refine ⟨w', h1, by rw [h2, List.length_set], fun c => ?_, fun j hj => ?_, fun c => ?_⟩
    · have := h3 c
      rw [hs] at this
      by_cases hc : c = i / pc
      · subst hc
        rw [if_pos rfl] at this
        omega
      · rw [if_neg hc] at this
        exact this
    · rcases List.mem_cons.mp hj with rfl | hj
      · have := h3 (j / pc)
        rw [hs, if_pos rfl] at this
        omega
      · exact h4 j hj
    · rcases h5 c with e | ⟨j, hj, h6, h7⟩
      · rw [hs] at e
        by_cases hc : c = i / pc
        · rw [if_pos hc] at e
          rcases Nat.le_total (len names i) (w.getD (i / pc) 0) with hm | hm
          · left; rw [e, Nat.max_eq_left hm, hc]
          · right; exact ⟨i, List.mem_cons_self, hc.symm, by rw [e, Nat.max_eq_right hm]⟩
        · rw [if_neg hc] at e
          exact .inl e
      · exact .inr ⟨j, List.mem_cons_of_mem _ hj, h6, h7⟩

/-- The widths of the columns: those of the longest names in them; no access is outside the vector. -/
theorem widths_spec (names : List Bytes) {ncol : Nat} (h0 : 0 < ncol) : ∃ w, widths names ncol = some w ∧
    w.length = ncol ∧ (∀ i < names.length, len names i ≤ w.getD (i / percol names.length ncol) 0) ∧
    ∀ c, w.getD c 0 = 0 ∨ ∃ i < names.length, i / percol names.length ncol = c ∧ len names i = w.getD c 0 := by
  obtain ⟨w, h1, h2, -, h4, h5⟩ := widen_spec names (percol names.length ncol) (List.range names.length)
    (List.replicate ncol 0) (fun i hi => by
      rw [List.length_replicate]; exact (col_lt h0 (List.mem_range.mp hi)).2)
  refine ⟨w, h1, by rw [h2, List.length_replicate], fun i hi => h4 i (List.mem_range.mpr hi), fun c => ?_⟩
  rcases h5 c with e | ⟨i, hi, h⟩
  · left
    rw [e, List.getD_eq_getElem?_getD, List.getElem?_replicate]
    split <;> rfl
  · exact .inr ⟨i, List.mem_range.mp hi, h⟩

/-- The number of columns is the largest with which all lines fit, or 1. -/
theorem choose_spec (names : List Bytes) {ncol : Nat} (h0 : 0 < ncol) : ∃ nc w, choose names ncol = some (nc, w) ∧
    1 ≤ nc ∧ nc ≤ ncol ∧ widths names nc = some w ∧ (nc = 1 ∨ w.sum + nc * 3 ≤ 78) ∧
    ∀ m, nc < m → m ≤ ncol → ∃ w', widths names m = some w' ∧ 78 < w'.sum + m * 3 := by
  induction ncol with
  | zero => omega
  | succ k ih =>
    obtain ⟨w, h1, -⟩ := widths_spec names h0
    unfold choose
    rw [h1, Option.bind_some]
    by_cases hc : k + 1 = 1 ∨ w.sum + (k + 1) * 3 ≤ 78
    · rw [if_pos hc]
      exact ⟨k + 1, w, rfl, by omega, Nat.le_refl _, h1, hc, fun m h h' => by omega⟩
    · rw [if_neg hc]
      obtain ⟨nc, w', h2, h3, h4, h5, h6, h7⟩ := ih (by omega)
      refine ⟨nc, w', h2, h3, by omega, h5, h6, fun m hm hm' => ?_⟩
      by_cases e : m = k + 1
      · subst e; exact ⟨w, h1, by omega⟩
      · exact h7 m hm (by omega)

/-! ## Lines -/

/-- A name with its margin, filled up to the width of its column. -/
def padded (names : List Bytes) (pc : Nat) (w : List Nat) (row c : Nat) : Bytes :=
  spaces 3 ++ names.getD (row + c * pc) [] ++ spaces (w.getD c 0 - len names (row + c * pc))

theorem prefix_eq {names : List Bytes} {pc : Nat} {w : List Nat} {row : Nat} (hrow : row < pc)
    (hw : ∀ i < names.length, len names i ≤ w.getD (i / pc) 0) : ∀ k, row + k * pc < names.length →
    (List.range (k + 1)).flatMap (cell names pc w row) =
      (List.range k).flatMap (padded names pc w row) ++ (spaces 3 ++ names.getD (row + k * pc) []) := by
  intro k
  induction k with
  | zero =>
    intro h
    have h' : row < names.length := by simpa using h
    simp [cell, spaces, h']
  | succ k ih =>
    intro h
    have hm : (k + 1) * pc = k * pc + pc := Nat.succ_mul k pc
    have hk : row + k * pc < names.length := by omega
    have hq : (row + k * pc) / pc = k := by
      rw [Nat.add_mul_div_right _ _ (by omega : 0 < pc), Nat.div_eq_of_lt hrow, Nat.zero_add]
    have hle := hw _ hk
    rw [hq] at hle
    rw [List.range_succ, List.flatMap_append, ih hk, List.range_succ, List.flatMap_append]
    have hc : cell names pc w row (k + 1) = spaces (w.getD k 0 - len names (row + k * pc)) ++ spaces 3 ++
        names.getD (row + (k + 1) * pc) [] := by
      unfold cell
      rw [if_pos h, if_neg (by omega), Nat.add_sub_cancel]
      have : row + (k + 1) * pc - pc = row + k * pc := by omega
      rw [this]
      have : ((w.getD k 0 : Int) - (len names (row + k * pc) : Int)).natAbs = w.getD k 0 - len names (row + k * pc) := by
        omega
      rw [this]
    simp only [List.flatMap_cons, List.flatMap_nil, List.append_nil, hc, padded, List.append_assoc]

theorem cells_nil {names : List Bytes} {pc : Nat} {w : List Nat} {row m : Nat} (h : ¬ row + m * pc < names.length) :
    ∀ j, (List.range (m + j)).flatMap (cell names pc w row) = (List.range m).flatMap (cell names pc w row) := by
  intro j
  induction j with
  | zero => rfl
  | succ j ih =>
    have : m * pc ≤ (m + j) * pc := Nat.mul_le_mul_right _ (by omega)
    rw [← Nat.add_assoc, List.range_succ, List.flatMap_append, ih]
    have hc : cell names pc w row (m + j) = [] := by
      unfold cell
      rw [if_neg (by omega)]
    simp [hc]

/-- Every line consists of the names `row`, `row + percol`, ... as far as there are any, each behind three spaces and,
except the last, filled with spaces to the width of its column. -/
theorem line_eq {names : List Bytes} {ncol : Nat} {w : List Nat} (h0 : 0 < ncol) (hw : widths names ncol = some w)
    {row : Nat} (hrow : row < percol names.length ncol) (hn : row < names.length) :
    ∃ m, m < ncol ∧ row + m * percol names.length ncol < names.length ∧
      (∀ c < ncol, row + c * percol names.length ncol < names.length → c ≤ m) ∧
      line names (percol names.length ncol) w ncol row =
        (List.range m).flatMap (padded names (percol names.length ncol) w row) ++
          (spaces 3 ++ names.getD (row + m * percol names.length ncol) []) := by
  obtain ⟨w', h1, -, h2, -⟩ := widths_spec names h0
  rw [hw] at h1
  cases h1
  generalize percol names.length ncol = pc at *
  have key : ∀ k, 0 < k → ∃ m, m < k ∧ row + m * pc < names.length ∧
      (∀ c < k, row + c * pc < names.length → c ≤ m) ∧
      (List.range k).flatMap (cell names pc w row) = (List.range m).flatMap (padded names pc w row) ++
          (spaces 3 ++ names.getD (row + m * pc) []) := by
    intro k
    induction k with
    | zero => intro h; omega
    | succ k ih =>
      intro _
      by_cases hk : row + k * pc < names.length
      · exact ⟨k, by omega, hk, fun c hc _ => by omega, prefix_eq hrow h2 k hk⟩
      · have hk0 : 0 < k := by
          rcases Nat.eq_zero_or_pos k with e | e
          · subst e; simp at hk; omega
          · exact e
        obtain ⟨m, h3, h4, h5, h6⟩ := ih hk0
        refine ⟨m, by omega, h4, fun c hc hcn => ?_, ?_⟩
        · by_cases e : c = k
          · subst e; exact absurd hcn hk
          · exact h5 c (by omega) hcn
        · rw [cells_nil hk 1, h6]
  exact key ncol h0

/-- Each name is in one line and one column, and lines and columns have no others. -/
theorem place (n : Nat) {ncol : Nat} (h0 : 0 < ncol) {i : Nat} (hi : i < n) :
    ∃ row col, row < percol n ncol ∧ col < ncol ∧ row + col * percol n ncol = i ∧
      ∀ row' col', row' < percol n ncol → row' + col' * percol n ncol = i → row' = row ∧ col' = col := by
  obtain ⟨h1, h2⟩ := col_lt h0 hi
  refine ⟨i % percol n ncol, i / percol n ncol, Nat.mod_lt _ h1, h2, ?_, fun row' col' hr e => ?_⟩
  · rw [Nat.mul_comm]; exact Nat.mod_add_div _ _
  · subst e
    rw [Nat.add_mul_mod_self_right, Nat.mod_eq_of_lt hr, Nat.add_mul_div_right _ _ h1, Nat.div_eq_of_lt hr]
    exact ⟨rfl, by omega⟩

theorem sum_take_succ (w : List Nat) (k : Nat) (h : k < w.length) : (w.take (k + 1)).sum = (w.take k).sum + w.getD k 0 := by
  rw [List.take_succ_eq_append_getElem h, List.sum_append]
  simp [List.getD_eq_getElem?_getD, List.getElem?_eq_getElem h]

theorem sum_take_le (w : List Nat) (k : Nat) : (w.take k).sum ≤ w.sum := by
  have := congrArg List.sum (List.take_append_drop k w)
  rw [List.sum_append] at this
  omega

/-- Names of one column begin at the same place. -/
theorem aligned {names : List Bytes} {ncol : Nat} {w : List Nat} (h0 : 0 < ncol) (hw : widths names ncol = some w)
    {row k : Nat} (hrow : row < percol names.length ncol) (hk : k < ncol)
    (hn : row + k * percol names.length ncol < names.length) :
    ((List.range k).flatMap (padded names (percol names.length ncol) w row)).length = (w.take k).sum + k * 3 := by
  obtain ⟨w', h1, hlen, h2, -⟩ := widths_spec names h0
  rw [hw] at h1
  cases h1
  generalize percol names.length ncol = pc at *
  induction k with
  | zero => simp
  | succ k ih =>
    have hm : (k + 1) * pc = k * pc + pc := Nat.succ_mul k pc
    have hkn : row + k * pc < names.length := by omega
    have hq : (row + k * pc) / pc = k := by
      rw [Nat.add_mul_div_right _ _ (by omega : 0 < pc), Nat.div_eq_of_lt hrow, Nat.zero_add]
    have hle := h2 _ hkn
    rw [hq] at hle
    have hp : (padded names pc w row k).length = 3 + w.getD k 0 := by
      simp only [padded, spaces, List.length_append, List.length_replicate]
      show 3 + len names (row + k * pc) + _ = _
      omega
    rw [List.range_succ, List.flatMap_append, List.length_append, ih (by omega) hkn, sum_take_succ w k (by omega)]
    simp only [List.flatMap_cons, List.flatMap_nil, List.append_nil, hp]
    omega

/-- Lines with more than one column have at most 78 bytes. -/
theorem fits (names : List Bytes) {ncol : Nat} (h0 : 0 < ncol) : ∃ nc w, choose names ncol = some (nc, w) ∧
    print names ncol = some ((List.range (percol names.length nc)).map (line names (percol names.length nc) w nc)) ∧
    (nc = 1 ∨ ∀ row < percol names.length nc, (line names (percol names.length nc) w nc row).length ≤ 78) := by
  obtain ⟨nc, w, h1, h2, h3, h4, h5, -⟩ := choose_spec names h0
  refine ⟨nc, w, h1, by simp [print, h1], ?_⟩
  rcases h5 with h5 | h5
  · exact .inl h5
  · right
    intro row hrow
    by_cases hn : row < names.length
    · obtain ⟨m, h6, h7, -, h8⟩ := line_eq (by omega) h4 hrow hn
      obtain ⟨w', h9, hlen, h10, -⟩ := widths_spec names (by omega : 0 < nc)
      rw [h4] at h9
      cases h9
      have ha := aligned (by omega) h4 hrow h6 h7
      have hq : (row + m * percol names.length nc) / percol names.length nc = m := by
        rw [Nat.add_mul_div_right _ _ (by omega), Nat.div_eq_of_lt hrow, Nat.zero_add]
      have hle := h10 _ h7
      rw [hq] at hle
      have hs := sum_take_succ w m (by omega)
      have hs' := sum_take_le w (m + 1)
      rw [h8, List.length_append, ha, List.length_append]
      have e : (spaces 3).length = 3 := by simp [spaces]
      rw [e]
      show _ + (3 + len names (row + m * percol names.length nc)) ≤ 78
      have : (m + 1) * 3 ≤ nc * 3 := Nat.mul_le_mul_right _ (by omega)
      omega
    · have := cells_nil (names := names) (pc := percol names.length nc) (w := w) (row := row) (m := 0) (by simpa using hn) nc
      rw [Nat.zero_add] at this
      unfold line
      rw [this]
      simp

/-! ## Cases -/

/-- Three names in two columns: `a`, `bcd`, `e`. -/
example : print [[97], [98, 99, 100], [101]] 2 =
    some [[32, 32, 32, 97, 32, 32, 32, 32, 32, 101], [32, 32, 32, 98, 99, 100]] := by decide

/-- Names of 40 bytes fit in one column only. -/
example : (choose [List.replicate 40 97, List.replicate 40 98] 5).map (·.1) = some 1 := by decide

example : (Reg.empty.addAll [(5, [97]), (7, [98]), (6, [97])]).find [98] 3 (some 5) = some 7 := by decide

example : ([(5, [97]), (7, [98]), (6, [97])].map (·.1) : List Nat).Nodup := by decide

end Verif.Props.C82
