import Verif.Strings.Model
import Mathlib.Tactic.Common

/-!
# Reference counts are exact
-/
namespace Verif.Strings

/-- How many strings hold memo `m`. -/
def cnt (l : List (Option Rep)) (m : Nat) : Nat := l.countP fun x => decide (x.bind Rep.memo = some m)

def tok : Option Rep → List Nat
  | none => []
  | some r => r.memo.toList

theorem tok_count (x : Option Rep) (m : Nat) : (tok x).count m = if x.bind Rep.memo = some m then 1 else 0 := by
  cases x with
  | none => simp [tok]
  | some r =>
    cases h : r.memo with
    | none => simp [tok, h]
    | some m' => simp [tok, h, List.count_singleton]

theorem cnt_set {l : List (Option Rep)} {i : Nat} {x : Option Rep} (h : l[i]? = some x) (y : Option Rep) (m : Nat) :
    cnt (l.set i y) m + (tok x).count m = cnt l m + (tok y).count m := by
  rw [tok_count, tok_count]
  induction l generalizing i with
  | nil => simp at h
  | cons a l ih =>
    cases i with
    | zero =>
      simp only [List.getElem?_cons_zero, Option.some.injEq] at h
      subst h
      simp only [List.set_cons_zero, cnt, List.countP_cons, decide_eq_true_eq]
      omega
    | succ i =>
      have := ih (by simpa using h)
      simp only [List.set_cons_succ, cnt, List.countP_cons, decide_eq_true_eq] at this ⊢
      omega

theorem cnt_append (l : List (Option Rep)) (y : Option Rep) (m : Nat) : cnt (l ++ [y]) m = cnt l m + (tok y).count m := by
  rw [tok_count]
  simp [cnt, List.countP_append, List.countP_cons]

theorem cnt_pos {l : List (Option Rep)} {i : Nat} {r : Rep} {m : Nat} (h : l[i]? = some (some r)) (hm : r.memo = some m) :
    0 < cnt l m := by
  unfold cnt
  rw [List.countP_pos_iff]
  exact ⟨some r, List.mem_of_getElem? h, by simp [hm]⟩

/-- The characters of a string are there. -/
def Wf (s : State) (r : Rep) : Prop :=
  ∀ m, r.memo = some m → ∃ M o, s.heap m = some M ∧ r.data = .memo m o ∧ o + r.length ≤ M.dirty

/-- `ex` are the memos held by temporaries. -/
structure Inv (s : State) (ex : List Nat) : Prop where
  refs : ∀ m M, s.heap m = some M → M.refcount = cnt s.strs m + ex.count m ∧ 0 < M.refcount ∧ M.dirty ≤ M.capacity
  held : ∀ (i : Nat) (r : Rep), s.strs[i]? = some (some r) → Wf s r
  toks : ∀ m ∈ ex, ∃ M, s.heap m = some M
  fresh : ∀ m, s.next ≤ m → s.heap m = none

/-- From `s` to `s'` nothing that is in use has changed. -/
structure Kp (s s' : State) : Prop where
  next : s.next ≤ s'.next
  const : s'.const = s.const
  heap : ∀ m, m < s.next → ∀ M', s'.heap m = some M' → ∃ M, s.heap m = some M ∧ M.dirty ≤ M'.dirty ∧ M'.capacity = M.capacity ∧
    ∀ x, x < M.dirty → M'.bytes x = M.bytes x

theorem Kp.refl (s : State) : Kp s s := ⟨Nat.le_refl _, rfl, fun _ _ M' h => ⟨M', h, Nat.le_refl _, rfl, fun _ _ => rfl⟩⟩

theorem Kp.trans {s s1 s2 : State} (h : Kp s s1) (h' : Kp s1 s2) : Kp s s2 := by
  refine ⟨Nat.le_trans h.next h'.next, h'.const.trans h.const, fun m hm M' hM' => ?_⟩
  obtain ⟨M1, h1, h2, h3, h4⟩ := h'.heap m (Nat.lt_of_lt_of_le hm h.next) M' hM'
  obtain ⟨M, h5, h6, h7, h8⟩ := h.heap m hm M1 h1
  exact ⟨M, h5, Nat.le_trans h6 h2, h3.trans h7, fun x hx => (h4 x (Nat.lt_of_lt_of_le hx h6)).trans (h8 x hx)⟩

/-- The string has the characters `v`. -/
def Live (s : State) (r : Rep) (v : List UInt8) : Prop :=
  r.length = v.length ∧
  ((r.memo = none ∧ ∃ c o, r.data = .const c o ∧ v = (List.range r.length).map fun k => s.const c (o + k)) ∨
   ∃ m M o, r.memo = some m ∧ s.heap m = some M ∧ r.data = .memo m o ∧ o + r.length ≤ M.dirty ∧
     v = (List.range r.length).map fun k => M.bytes (o + k))

theorem Live.wf {s : State} {r : Rep} {v : List UInt8} (h : Live s r v) : Wf s r := by
  intro m hm
  rcases h.2 with ⟨h1, _⟩ | ⟨m', M, o, h1, h2, h3, h4, _⟩
  · rw [h1] at hm; cases hm
  · rw [h1] at hm; cases hm
    exact ⟨M, o, h2, h3, h4⟩

theorem Live.keep {s s' : State} {ex : List Nat} {r : Rep} {v : List UInt8} (hi : Inv s ex) (hk : Kp s s')
    (ha : ∀ m, r.memo = some m → ∃ M, s'.heap m = some M) (h : Live s r v) : Live s' r v := by
  refine ⟨h.1, ?_⟩
  rcases h.2 with ⟨h1, c, o, h2, h3⟩ | ⟨m, M, o, h1, h2, h3, h4, h5⟩
  · exact Or.inl ⟨h1, c, o, h2, by rw [hk.const]; exact h3⟩
  · have hlt : m < s.next := by
      by_contra hc
      rw [hi.fresh m (by omega)] at h2; cases h2
    obtain ⟨M', hM'⟩ := ha m h1
    obtain ⟨M2, h6, h7, h8, h9⟩ := hk.heap m hlt M' hM'
    rw [h2] at h6; cases h6
    refine Or.inr ⟨m, M', o, h1, hM', h3, by omega, ?_⟩
    rw [h5]
    refine List.map_congr_left fun k hk => ?_
    rw [List.mem_range] at hk
    exact (h9 _ (by omega)).symm

theorem Live.read {s : State} {ex : List Nat} {r : Rep} {v : List UInt8} (hi : Inv s ex) (h : Live s r v) :
    s.read r.data r.length = some v := by
  rcases h.2 with ⟨h1, c, o, h2, h3⟩ | ⟨m, M, o, h1, h2, h3, h4, h5⟩
  · rw [h2]; exact congrArg some h3.symm
  · have := (hi.refs m M h2).2.2
    rw [h3]
    unfold State.read
    simp only [h2]
    rw [if_pos (by omega)]
    exact congrArg some h5.symm

theorem live_empty (s : State) : Live s emptyRep [] := ⟨rfl, Or.inl ⟨rfl, 0, 0, rfl, rfl⟩⟩

/-- A change of reference counts only. -/
theorem inv_count {s : State} {ex ex' : List Nat} {m : Nat} {M : Memo} {n : Nat} (h : Inv s ex) (hm : s.heap m = some M) (hn : 0 < n)
    (h1 : n = cnt s.strs m + ex'.count m) (h2 : ∀ m', m' ≠ m → ex'.count m' = ex.count m') :
    Inv (s.setMemo m (some { M with refcount := n })) ex' := by
  have hheap : ∀ m' M', (s.setMemo m (some { M with refcount := n })).heap m' = some M' →
      (m' = m ∧ M' = { M with refcount := n }) ∨ m' ≠ m ∧ s.heap m' = some M' := by
    intro m' M' hx
    unfold State.setMemo at hx
    by_cases hc : m' = m
    · subst hc; simp only [Function.update_self, Option.some.injEq] at hx; exact Or.inl ⟨rfl, hx.symm⟩
    · simp only [Function.update_of_ne hc] at hx; exact Or.inr ⟨hc, hx⟩
  have hex : ∀ m', (∃ M', s.heap m' = some M') → ∃ M', (s.setMemo m (some { M with refcount := n })).heap m' = some M' := by
    rintro m' ⟨M', hM'⟩
    unfold State.setMemo
    by_cases hc : m' = m
    · subst hc; exact ⟨_, Function.update_self ..⟩
    · exact ⟨M', by simp only [Function.update_of_ne hc]; exact hM'⟩
  constructor
  · intro m' M' hx
    rcases hheap m' M' hx with ⟨rfl, rfl⟩ | ⟨hc, hx⟩
    · exact ⟨h1, hn, (h.refs m' M hm).2.2⟩
    · rw [h2 m' hc]; exact h.refs m' M' hx
  · intro i r hr m' hm'
    obtain ⟨M', o, h3, h4, h5⟩ := h.held i r hr m' hm'
    unfold State.setMemo
    by_cases hc : m' = m
    · subst hc
      rw [hm] at h3; cases h3
      exact ⟨_, o, Function.update_self .., h4, h5⟩
    · exact ⟨M', o, by simp only [Function.update_of_ne hc]; exact h3, h4, h5⟩
  · intro m' hm'
    refine hex m' ?_
    by_cases hc : m' = m
    · subst hc; exact ⟨M, hm⟩
    · refine h.toks m' ?_
      rw [← List.count_pos_iff] at hm' ⊢
      rw [← h2 m' hc]; exact hm'
  · intro m' hm'
    have h3 := h.fresh m' hm'
    have hc : m' ≠ m := by rintro rfl; rw [h3] at hm; cases hm
    show Function.update s.heap m _ m' = none
    rw [Function.update_of_ne hc]; exact h3

theorem kp_count {s : State} {m : Nat} {M : Memo} {n : Nat} (hm : s.heap m = some M) :
    Kp s (s.setMemo m (some { M with refcount := n })) := by
  refine ⟨Nat.le_refl _, rfl, fun m' _ M' hM' => ?_⟩
  unfold State.setMemo at hM'
  by_cases hc : m' = m
  · subst hc
    simp only [Function.update_self, Option.some.injEq] at hM'
    subst hM'
    exact ⟨M, hm, Nat.le_refl _, rfl, fun _ _ => rfl⟩
  · simp only [Function.update_of_ne hc] at hM'
    exact ⟨M', hM', Nat.le_refl _, rfl, fun _ _ => rfl⟩

theorem incref_spec {s : State} {ex : List Nat} {m : Nat} {M : Memo} (h : Inv s ex) (hm : s.heap m = some M) :
    ∃ s1, s.incref m = some s1 ∧ Inv s1 (m :: ex) ∧ Kp s s1 ∧ s1.strs = s.strs ∧
      s1.heap m = some { M with refcount := M.refcount + 1 } ∧ ∀ m', m' ≠ m → s1.heap m' = s.heap m' := by
  refine ⟨s.setMemo m (some { M with refcount := M.refcount + 1 }), by simp [State.incref, hm], ?_, kp_count hm, rfl, ?_, ?_⟩
  · refine inv_count h hm (by omega) ?_ ?_
    · have := (h.refs m M hm).1
      rw [List.count_cons_self]; omega
    · intro m' hc; rw [List.count_cons_of_ne (Ne.symm hc)]
  · exact Function.update_self ..
  · intro m' hc; exact Function.update_of_ne hc ..

theorem decref_spec {s : State} {ex : List Nat} {m : Nat} (h : Inv s (m :: ex)) :
    ∃ s1, s.decref m = some s1 ∧ Inv s1 ex ∧ Kp s s1 ∧ s1.strs = s.strs ∧ s1.next = s.next := by
  obtain ⟨M, hm⟩ := h.toks m (by simp)
  obtain ⟨h1, h2, h3⟩ := h.refs m M hm
  rw [List.count_cons_self] at h1
  unfold State.decref
  simp only [hm]
  rw [if_neg (by omega)]
  by_cases hc : M.refcount = 1
  · rw [if_pos hc]
    have hz : cnt s.strs m = 0 ∧ ex.count m = 0 := by omega
    have hheap : ∀ m' M', (s.setMemo m none).heap m' = some M' → m' ≠ m ∧ s.heap m' = some M' := by
      intro m' M' hx
      unfold State.setMemo at hx
      by_cases hc : m' = m
      · subst hc; simp only [Function.update_self] at hx; cases hx
      · simp only [Function.update_of_ne hc] at hx; exact ⟨hc, hx⟩
    have hne : ∀ m' M', m' ≠ m → s.heap m' = some M' → (s.setMemo m none).heap m' = some M' := by
      intro m' M' hc hx; unfold State.setMemo; simp only [Function.update_of_ne hc]; exact hx
    refine ⟨s.setMemo m none, rfl, ?_, ?_, rfl, rfl⟩
    · constructor
      · intro m' M' hx
        obtain ⟨h4, h5⟩ := hheap m' M' hx
        have := h.refs m' M' h5
        rw [List.count_cons_of_ne (Ne.symm h4)] at this; exact this
      · intro i r hr m' hm'
        have hx : m' ≠ m := by rintro rfl; have : 0 < cnt s.strs m' := cnt_pos hr hm'; omega
        obtain ⟨M', o, h4, h5, h6⟩ := h.held i r hr m' hm'
        exact ⟨M', o, hne m' M' hx h4, h5, h6⟩
      · intro m' hm'
        have hx : m' ≠ m := by rintro rfl; rw [← List.count_pos_iff] at hm'; omega
        obtain ⟨M', h4⟩ := h.toks m' (by simp [hm'])
        exact ⟨M', hne m' M' hx h4⟩
      · intro m' hm'
        cases hx : (s.setMemo m none).heap m' with
        | none => rfl
        | some M' =>
          have := (hheap m' M' hx).2
          rw [h.fresh m' hm'] at this; cases this
    · refine ⟨Nat.le_refl _, rfl, fun m' _ M' hM' => ⟨M', (hheap m' M' hM').2, Nat.le_refl _, rfl, fun _ _ => rfl⟩⟩
  · rw [if_neg hc]
    refine ⟨_, rfl, inv_count h hm (by omega) (by omega) ?_, kp_count hm, rfl, rfl⟩
    intro m' hx; rw [List.count_cons_of_ne (Ne.symm hx)]

/-- `tok` of the memo of `r` is released. -/
theorem deref_spec {s : State} {ex : List Nat} {r : Rep} (h : Inv s (tok (some r) ++ ex)) :
    ∃ s1, s.deref r = some s1 ∧ Inv s1 ex ∧ Kp s s1 ∧ s1.strs = s.strs ∧ s1.next = s.next := by
  unfold State.deref
  cases hm : r.memo with
  | none =>
    have : tok (some r) = [] := by simp [tok, hm]
    rw [this] at h
    exact ⟨s, rfl, h, Kp.refl s, rfl, rfl⟩
  | some m =>
    have : tok (some r) = [m] := by simp [tok, hm]
    rw [this] at h
    exact decref_spec h

theorem ref_spec {s : State} {ex : List Nat} {r : Rep} (h : Inv s ex) (hr : Wf s r) :
    ∃ s1, s.ref r = some s1 ∧ Inv s1 (tok (some r) ++ ex) ∧ Kp s s1 ∧ s1.strs = s.strs ∧ Wf s1 r := by
  unfold State.ref
  cases hm : r.memo with
  | none =>
    have : tok (some r) = [] := by simp [tok, hm]
    rw [this]
    exact ⟨s, rfl, h, Kp.refl s, rfl, hr⟩
  | some m =>
    have : tok (some r) = [m] := by simp [tok, hm]
    rw [this]
    obtain ⟨M, o, h1, h2, h3⟩ := hr m hm
    obtain ⟨s1, h4, h5, h6, h7, h8, _⟩ := incref_spec h h1
    refine ⟨s1, h4, h5, h6, h7, ?_⟩
    intro m' hm'
    rw [hm] at hm'; cases hm'
    exact ⟨_, o, h8, h2, h3⟩

theorem inv_setRep {s : State} {ex : List Nat} {i : Nat} {x : Option Rep} (hx : s.strs[i]? = some x) {y : Option Rep}
    (h : Inv s (tok y ++ ex)) (hy : ∀ r, y = some r → Wf s r) : Inv (s.setRep i y) (tok x ++ ex) := by
  constructor
  · intro m M hm
    have h1 := h.refs m M hm
    have h2 := cnt_set hx y m
    rw [List.count_append] at h1 ⊢
    refine ⟨?_, h1.2⟩
    show M.refcount = cnt (s.strs.set i y) m + _
    omega
  · intro j r hr
    have hr2 : (s.strs.set i y)[j]? = some (some r) := hr
    have hlt := (List.getElem?_eq_some_iff.1 hx).1
    rw [List.getElem?_set] at hr2
    by_cases hc : i = j
    · rw [if_pos hc, if_pos hlt] at hr2
      exact hy r (Option.some.inj hr2)
    · rw [if_neg hc] at hr2; exact h.held j r hr2
  · intro m hm
    rw [List.mem_append] at hm
    rcases hm with hm | hm
    · cases x with
      | none => cases hm
      | some r =>
        have hm : m ∈ r.memo.toList := hm
        rw [Option.mem_toList] at hm
        obtain ⟨M, _, h1, _⟩ := h.held i r hx m hm
        exact ⟨M, h1⟩
    · exact h.toks m (by simp [hm])
  · exact h.fresh

theorem inv_addRep {s : State} {ex : List Nat} {r : Rep} (h : Inv s (tok (some r) ++ ex)) (hr : Wf s r) : Inv (s.addRep r) ex := by
  constructor
  · intro m M hm
    have h1 := h.refs m M hm
    rw [List.count_append] at h1
    refine ⟨?_, h1.2⟩
    show M.refcount = cnt (s.strs ++ [some r]) m + _
    rw [cnt_append]; omega
  · intro j r' hr'
    have hr' : (s.strs ++ [some r])[j]? = some (some r') := hr'
    rw [List.getElem?_append] at hr'
    split at hr'
    · exact h.held j r' hr'
    · obtain ⟨h1, h2⟩ := List.getElem?_eq_some_iff.1 hr'
      simp only [List.length_singleton] at h1
      have h3 : j - s.strs.length = 0 := by omega
      simp only [h3, List.getElem_cons_zero, Option.some.injEq] at h2
      subst h2; exact hr
  · exact fun m hm => h.toks m (by simp [hm])
  · exact h.fresh

end Verif.Strings
