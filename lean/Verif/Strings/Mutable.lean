import Verif.Strings.Step

/-!
# `mutable_data` of strings that share nothing
-/
namespace Verif.Strings

variable {c : Nat → Nat → UInt8}

local notation "Rel" => RelC c

theorem poke_of_ge {b : Nat → UInt8} {o x : Nat} {l : List UInt8} (h : o + l.length ≤ x) : poke b o l x = b x := by
  unfold poke
  split
  · rw [List.getElem?_eq_none (by omega)]; rfl
  · rfl

/-- A byte of a memo that only string `i` holds is changed. -/
theorem write_own {s : State} {A : List AVal} {i : Nat} {r : Rep} {v : List UInt8} {m : Nat} (h : Rel s [] A) (hr : s.strs[i]? = some (some r))
    (hl : Live s r v) (hm : r.memo = some m)
    (ho : ∀ (j : Nat) (r' : Rep), j ≠ i → s.strs[j]? = some (some r') → r'.memo ≠ some m) {k : Nat} (hk : k < v.length) (b : UInt8) :
    ∃ s', s.write (r.data.add k) [b] = some s' ∧ Rel s' [] (A.set i (.val (v.set k b))) := by
  rcases hl.2 with ⟨h1, _⟩ | ⟨m', M, o, h1, h2, h3, h4, h5⟩
  · rw [hm] at h1; cases h1
  rw [hm] at h1; cases h1
  have hlen := hl.1
  have hcap := (h.inv.refs m M h2).2.2
  let M' : Memo := { M with bytes := poke M.bytes (o + k) [b] }
  have hself : (s.setMemo m (some M')).heap m = some M' := Function.update_self ..
  have hne : ∀ m', m' ≠ m → (s.setMemo m (some M')).heap m' = s.heap m' := fun m' hx => Function.update_of_ne hx ..
  refine ⟨s.setMemo m (some M'), ?_, ?_⟩
  · rw [h3]
    unfold State.write Ptr.add
    simp only [h2]
    rw [if_pos (by simp; omega)]
  have hinv : Inv (s.setMemo m (some M')) [] := by
    constructor
    · intro m1 M1 hx
      by_cases hc : m1 = m
      · subst hc
        rw [hself] at hx; cases hx
        exact h.inv.refs m1 M h2
      · rw [hne m1 hc] at hx; exact h.inv.refs m1 M1 hx
    · intro j rj hj m1 hm1
      obtain ⟨M1, o1, h6, h7, h8⟩ := h.inv.held j rj hj m1 hm1
      by_cases hc : m1 = m
      · subst hc
        rw [h2] at h6; cases h6
        exact ⟨M', o1, hself, h7, h8⟩
      · exact ⟨M1, o1, by rw [hne m1 hc]; exact h6, h7, h8⟩
    · intro m1 hm1; cases hm1
    · intro m1 hm1
      have := h.inv.fresh m1 hm1
      have hc : m1 ≠ m := by rintro rfl; rw [this] at h2; cases h2
      rw [hne m1 hc]; exact this
  refine ⟨h.cst, hinv, ?_, ?_⟩
  · show s.strs.length = _
    rw [List.length_set]; exact h.len
  intro j x a hx ha
  have hx : s.strs[j]? = some x := hx
  rw [List.getElem?_set] at ha
  by_cases hc : i = j
  · subst hc
    rw [if_pos rfl] at ha
    split at ha
    · cases ha
      rw [hr] at hx; cases hx
      refine ⟨by rw [List.length_set]; exact hlen, Or.inr ⟨m, M', o, hm, hself, h3, h4, ?_⟩⟩
      apply List.ext_getElem
      · simp [hlen]
      · intro n h6 h7
        simp only [List.getElem_map, List.getElem_range]
        simp only [List.length_map, List.length_range] at h7
        show _ = poke M.bytes (o + k) [b] (o + n)
        rw [List.getElem_set]
        by_cases hkn : k = n
        · subst hkn
          rw [if_pos rfl]
          exact (poke_get (l := [b]) (k := 0) (by simp)).symm
        · rw [if_neg hkn]
          have : v[n]'(by omega) = M.bytes (o + n) := by simp only [h5, List.getElem_map, List.getElem_range]
          rw [this]
          by_cases hlt : n < k
          · rw [poke_lt (by omega)]
          · rw [poke_of_ge (by simp; omega)]
    · cases ha
  · rw [if_neg hc] at ha
    have := h.agree j x a hx ha
    cases x with
    | none => cases a <;> exact this
    | some rj =>
      cases a with
      | gone => exact this
      | moved => exact this
      | val w =>
        refine ⟨this.1, ?_⟩
        rcases this.2 with h6 | ⟨m1, M1, o1, h6, h7, h8⟩
        · exact Or.inl h6
        · refine Or.inr ⟨m1, M1, o1, h6, ?_, h8⟩
          rw [hne m1 (by rintro rfl; exact ho j rj (Ne.symm hc) hx h6)]; exact h7

/-- After `mutable_data` of a string whose memo, if any, it alone holds, it alone holds its memo. -/
theorem mutable_spec {s : State} {A : List AVal} {i : Nat} {v : List UInt8} (h : Rel s [] A) (hv : aget A i = some v)
    (ho : ∀ (j : Nat) (r r' : Rep) (m : Nat), j ≠ i → s.strs[i]? = some (some r) → s.strs[j]? = some (some r') → r.memo = some m → r'.memo ≠ some m) :
    ∃ s' r', s.mutableData i = some s' ∧ Rel s' [] A ∧ s'.strs[i]? = some (some r') ∧ Live s' r' v ∧
      (v ≠ [] → ∃ m, r'.memo = some m ∧ ∀ (j : Nat) (rj : Rep), j ≠ i → s'.strs[j]? = some (some rj) → rj.memo ≠ some m) := by
  obtain ⟨r, h1, h2, h3⟩ := h.get' hv
  have hlt := (List.getElem?_eq_some_iff.1 h2).1
  have hsh : s.isShared r = some true := by
    unfold State.isShared
    cases hm : r.memo with
    | none => rfl
    | some m =>
      obtain ⟨M, o, h4, _⟩ := h.inv.held i r h2 m hm
      simp only [h4]
      have h5 := (h.inv.refs m M h4).1
      have h6 := cnt_set h2 none m
      have h7 : cnt (s.strs.set i none) m = 0 := by
        by_contra hc
        have : 0 < cnt (s.strs.set i none) m := by omega
        unfold cnt at this
        rw [List.countP_pos_iff] at this
        obtain ⟨x, hx, hx2⟩ := this
        obtain ⟨j, hj, rfl⟩ := List.mem_iff_getElem.1 hx
        have hj2 : (s.strs.set i none)[j]? = some (s.strs.set i none)[j] := List.getElem?_eq_getElem hj
        generalize (s.strs.set i none)[j] = x at hj2 hx2
        cases x with
        | none => simp at hx2
        | some rj =>
          rw [List.getElem?_set] at hj2
          by_cases hc : i = j
          · rw [if_pos hc] at hj2; split at hj2 <;> cases hj2
          · rw [if_neg hc] at hj2
            simp only [Option.bind_some, decide_eq_true_eq] at hx2
            exact ho j r rj m (Ne.symm hc) h2 hj2 hm hx2
      have h8 : (tok (some r)).count m = 1 := by simp [tok, hm]
      have h9 : (tok none).count m = 0 := rfl
      simp only [List.count_nil] at h5
      have : M.refcount = 1 := by omega
      rw [this]; rfl
  unfold State.mutableData
  simp only [h1, hsh]
  obtain ⟨s1, h4, h5, h6, h7, h8⟩ := ref_live h.inv h3
  obtain ⟨s2, h9, h10, h11, h12, _⟩ := deref_spec h5
  have hs2 : s2.strs = s.strs := h12.trans h7
  have hr2 : Rel s2 [] A := h.same h10 (h6.trans h11) hs2
  have h2' : s2.strs[i]? = some (some r) := by rw [hs2]; exact h2
  have h3' : Live s2 r v := h3.keep h.inv (h6.trans h11) fun m hm => h10.alive (Or.inr ⟨i, r, h2', hm⟩)
  obtain ⟨s3, r3, h13, h14, h15, h16, h17⟩ := fill_spec (src := .data r.data r.length) (w := v) h10
    ⟨r.memo, h3', fun m hm => Or.inr ⟨i, r, h2', hm⟩⟩
  simp only [h4, h9, h13]
  obtain ⟨s4, h18, h19⟩ := replace_spec hr2 h2' h14 h15 h16 h17
  rw [deref_setRep, h18]
  have hstr : (s4.setRep i (some r3)).strs[i]? = some (some r3) := by
    show (s4.strs.set i _)[i]? = _
    have : s4.strs.length = s.strs.length := by
      have := h19.len
      rw [List.length_set, ← h.len] at this
      have h20 : (s4.setRep i (some r3)).strs.length = s4.strs.length := List.length_set ..
      omega
    rw [List.getElem?_set_self (by omega)]
  have hlive : Live (s4.setRep i (some r3)) r3 v := by
    have hlt2 : i < (A.set i (AVal.val v)).length := by rw [List.length_set, ← h.len]; exact hlt
    exact h19.agree i _ _ hstr (List.getElem?_set_self (by rw [← h.len]; exact hlt))
  refine ⟨_, r3, rfl, by rw [aget_set hv] at h19; exact h19, hstr, hlive, fun hne => ?_⟩
  have hpos : (Src.data r.data r.length).len ≠ 0 := by show r.length ≠ 0; rw [h3.1]; intro hx; exact hne (List.eq_nil_of_length_eq_zero hx)
  have hm3 : r3.memo = some s2.next := by
    unfold State.fill at h13
    rw [if_neg hpos] at h13
    split at h13
    · cases h13
    · cases h13; rfl
  refine ⟨s2.next, hm3, fun j rj hj hrj hmj => ?_⟩
  have hrj2 : (s4.strs.set i (some r3))[j]? = some (some rj) := hrj
  rw [List.getElem?_set_ne (Ne.symm hj)] at hrj2
  have hs4 : s4.strs = s.strs := by
    obtain ⟨t, ht, _, _, ht2⟩ := drop_spec (s := s3) (r := r) (ex := tok (some r3) ++ []) (i := i) h14 (by rw [h16]; exact h2')
    rw [h18] at ht; cases ht
    rw [ht2, h16, hs2]
  rw [hs4, ← hs2] at hrj2
  obtain ⟨M, hM⟩ := h10.alive (Or.inr ⟨j, rj, hrj2, hmj⟩)
  exact absurd (h10.lt hM) (by omega)

end Verif.Strings
