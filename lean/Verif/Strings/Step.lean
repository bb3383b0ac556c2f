import Verif.Strings.Refine

/-!
# Every operation on strings is one on values
-/
namespace Verif.Strings

variable {c : Nat → Nat → UInt8}

local notation "Rel" => RelC c

theorem Match.setRep {s : State} {x : Option Rep} {a : AVal} (h : Match s x a) (i : Nat) (y : Option Rep) : Match (s.setRep i y) x a := by
  cases x <;> cases a <;> exact h

theorem RelC.get' {s : State} {ex : List Nat} {A : List AVal} (h : Rel s ex A) {i : Nat} {v : List UInt8} (hi : aget A i = some v) :
    ∃ r, s.rep i = some r ∧ s.strs[i]? = some (some r) ∧ Live s r v := by
  obtain ⟨r, h1, h2⟩ := h.get hi
  exact ⟨r, rep_eq h1, h1, h2⟩

/-- A reference is taken; the string remains. -/
theorem ref_live {s : State} {ex : List Nat} {r : Rep} {v : List UInt8} (h : Inv s ex) (hr : Live s r v) :
    ∃ s1, s.ref r = some s1 ∧ Inv s1 (tok (some r) ++ ex) ∧ Kp s s1 ∧ s1.strs = s.strs ∧ Live s1 r v := by
  obtain ⟨s1, h1, h2, h3, h4, h5⟩ := ref_spec h hr.wf
  exact ⟨s1, h1, h2, h3, h4, hr.keep h h3 fun m hm => by obtain ⟨M, _, h6, _⟩ := h5 m hm; exact ⟨M, h6⟩⟩

/-- A new string from one for which a reference is held. -/
theorem RelC.new {s s' : State} {A : List AVal} {r : Rep} {v : List UInt8} (h : Rel s [] A) (hi : Inv s' (tok (some r) ++ []))
    (hk : Kp s s') (hs : s'.strs = s.strs) (hl : Live s' r v) : Rel (s'.addRep r) [] (A ++ [.val v]) :=
  h.add (inv_addRep hi hl.wf) (hk.addRep r) (by show s'.strs ++ [some r] = _; rw [hs]) hl

theorem map_range_filter (n a b : Nat) (hb : b ≤ n) :
    (List.range n).filter (fun k => decide (a ≤ k ∧ k < b)) = (List.range (b - a)).map (a + ·) := by
  induction n generalizing b with
  | zero => have : b = 0 := by omega
            subst this; simp
  | succ n ih =>
    rw [List.range_succ, List.filter_append]
    by_cases hc : b = n + 1
    · subst hc
      have h0 : (List.range n).filter (fun k => decide (a ≤ k ∧ k < n + 1)) = (List.range n).filter (fun k => decide (a ≤ k ∧ k < n)) := by
        refine List.filter_congr fun k hk => ?_
        rw [List.mem_range] at hk
        exact decide_eq_decide.2 ⟨fun h => ⟨h.1, hk⟩, fun h => ⟨h.1, by omega⟩⟩
      rw [h0, ih n (Nat.le_refl _)]
      by_cases ha : a ≤ n
      · have : n + 1 - a = (n - a) + 1 := by omega
        rw [this, List.range_succ, List.map_append]
        have h1 : a + (n - a) = n := by omega
        simp [ha, h1]
      · have h1 : n + 1 - a = 0 := by omega
        have h2 : n - a = 0 := by omega
        rw [h1, h2]; simp; omega
    · rw [ih b (by omega)]
      have : [n].filter (fun k => decide (a ≤ k ∧ k < b)) = [] := by
        simp; omega
      rw [this, List.append_nil]

/-- What `substr` computes are the bounds. -/
theorem slice_eq (v : List UInt8) (pos len : Int) {a b : Int} (h : substrBounds pos len v.length = some (a, b)) :
    0 ≤ a ∧ b ≤ v.length ∧ slice v pos len = (v.drop a.toNat).take (b - a).toNat := by
  unfold substrBounds at h
  have hab : 0 ≤ a ∧ b ≤ v.length ∧ ∀ k : Nat, k < v.length → ((sliceFrom v.length pos ≤ k ∧ (k : Int) < sliceTo v.length pos len) ↔ a ≤ k ∧ (k : Int) < b) := by
    have hp : (if pos < 0 then pos + (v.length : Int) else pos) = sliceFrom v.length pos := by unfold sliceFrom; split <;> omega
    rw [hp] at h
    unfold sliceTo
    generalize sliceFrom v.length pos = p at h ⊢
    by_cases h1 : len < 0
    · simp only [if_pos h1, Option.some.injEq, Prod.mk.injEq] at h ⊢
      obtain ⟨rfl, rfl⟩ := h
      refine ⟨by split <;> omega, by split <;> omega, fun k hk => ?_⟩
      split <;> split <;> omega
    · simp only [if_neg h1] at h ⊢
      by_cases h2 : p ≥ 0 ∧ len ≥ (v.length : Int)
      · simp only [if_pos h2, Option.some.injEq, Prod.mk.injEq] at h
        obtain ⟨rfl, rfl⟩ := h
        refine ⟨by split <;> omega, by split <;> omega, fun k hk => ?_⟩
        split <;> split <;> omega
      · simp only [if_neg h2] at h
        by_cases h3 : p + len < 2 ^ 31
        · simp only [if_pos h3, Option.some.injEq, Prod.mk.injEq] at h
          obtain ⟨rfl, rfl⟩ := h
          refine ⟨by split <;> omega, by split <;> omega, fun k hk => ?_⟩
          split <;> split <;> omega
        · simp only [if_neg h3] at h; cases h
  refine ⟨hab.1, hab.2.1, ?_⟩
  unfold slice
  have hb0 : b.toNat ≤ v.length := by omega
  have h1 : (List.range v.length).filter (fun k : Nat => decide (sliceFrom v.length pos ≤ (k : Int) ∧ (k : Int) < sliceTo v.length pos len)) =
      (List.range v.length).filter (fun k => decide (a.toNat ≤ k ∧ k < b.toNat)) := by
    refine List.filter_congr fun k hk => ?_
    rw [List.mem_range] at hk
    refine decide_eq_decide.2 ((hab.2.2 k hk).trans ⟨fun h => ⟨by omega, by omega⟩, fun h => ⟨by omega, by omega⟩⟩)
  rw [h1, map_range_filter _ _ _ hb0, List.map_map]
  apply List.ext_getElem
  · simp; omega
  · intro k h2 h3
    simp only [List.length_map, List.length_range] at h2
    have hk : a.toNat + k < v.length := by omega
    simp [hk]

theorem substr_spec {s : State} {A : List AVal} {j : Nat} {v : List UInt8} {pos len : Int} (h : Rel s [] A) (hj : aget A j = some v)
    (hf : len < 0 ∨ (0 ≤ sliceFrom v.length pos ∧ (v.length : Int) ≤ len) ∨ sliceTo v.length pos len < 2 ^ 31) :
    ∃ s', s.substr j pos len = some s' ∧ Rel s' [] (A ++ [.val (slice v pos len)]) := by
  obtain ⟨r, h1, h2, h3⟩ := h.get' hj
  unfold State.substr
  simp only [h1]
  have hn : r.length = v.length := h3.1
  rw [hn]
  cases hb : substrBounds pos len v.length with
  | none =>
    exfalso
    unfold substrBounds at hb
    have hp : (if pos < 0 then pos + (v.length : Int) else pos) = sliceFrom v.length pos := by unfold sliceFrom; split <;> omega
    rw [hp] at hb
    unfold sliceTo at hf
    by_cases h1 : len < 0
    · simp only [if_pos h1] at hb; cases hb
    · simp only [if_neg h1] at hb hf
      by_cases h2 : sliceFrom v.length pos ≥ 0 ∧ len ≥ (v.length : Int)
      · simp only [if_pos h2] at hb; cases hb
      · simp only [if_neg h2] at hb
        by_cases h3 : sliceFrom v.length pos + len < 2 ^ 31
        · simp only [if_pos h3] at hb; cases hb
        · rcases hf with hf | hf | hf
          · exact h1 hf
          · exact h2 ⟨hf.1, hf.2⟩
          · exact h3 hf
  | some ab =>
    obtain ⟨a, b⟩ := ab
    obtain ⟨h4, h5, h6⟩ := slice_eq v pos len hb
    dsimp only
    rw [h6]
    split
    · have : (b - a).toNat = 0 := by omega
      rw [this, List.take_zero]
      exact ⟨_, rfl, h.new (v := []) (r := emptyRep) h.inv (Kp.refl s) rfl (live_empty s)⟩
    · obtain ⟨s1, h7, h8, h9, h10, h11⟩ := ref_live h.inv h3
      simp only [h7]
      refine ⟨_, rfl, ?_⟩
      have hl := h11.part (off := a.toNat) (len := (b - a).toNat) (by omega)
      exact h.new (r := ⟨r.data.add a.toNat, (b - a).toNat, r.memo⟩) h8 h9 h10 hl

/-- The characters of a string, or part of them, as an argument. -/
theorem srcOk_part {s : State} {i j : Nat} {r rj : Rep} {w : List UInt8} (hr : s.strs[i]? = some (some r))
    (hj : s.strs[j]? = some (some rj)) (hl : Live s rj w) {off len : Nat} (hlen : off + len ≤ w.length) :
    SrcOk s i r (.data (rj.data.add off) len) ((w.drop off).take len) := by
  refine ⟨rj.memo, hl.part hlen, fun m hm => ?_⟩
  by_cases hc : j = i
  · subst hc
    rw [hr] at hj; cases hj
    exact Or.inl hm
  · exact Or.inr ⟨j, rj, hc, hj, hm⟩

theorem srcOk_all {s : State} {i j : Nat} {r rj : Rep} {w : List UInt8} (hr : s.strs[i]? = some (some r))
    (hj : s.strs[j]? = some (some rj)) (hl : Live s rj w) : SrcOk s i r (.data rj.data rj.length) w := by
  refine ⟨rj.memo, hl, fun m hm => ?_⟩
  by_cases hc : j = i
  · subst hc
    rw [hr] at hj; cases hj
    exact Or.inl hm
  · exact Or.inr ⟨j, rj, hc, hj, hm⟩

/-- The string gets what a reference is held for, and lets its memo go. -/
theorem replace_spec {s s1 : State} {A : List AVal} {i : Nat} {r r' : Rep} {w : List UInt8} (h : Rel s [] A)
    (hr : s.strs[i]? = some (some r)) (hi : Inv s1 (tok (some r') ++ [])) (hk : Kp s s1) (hs : s1.strs = s.strs) (hl : Live s1 r' w) :
    ∃ s2, s1.deref r = some s2 ∧ Rel (s2.setRep i (some r')) [] (A.set i (.val w)) := by
  have h1 := inv_setRep (i := i) (x := some r) (by rw [hs]; exact hr) hi (by intro r hr; cases hr; exact hl.wf)
  obtain ⟨t, h2, h3, h4, h5, _⟩ := deref_spec h1
  rw [deref_setRep] at h2
  obtain ⟨s2, h6, rfl⟩ := Option.map_eq_some_iff.1 h2
  refine ⟨s2, h6, ?_⟩
  have hstr : (s2.setRep i (some r')).strs = s.strs.set i (some r') := by rw [h5]; show s1.strs.set i _ = _; rw [hs]
  refine h.set (x := some r') h3 ((hk.setRep i (some r')).trans h4) hstr ?_
  refine hl.keep hi (((Kp.refl s1).setRep i (some r')).trans h4) fun m hm => ?_
  refine h3.alive (Or.inr ⟨i, r', ?_, hm⟩)
  rw [hstr, List.getElem?_set_self (List.getElem?_eq_some_iff.1 hr).1]

theorem set_self {A : List AVal} {i : Nat} {a : AVal} (h : A[i]? = some a) : A.set i a = A := by
  obtain ⟨h1, h2⟩ := List.getElem?_eq_some_iff.1 h
  rw [← h2]; exact List.set_getElem_self h1

theorem aget_set {A : List AVal} {i : Nat} {v : List UInt8} (h : aget A i = some v) : A.set i (.val v) = A := by
  unfold aget at h
  split at h
  · rename_i w hw; cases h; exact set_self hw
  · cases h

/-- A program may write the new characters. -/
theorem extend_write {s : State} {A : List AVal} {i : Nat} {v l : List UInt8} (h : Rel s [] A) (hv : aget A i = some v) (hl : 0 < l.length) :
    ∃ s1 p s2 r, s.extend i l.length = some (s1, p) ∧ s1.write p l = some s2 ∧ Rel s2 [] (A.set i (.val (v ++ l))) ∧
      s2.strs = s.strs.set i (some r) ∧ Live s2 r (v ++ l) := by
  obtain ⟨r0, h1, h2, h3⟩ := h.get' hv
  obtain ⟨s1, p, h4, h5, h6, ⟨R⟩⟩ := extend_spec h.inv h2 h3 hl
  obtain ⟨s2, r, h7, h8, h9, -, h10, h11, -⟩ := room_write h5 h6 R rfl
  exact ⟨s1, p, s2, r, h4, h7, h.set (x := some r) h8 h9 h10 h11, h10, h11⟩

theorem add_zero (p : Ptr) : p.add 0 = p := by cases p <;> rfl

theorem cstr_spec {s : State} {A : List AVal} {i : Nat} {v : List UInt8} (h : Rel s [] A) (hv : aget A i = some v) :
    ∃ s' r', s.cstr i = some s' ∧ Rel s' [] A ∧ s'.strs[i]? = some (some r') ∧ s'.read r'.data (r'.length + 1) = some (v ++ [0]) := by
  obtain ⟨r, h1, h2, h3⟩ := h.get' hv
  have hlt := (List.getElem?_eq_some_iff.1 h2).1
  -- a NUL is added
  have hadd : ∃ s' r', (match s.extend i 1 with
      | none => none
      | some (s1, p) =>
        match s1.write p [0] with
        | none => none
        | some s2 =>
          match s2.rep i with
          | none => none
          | some r2 => some (s2.setRep i (some { r2 with length := r2.length - 1 }))) = some s' ∧ Rel s' [] A ∧
      s'.strs[i]? = some (some r') ∧ s'.read r'.data (r'.length + 1) = some (v ++ [0]) := by
    obtain ⟨s1, p, s2, r2, h4, h5, h6, h7, h8⟩ := extend_write (l := [0]) h hv (by decide)
    have hg : s2.strs[i]? = some (some r2) := by rw [h7, List.getElem?_set_self hlt]
    simp only [show s.extend i 1 = some (s1, p) from h4, h5, rep_eq hg]
    have hlen : r2.length = v.length + 1 := by rw [h8.1]; simp
    have hlive : Live s2 { r2 with length := r2.length - 1 } v := by
      have := h8.part (off := 0) (len := v.length) (by simp)
      rw [List.drop_zero, List.take_left, add_zero] at this
      rw [show r2.length - 1 = v.length by omega]; exact this
    refine ⟨_, { r2 with length := r2.length - 1 }, rfl, ?_, ?_, ?_⟩
    · have hinv : Inv (s2.setRep i (some { r2 with length := r2.length - 1 })) [] := inv_retarget h6.inv hg rfl hlive.wf
      have := h6.set (x := some { r2 with length := r2.length - 1 }) (a := .val v) hinv ((Kp.refl s2).setRep i _) rfl hlive
      rw [List.set_set, aget_set hv] at this
      exact this
    · show (s2.strs.set i _)[i]? = _
      rw [List.getElem?_set_self (by rw [h7, List.length_set]; exact hlt)]
    · have := h8.read h6.inv
      show s2.read r2.data (r2.length - 1 + 1) = _
      rw [show r2.length - 1 + 1 = r2.length by omega]; exact this
  -- it is there
  have hlook : (∀ (m : Nat) (M : Memo) (o : Nat), r.memo = some m → s.heap m = some M → r.data = .memo m o → o + r.length < M.dirty) →
      ∃ s' r', (match s.read (r.data.add r.length) 1 with
      | none => none
      | some l => if l = [0] then some s else (match s.extend i 1 with
      | none => none
      | some (s1, p) =>
        match s1.write p [0] with
        | none => none
        | some s2 =>
          match s2.rep i with
          | none => none
          | some r2 => some (s2.setRep i (some { r2 with length := r2.length - 1 })))) = some s' ∧ Rel s' [] A ∧
      s'.strs[i]? = some (some r') ∧ s'.read r'.data (r'.length + 1) = some (v ++ [0]) := by
    intro hd
    have : ∃ c, s.read (r.data.add r.length) 1 = some [c] ∧ s.read r.data (r.length + 1) = some (v ++ [c]) := by
      rcases h3.2 with ⟨_, c, o, h4, h5⟩ | ⟨m, M, o, h4, h5, h6, h7, h8⟩
      · refine ⟨s.const c (o + r.length), by rw [h4]; rfl, ?_⟩
        rw [h4, h5]
        show some ((List.range (r.length + 1)).map _) = _
        rw [List.range_succ, List.map_append]; rfl
      · have h9 := hd m M o h4 h5 h6
        have h10 := (h.inv.refs m M h5).2.2
        refine ⟨M.bytes (o + r.length), ?_, ?_⟩
        · rw [h6]
          show State.read s (.memo m (o + r.length)) 1 = _
          unfold State.read
          simp only [h5]
          rw [if_pos (by omega)]; rfl
        · rw [h6, h8]
          unfold State.read
          simp only [h5]
          rw [if_pos (by omega), List.range_succ, List.map_append]; rfl
    obtain ⟨c, h4, h5⟩ := this
    simp only [h4]
    by_cases hc : c = 0
    · subst hc
      rw [if_pos rfl]
      exact ⟨s, r, rfl, h, h2, h5⟩
    · rw [if_neg (by simpa using hc)]
      exact hadd
  unfold State.cstr
  simp only [h1]
  cases hm : r.memo with
  | none => exact hlook (by intro m M o h4; rw [hm] at h4; cases h4)
  | some m =>
    obtain ⟨M, o, h4, h5, h6⟩ := h.inv.held i r h2 m hm
    simp only [h4, h5, Ptr.add]
    split
    · exact hadd
    · rename_i hge
      have := hlook (by
        intro m' M' o' h7 h8 h9
        rw [hm] at h7; cases h7
        rw [h4] at h8; cases h8
        rw [h5] at h9; cases h9
        omega)
      rw [h5] at this
      exact this

theorem setRep_comm (s : State) {i j : Nat} (h : i ≠ j) (x y : Option Rep) : (s.setRep i x).setRep j y = (s.setRep j y).setRep i x := by
  unfold State.setRep
  simp only [List.set_comm x y h]

theorem step_rel {s : State} {A A' : List AVal} {o : Op} (h : Rel s [] A) (ha : astep c A o = some A') :
    ∃ s', s.step o = some s' ∧ Rel s' [] A' := by
  cases o with
  | empty =>
    cases ha
    exact ⟨_, rfl, h.new (r := emptyRep) h.inv (Kp.refl s) rfl (live_empty s)⟩
  | stable region off len =>
    cases ha
    exact ⟨_, rfl, h.new (r := ⟨.const region off, len, none⟩) h.inv (Kp.refl s) rfl ⟨by simp, Or.inl ⟨rfl, region, off, rfl, by rw [h.cst]⟩⟩⟩
  | bytes l =>
    cases ha
    obtain ⟨s1, r1, h1, h2, h3, h4, h5⟩ := fill_spec (src := .ext l) (w := l) h.inv rfl
    exact ⟨_, by simp only [State.step, h1]; rfl, h.new h2 h3 h4 h5⟩
  | copy j =>
    obtain ⟨v, hv, rfl⟩ := Option.map_eq_some_iff.1 ha
    obtain ⟨r, h1, h2, h3⟩ := h.get' hv
    obtain ⟨s1, h4, h5, h6, h7, h8⟩ := ref_live h.inv h3
    exact ⟨_, by simp only [State.step, h1, Option.bind_some, h4]; rfl, h.new h5 h6 h7 h8⟩
  | moveNew j =>
    obtain ⟨v, hv, rfl⟩ := Option.map_eq_some_iff.1 ha
    obtain ⟨r, h1, h2, h3⟩ := h.get' hv
    refine ⟨_, by simp only [State.step, h1]; rfl, ?_⟩
    have h4 := inv_setRep (ex := []) (y := some { r with memo := none }) h2 h.inv (by intro r' hr; cases hr; intro m hm; cases hm)
    have h5 : Rel (s.setRep j (some { r with memo := none })) (tok (some r) ++ []) (A.set j .moved) :=
      h.set (x := some { r with memo := none }) h4 ((Kp.refl s).setRep j _) rfl rfl
    refine h5.add (inv_addRep h4 h3.wf) ((Kp.refl _).addRep r) rfl h3
  | substr j pos len =>
    obtain ⟨v, hv, h1⟩ := Option.bind_eq_some_iff.1 ha
    split at h1
    · cases h1; exact substr_spec h hv (by assumption)
    · cases h1
  | unique j =>
    obtain ⟨v, hv, rfl⟩ := Option.map_eq_some_iff.1 ha
    obtain ⟨r, h1, h2, h3⟩ := h.get' hv
    simp only [State.step, h1, Option.bind_some]
    obtain ⟨s1, h4, h5, h6, h7, h8⟩ := ref_live h.inv h3
    cases hm : r.memo with
    | none =>
      simp only [State.ref, hm] at h4; cases h4
      exact ⟨_, rfl, h.new h5 h6 h7 h8⟩
    | some m =>
      obtain ⟨M, o, h9, _⟩ := h.inv.held j r h2 m hm
      simp only [h9, Option.bind_some]
      simp only [State.ref, hm] at h4
      split
      · exact ⟨_, by rw [h4]; rfl, h.new h5 h6 h7 h8⟩
      · obtain ⟨s2, r2, h10, h11, h12, h13, h14⟩ := fill_spec (src := .data r.data r.length) (w := v) h.inv
          ⟨r.memo, h3, fun m hm => Or.inr ⟨j, r, h2, hm⟩⟩
        exact ⟨_, by rw [h10]; rfl, h.new h11 h12 h13 h14⟩
  | destroy i =>
    simp only [astep] at ha
    split at ha
    · cases ha
      obtain ⟨r, a, h1, h2, h3⟩ := h.there (by assumption)
      obtain ⟨s1, h4, h5, h6, h7⟩ := drop_spec h.inv h1
      refine ⟨s1.setRep i none, by simp only [State.step, rep_eq h1, Option.bind_some, h4]; rfl, ?_⟩
      exact h.set (x := none) h5 h6 (by show s1.strs.set i none = _; rw [h7]) trivial
    · cases ha
  | assign i j =>
    simp only [astep] at ha
    split at ha
    · obtain ⟨w, hw, rfl⟩ := Option.map_eq_some_iff.1 ha
      obtain ⟨r, a, h1, h2, h3⟩ := h.there (by assumption)
      obtain ⟨r', h4, h5, h6⟩ := h.get' hw
      obtain ⟨s1, h7, h8, h9, h10, h11⟩ := ref_live h.inv h6
      obtain ⟨s2, h12, h13⟩ := replace_spec h h1 h8 h9 h10 h11
      exact ⟨_, by simp only [State.step, rep_eq h1, h4, h7, Option.bind_some, h12]; rfl, h13⟩
    · cases ha
  | moveAssign i j =>
    simp only [astep] at ha
    split at ha
    · rename_i hc
      obtain ⟨w, hw, rfl⟩ := Option.map_eq_some_iff.1 ha
      obtain ⟨r, a, h1, h2, h3⟩ := h.there hc.1
      obtain ⟨r', h4, h5, h6⟩ := h.get' hw
      obtain ⟨s1, h7, h8, h9, h10⟩ := drop_spec h.inv h1
      have hij := hc.2
      have hlt := (List.getElem?_eq_some_iff.1 h1).1
      have hstr : (s1.setRep i none).strs = s.strs.set i none := by show s1.strs.set i none = _; rw [h10]
      have hj : (s1.setRep i none).strs[j]? = some (some r') := by
        rw [hstr, List.getElem?_set_ne hij]; exact h5
      refine ⟨(s1.setRep i (some r')).setRep j (some { r' with memo := none }), ?_, ?_⟩
      · simp only [State.step, rep_eq h1, Option.bind_some, h7, rep_eq (show s1.strs[j]? = some (some r') by rw [h10]; exact h5)]; rfl
      · have hr1 : Rel (s1.setRep i none) [] (A.set i .gone) := h.set (x := none) h8 h9 hstr trivial
        have hl1 : Live (s1.setRep i none) r' w := h6.keep h.inv h9 fun m hm => h8.alive (Or.inr ⟨j, r', hj, hm⟩)
        have h11 := inv_setRep (ex := []) (y := some { r' with memo := none }) hj h8 (by intro r' hr; cases hr; intro m hm; cases hm)
        have hr2 : Rel ((s1.setRep i none).setRep j (some { r' with memo := none })) (tok (some r') ++ []) ((A.set i .gone).set j .moved) :=
          hr1.set (x := some { r' with memo := none }) h11 ((Kp.refl _).setRep j _) rfl rfl
        have hi2 : ((s1.setRep i none).setRep j (some { r' with memo := none })).strs[i]? = some none := by
          show ((s1.setRep i none).strs.set j _)[i]? = _
          rw [List.getElem?_set_ne (Ne.symm hij), hstr, List.getElem?_set_self hlt]
        have h12 := inv_setRep (ex := []) (y := some r') hi2 h11 (by intro r' hr; cases hr; exact hl1.wf)
        have hr3 := hr2.set (x := some r') (a := .val w) h12 ((Kp.refl _).setRep i _) rfl hl1
        rw [setRep_comm _ hij.symm, setRep_setRep] at hr3
        rw [List.set_comm _ _ hij.symm, List.set_set] at hr3
        exact hr3
    · cases ha
  | swap i j =>
    simp only [astep] at ha
    split at ha
    · rename_i hc
      obtain ⟨r, a, h1, h2, h3⟩ := h.there hc.1
      obtain ⟨r', b, h4, h5, h6⟩ := h.there hc.2
      simp only [h2, h5, Option.bind_some, Option.map_some, Option.some.injEq] at ha
      subst ha
      refine ⟨(s.setRep i (some r')).setRep j (some r), by simp only [State.step, rep_eq h1, rep_eq h4, Option.bind_some]; rfl, ?_⟩
      by_cases hij : i = j
      · subst hij
        rw [h2] at h5; cases h5
        rw [h1] at h4; cases h4
        rw [setRep_setRep, List.set_set, set_self h2]
        have : s.setRep i (some r) = s := by
          unfold State.setRep
          obtain ⟨h7, h8⟩ := List.getElem?_eq_some_iff.1 h1
          rw [← h8, List.set_getElem_self]
        rw [this]; exact h
      · have hlt := (List.getElem?_eq_some_iff.1 h1).1
        have k1 := inv_setRep (ex := []) (y := none) h1 h.inv (by intro r' hr; cases hr)
        have hr1 : Rel (s.setRep i none) (tok (some r) ++ []) (A.set i .gone) := h.set (x := none) k1 ((Kp.refl _).setRep i _) rfl trivial
        have hj : (s.setRep i none).strs[j]? = some (some r') := by
          show (s.strs.set i none)[j]? = _
          rw [List.getElem?_set_ne hij]; exact h4
        have k2 := inv_setRep (ex := []) (y := some r) hj k1 (by intro r2 hr; cases hr; exact h.inv.held i r h1)
        have hr2 := hr1.set (x := some r) (a := a) k2 ((Kp.refl _).setRep j _) rfl ((h3.setRep i none).setRep j _)
        have hi2 : ((s.setRep i none).setRep j (some r)).strs[i]? = some none := by
          show ((s.strs.set i none).set j _)[i]? = _
          rw [List.getElem?_set_ne (Ne.symm hij), List.getElem?_set_self hlt]
        have k3 := inv_setRep (ex := []) (y := some r') hi2 k2 (by intro r2 hr; cases hr; exact h.inv.held j r' h4)
        have hr3 := hr2.set (x := some r') (a := b) k3 ((Kp.refl _).setRep i _) rfl (((h6.setRep i none).setRep j _).setRep i _)
        rw [setRep_comm _ (Ne.symm hij), setRep_setRep] at hr3
        rw [List.set_comm _ _ (Ne.symm hij), List.set_set] at hr3
        exact hr3
    · cases ha
  | assignBytes i l =>
    simp only [astep] at ha
    split at ha
    · cases ha
      obtain ⟨r, a, h1, h2, h3⟩ := h.there (by assumption)
      exact assignSrc_spec (src := .ext l) h h1 rfl
    · cases ha
  | assignPart i j off len =>
    simp only [astep] at ha
    split at ha
    · obtain ⟨w, hw, h0⟩ := Option.bind_eq_some_iff.1 ha
      split at h0
      · cases h0
        obtain ⟨r, a, h1, h2, h3⟩ := h.there (by assumption)
        obtain ⟨r', h4, h5, h6⟩ := h.get' hw
        simp only [State.step, h4, Option.bind_some]
        exact assignSrc_spec h h1 (srcOk_part h1 h5 h6 (by assumption))
      · cases h0
    · cases ha
  | append i j =>
    simp only [astep] at ha
    obtain ⟨v, hv, h0⟩ := Option.bind_eq_some_iff.1 ha
    obtain ⟨w, hw, rfl⟩ := Option.map_eq_some_iff.1 h0
    obtain ⟨r, h1, h2, h3⟩ := h.get' hv
    obtain ⟨r', h4, h5, h6⟩ := h.get' hw
    simp only [State.step, h4, Option.bind_some]
    refine append_spec h hv h2 h3 (srcOk_all h2 h5 h6) fun m hm => ⟨_, _, rfl, by rw [← hm]; exact h6, ?_⟩
    by_cases hij : j = i
    · subst hij
      rw [h2] at h5; cases h5
      exact Or.inl rfl
    · exact Or.inr ⟨j, r', hij, h5, hm⟩
  | appendBytes i l =>
    simp only [astep] at ha
    obtain ⟨v, hv, rfl⟩ := Option.map_eq_some_iff.1 ha
    obtain ⟨r, h1, h2, h3⟩ := h.get' hv
    exact append_spec (src := .ext l) (memo := none) h hv h2 h3 rfl (by intro m hm; cases hm)
  | appendPart i j off len =>
    simp only [astep] at ha
    obtain ⟨v, hv, h0⟩ := Option.bind_eq_some_iff.1 ha
    obtain ⟨w, hw, h0⟩ := Option.bind_eq_some_iff.1 h0
    split at h0
    · cases h0
      obtain ⟨r, h1, h2, h3⟩ := h.get' hv
      obtain ⟨r', h4, h5, h6⟩ := h.get' hw
      simp only [State.step, h4, Option.bind_some]
      exact append_spec (memo := none) h hv h2 h3 (srcOk_part h2 h5 h6 (by assumption)) (by intro m hm; cases hm)
    · cases h0
  | appendFill i c len =>
    simp only [astep] at ha
    obtain ⟨v, hv, rfl⟩ := Option.map_eq_some_iff.1 ha
    obtain ⟨r, h1, h2, h3⟩ := h.get' hv
    simp only [State.step]
    split
    · subst len
      refine ⟨s, by rw [h1]; rfl, ?_⟩
      simp only [List.replicate_zero, List.append_nil]
      rw [aget_set hv]; exact h
    · obtain ⟨s1, p, s2, r2, h4, h5, h6, _⟩ := extend_write (l := List.replicate len c) h hv (by simp; omega)
      rw [List.length_replicate] at h4
      exact ⟨s2, by rw [h4]; exact h5, h6⟩
  | cstr i =>
    simp only [astep] at ha
    obtain ⟨v, hv, rfl⟩ := Option.map_eq_some_iff.1 ha
    obtain ⟨s', r', h1, h2, _⟩ := cstr_spec h hv
    exact ⟨s', h1, h2⟩
  | shrink i =>
    simp only [astep] at ha
    obtain ⟨v, hv, rfl⟩ := Option.map_eq_some_iff.1 ha
    obtain ⟨r, h1, h2, h3⟩ := h.get' hv
    simp only [State.step, h1, Option.bind_some]
    cases hm : r.memo with
    | none => exact ⟨s, rfl, h⟩
    | some m =>
      obtain ⟨M, o, h9, _⟩ := h.inv.held i r h2 m hm
      simp only [h9, Option.bind_some]
      split
      · obtain ⟨s2, r2, h10, h11, h12, h13, h14⟩ := fill_spec (src := .data r.data r.length) (w := v) h.inv
          ⟨r.memo, h3, fun m hm => Or.inr ⟨i, r, h2, hm⟩⟩
        obtain ⟨s3, h15, h16⟩ := replace_spec h h2 h11 h12 h13 h14
        rw [aget_set hv] at h16
        exact ⟨_, by rw [h10]; simp only [Option.bind_some, h15]; rfl, h16⟩
      · exact ⟨s, rfl, h⟩

theorem run_rel {s : State} {A A' : List AVal} {l : List Op} (h : Rel s [] A) (ha : arun c A l = some A') :
    ∃ s', s.run l = some s' ∧ Rel s' [] A' := by
  induction l generalizing s A with
  | nil => cases ha; exact ⟨s, rfl, h⟩
  | cons o l ih =>
    obtain ⟨A1, h1, h2⟩ := Option.bind_eq_some_iff.1 ha
    obtain ⟨s1, h3, h4⟩ := step_rel h h1
    obtain ⟨s', h5, h6⟩ := ih h4 h2
    exact ⟨s', by simp only [State.run, h3, Option.bind_some, h5], h6⟩

end Verif.Strings
