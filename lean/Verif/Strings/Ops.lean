import Verif.Strings.Inv

/-!
# What the parts of operations do
-/
namespace Verif.Strings

theorem poke_lt {b : Nat → UInt8} {o x : Nat} {l : List UInt8} (h : x < o) : poke b o l x = b x := if_neg (by omega)

theorem poke_get {b : Nat → UInt8} {o : Nat} {l : List UInt8} {k : Nat} (h : k < l.length) : poke b o l (o + k) = l[k] := by
  unfold poke
  rw [if_pos (by omega), Nat.add_sub_cancel_left, List.getElem?_eq_getElem h]; rfl

theorem range_poke (b : Nat → UInt8) (o : Nat) (l : List UInt8) : ((List.range l.length).map fun k => poke b o l (o + k)) = l := by
  apply List.ext_getElem
  · simp
  · intro k h1 h2
    simp only [List.getElem_map, List.getElem_range]
    exact poke_get h2

/-- Someone holds the memo. -/
def Holds (strs : List (Option Rep)) (ex : List Nat) (m : Nat) : Prop :=
  m ∈ ex ∨ ∃ (j : Nat) (r : Rep), strs[j]? = some (some r) ∧ r.memo = some m

theorem Inv.alive {s : State} {ex : List Nat} {m : Nat} (h : Inv s ex) (hm : Holds s.strs ex m) : ∃ M, s.heap m = some M := by
  rcases hm with hm | ⟨j, r, hr, hm⟩
  · exact h.toks m hm
  · obtain ⟨M, _, h1, _⟩ := h.held j r hr m hm
    exact ⟨M, h1⟩

theorem Inv.lt {s : State} {ex : List Nat} {m : Nat} {M : Memo} (h : Inv s ex) (hm : s.heap m = some M) : m < s.next := by
  by_contra hc
  rw [h.fresh m (by omega)] at hm; cases hm

theorem create_spec {s : State} {ex : List Nat} (h : Inv s ex) {cap dirty : Nat} {l : List UInt8} (hd : dirty ≤ cap) :
    Inv (s.create cap dirty l) (s.next :: ex) ∧ Kp s (s.create cap dirty l) ∧ (s.create cap dirty l).strs = s.strs ∧
      (s.create cap dirty l).heap s.next = some ⟨1, cap, dirty, poke (fun _ => 0) 0 l⟩ ∧ (s.create cap dirty l).next = s.next + 1 := by
  have hnone := h.fresh s.next (Nat.le_refl _)
  have hself : (s.create cap dirty l).heap s.next = some ⟨1, cap, dirty, poke (fun _ => 0) 0 l⟩ := Function.update_self ..
  have hne : ∀ m, m ≠ s.next → (s.create cap dirty l).heap m = s.heap m := fun m hm => Function.update_of_ne hm ..
  have hsome : ∀ m M, s.heap m = some M → (s.create cap dirty l).heap m = some M := by
    intro m M hm
    rw [hne m (by have := h.lt hm; omega)]; exact hm
  have hc : cnt s.strs s.next = 0 := by
    unfold cnt
    rw [List.countP_eq_zero]
    intro x hx hx2
    rw [decide_eq_true_eq] at hx2
    obtain ⟨j, hj⟩ := List.mem_iff_getElem?.1 hx
    cases x with
    | none => cases hx2
    | some r =>
      obtain ⟨M, _, h1, _⟩ := h.held j r hj s.next hx2
      rw [hnone] at h1; cases h1
  have he : ex.count s.next = 0 := by
    rw [List.count_eq_zero]
    intro hx
    obtain ⟨M, h1⟩ := h.toks s.next hx
    rw [hnone] at h1; cases h1
  refine ⟨?_, ?_, rfl, hself, rfl⟩
  · constructor
    · intro m M hm
      by_cases hx : m = s.next
      · subst hx
        rw [hself] at hm
        cases hm
        refine ⟨?_, Nat.one_pos, hd⟩
        show 1 = cnt s.strs s.next + _
        rw [List.count_cons_self]; omega
      · rw [hne m hx] at hm
        rw [List.count_cons_of_ne (Ne.symm hx)]
        exact h.refs m M hm
    · intro i r hr m hm
      obtain ⟨M, o, h1, h2, h3⟩ := h.held i r hr m hm
      exact ⟨M, o, hsome m M h1, h2, h3⟩
    · intro m hm
      rw [List.mem_cons] at hm
      rcases hm with rfl | hm
      · exact ⟨_, hself⟩
      · obtain ⟨M, h1⟩ := h.toks m hm
        exact ⟨M, hsome m M h1⟩
    · intro m hm
      have hm : s.next + 1 ≤ m := hm
      rw [hne m (by omega)]
      exact h.fresh m (by omega)
  · refine ⟨Nat.le_succ _, rfl, fun m hm M' hM' => ?_⟩
    rw [hne m (by omega)] at hM'
    exact ⟨M', hM', Nat.le_refl _, rfl, fun _ _ => rfl⟩

/-! ## Operations on the heap do not depend on strings -/

theorem decref_setRep (s : State) (i : Nat) (y : Option Rep) (m : Nat) :
    (s.setRep i y).decref m = (s.decref m).map fun s1 => s1.setRep i y := by
  unfold State.decref
  show (match s.heap m with | none => none | some M => _) = Option.map _ (match s.heap m with | none => none | some M => _)
  cases s.heap m with
  | none => rfl
  | some M =>
    dsimp only
    split
    · rfl
    · split <;> rfl

theorem deref_setRep (s : State) (i : Nat) (y : Option Rep) (r : Rep) :
    (s.setRep i y).deref r = (s.deref r).map fun s1 => s1.setRep i y := by
  unfold State.deref
  cases r.memo with
  | none => rfl
  | some m => exact decref_setRep s i y m

theorem incref_setRep (s : State) (i : Nat) (y : Option Rep) (m : Nat) :
    (s.setRep i y).incref m = (s.incref m).map fun s1 => s1.setRep i y := by
  unfold State.incref
  show (match s.heap m with | none => none | some M => _) = Option.map _ (match s.heap m with | none => none | some M => _)
  cases s.heap m <;> rfl

theorem get_setRep (s : State) (i : Nat) (y : Option Rep) (src : Src) : src.get (s.setRep i y) = src.get s := rfl

theorem fill_setRep (s : State) (i : Nat) (y : Option Rep) (src : Src) :
    (s.setRep i y).fill src = (s.fill src).map fun x => (x.1.setRep i y, x.2) := by
  unfold State.fill
  rw [get_setRep]
  split
  · rfl
  · cases src.get s <;> rfl

theorem setRep_setRep (s : State) (i : Nat) (x y : Option Rep) : (s.setRep i x).setRep i y = s.setRep i y := by
  unfold State.setRep
  simp only [List.set_set]

/-- The characters of the argument are `w`. -/
def SrcLive (s : State) (ex : List Nat) (src : Src) (w : List UInt8) : Prop :=
  match src with
  | .ext l => w = l
  | .data p n => ∃ mo, Live s ⟨p, n, mo⟩ w ∧ ∀ m, mo = some m → Holds s.strs ex m

theorem SrcLive.len {s : State} {ex : List Nat} {src : Src} {w : List UInt8} (h : SrcLive s ex src w) : src.len = w.length := by
  cases src with
  | ext l => exact congrArg List.length (Eq.symm h)
  | data p n => obtain ⟨mo, h1, _⟩ := h; exact h1.1

theorem SrcLive.get {s : State} {ex ex' : List Nat} {src : Src} {w : List UInt8} (hi : Inv s ex') (h : SrcLive s ex src w) :
    src.get s = some w := by
  cases src with
  | ext l => exact congrArg some (Eq.symm h)
  | data p n => obtain ⟨mo, h1, _⟩ := h; exact h1.read hi

/-- The argument is still there if who held its memo still does. -/
theorem SrcLive.keep {s s' : State} {ex ex' : List Nat} {src : Src} {w : List UInt8} (hi : Inv s ex) (hi' : Inv s' ex')
    (hk : Kp s s') (hh : ∀ m, Holds s.strs ex m → Holds s'.strs ex' m) (h : SrcLive s ex src w) : SrcLive s' ex' src w := by
  cases src with
  | ext l => exact h
  | data p n =>
    obtain ⟨mo, h1, h2⟩ := h
    exact ⟨mo, h1.keep hi hk (fun m hm => hi'.alive (hh m (h2 m hm))), fun m hm => hh m (h2 m hm)⟩

theorem fill_spec {s : State} {ex : List Nat} {src : Src} {w : List UInt8} (h : Inv s ex) (hs : SrcLive s ex src w) :
    ∃ s1 r1, s.fill src = some (s1, r1) ∧ Inv s1 (tok (some r1) ++ ex) ∧ Kp s s1 ∧ s1.strs = s.strs ∧ Live s1 r1 w := by
  unfold State.fill
  by_cases hc : src.len = 0
  · rw [if_pos hc]
    have hw : w = [] := by have := hs.len; rw [hc] at this; exact List.eq_nil_of_length_eq_zero this.symm
    subst hw
    exact ⟨s, emptyRep, rfl, h, Kp.refl s, rfl, live_empty s⟩
  · rw [if_neg hc, hs.get h]
    have hcap : src.len ≤ (src.len + 15 + memoSpace) / 16 * 16 - memoSpace := by unfold memoSpace; omega
    obtain ⟨h1, h2, h3, h4, h5⟩ := create_spec (l := w) h hcap
    refine ⟨_, _, rfl, h1, h2, h3, hs.len, Or.inr ⟨_, _, 0, rfl, h4, rfl, by simp, ?_⟩⟩
    rw [hs.len]
    exact (range_poke (fun _ => 0) 0 w).symm

/-- There is room for `len` characters at `p`, right behind the characters `v` of string `i`. -/
structure Room (s s' : State) (i : Nat) (v : List UInt8) (len : Nat) (p : Ptr) where
  m : Nat
  o : Nat
  M : Memo
  ptr : p = .memo m (o + v.length)
  heap : s'.heap m = some M
  dirty : M.dirty = o + v.length + len
  cap : M.dirty ≤ M.capacity
  old : m < s.next → ∃ M0, s.heap m = some M0 ∧ M0.dirty = o + v.length ∧ M.capacity = M0.capacity ∧ M.bytes = M0.bytes
  strs : s'.strs = s.strs.set i (some ⟨.memo m o, v.length + len, some m⟩)
  bytes : v = (List.range v.length).map fun k => M.bytes (o + k)

theorem doubled_ge (c want : Nat) (hc : 0 < c) : want ≤ doubled c want := by
  induction c using doubled.induct want with
  | case1 c h ih => rw [doubled, dif_pos h]; exact ih (by omega)
  | case2 c h => rw [doubled, dif_neg h]; omega

theorem appendCapacity_ge (want : Nat) : want ≤ appendCapacity want := by
  unfold appendCapacity
  split
  · omega
  · exact doubled_ge _ _ (by decide)

theorem rep_eq {s : State} {i : Nat} {r : Rep} (h : s.strs[i]? = some (some r)) : s.rep i = some r := by
  simp [State.rep, h]

theorem extend_spec {s : State} {ex : List Nat} {i : Nat} {r : Rep} {v : List UInt8} (h : Inv s ex) (hr : s.strs[i]? = some (some r))
    (hv : Live s r v) {len : Nat} (hlen : 0 < len) :
    ∃ s' p, s.extend i len = some (s', p) ∧ Inv s' ex ∧ Kp s s' ∧ Nonempty (Room s s' i v len p) := by
  have hread := hv.read h
  -- the branch with a new memo
  have hfresh : ∃ s2, (s.create (appendCapacity (r.length + len + memoSpace) - memoSpace) (r.length + len) v).deref r = some s2 ∧
      let s' := s2.setRep i (some ⟨.memo s.next 0, r.length + len, some s.next⟩)
      Inv s' ex ∧ Kp s s' ∧ Nonempty (Room s s' i v len (.memo s.next r.length)) := by
    have hcap : r.length + len ≤ appendCapacity (r.length + len + memoSpace) - memoSpace := by
      have := appendCapacity_ge (r.length + len + memoSpace); omega
    obtain ⟨h1, h2, h3, h4, h5⟩ := create_spec (l := v) h hcap
    generalize s.create (appendCapacity (r.length + len + memoSpace) - memoSpace) (r.length + len) v = s1 at h1 h2 h3 h4 h5 ⊢
    have h6 := inv_setRep (s := s1) (i := i) (x := some r) (by rw [h3]; exact hr)
      (y := some ⟨.memo s.next 0, r.length + len, some s.next⟩) h1 (by
        intro r' hr' m hm
        cases hr'
        cases hm
        exact ⟨_, 0, h4, rfl, by simp⟩)
    obtain ⟨s', h7, h8, h9, h10, h11⟩ := deref_spec h6
    rw [deref_setRep] at h7
    obtain ⟨s2, h12, h13⟩ := Option.map_eq_some_iff.1 h7
    refine ⟨s2, h12, ?_⟩
    dsimp only
    rw [h13]
    have hk : Kp s s' := by
      refine h2.trans ?_
      exact ⟨h9.next, h9.const, h9.heap⟩
    have hstr : s'.strs = s.strs.set i (some ⟨.memo s.next 0, r.length + len, some s.next⟩) := by
      rw [h10]; show s1.strs.set i _ = _; rw [h3]
    refine ⟨h8, hk, ?_⟩
    have hlt : i < s.strs.length := (List.getElem?_eq_some_iff.1 hr).1
    obtain ⟨M, o, h14, _, _⟩ := h8.held i ⟨.memo s.next 0, r.length + len, some s.next⟩ (by
      rw [hstr, List.getElem?_set_self hlt]) s.next rfl
    obtain ⟨M1, h15, h16, h17, h18⟩ := h9.heap s.next (by show s.next < s1.next; omega) M h14
    have h15 : s1.heap s.next = some M1 := h15
    rw [h4] at h15
    cases h15
    have hM := (h8.refs s.next M h14).2.2
    -- dirty of the new memo does not change
    have hd : M.dirty = r.length + len := by
      have h20 : s2.heap s.next = some M := by rw [← h13] at h14; exact h14
      have hkk : ∀ (sa sb : State) (r : Rep), sa.deref r = some sb → ∀ m Ma Mb, sa.heap m = some Ma → sb.heap m = some Mb →
          Mb.dirty = Ma.dirty := by
        intro sa sb r hd m Ma Mb ha hb
        unfold State.deref at hd
        cases hm : r.memo with
        | none => rw [hm] at hd; cases hd; rw [ha] at hb; cases hb; rfl
        | some m' =>
          rw [hm] at hd
          dsimp only at hd
          unfold State.decref at hd
          cases hx : sa.heap m' with
          | none => rw [hx] at hd; cases hd
          | some Mx =>
            rw [hx] at hd
            dsimp only at hd
            split at hd
            · cases hd
            · split at hd
              · cases hd
                by_cases hc : m = m'
                · subst hc; simp [State.setMemo] at hb
                · simp only [State.setMemo, Function.update_of_ne hc] at hb
                  rw [ha] at hb; cases hb; rfl
              · cases hd
                by_cases hc : m = m'
                · subst hc
                  simp only [State.setMemo, Function.update_self, Option.some.injEq] at hb
                  rw [ha] at hx; cases hx
                  subst hb; rfl
                · simp only [State.setMemo, Function.update_of_ne hc] at hb
                  rw [ha] at hb; cases hb; rfl
      exact hkk _ _ _ h12 _ _ _ h4 h20
    refine ⟨⟨s.next, 0, M, by rw [hv.1]; simp, h14, by rw [hd, hv.1]; omega, hM, fun hc => absurd hc (Nat.lt_irrefl _), ?_, ?_⟩⟩
    · rw [hstr, hv.1]
    · refine (range_poke (fun _ => 0) 0 v).symm.trans (List.map_congr_left fun k hk => ?_)
      rw [List.mem_range] at hk
      have := hv.1
      exact (h18 (0 + k) (by show 0 + k < r.length + len; omega)).symm
  obtain ⟨s2, hf1, hf2, hf3, hf4⟩ := hfresh
  unfold State.extend
  simp only [rep_eq hr, hread]
  rw [hf1]
  dsimp only
  cases hm : r.memo with
  | none => exact ⟨_, _, rfl, hf2, hf3, hf4⟩
  | some m =>
    rcases hv.2 with ⟨h1, _⟩ | ⟨m', M, o, h1, h2, h3, h4, h5⟩
    · rw [hm] at h1; cases h1
    rw [hm] at h1; cases h1
    simp only [h2]
    by_cases hc : M.capacity > M.dirty + len ∧ r.data.add r.length = .memo m M.dirty
    · rw [if_pos hc]
      have hd : o + r.length = M.dirty := by
        have := hc.2
        rw [h3] at this
        exact (Ptr.memo.inj this).2
      have hheap : ∀ m' M', (s.setMemo m (some { M with dirty := M.dirty + len })).heap m' = some M' →
          (m' = m ∧ M' = { M with dirty := M.dirty + len }) ∨ m' ≠ m ∧ s.heap m' = some M' := by
        intro m' M' hx
        unfold State.setMemo at hx
        by_cases hc : m' = m
        · subst hc; simp only [Function.update_self, Option.some.injEq] at hx; exact Or.inl ⟨rfl, hx.symm⟩
        · simp only [Function.update_of_ne hc] at hx; exact Or.inr ⟨hc, hx⟩
      have hself : (s.setMemo m (some { M with dirty := M.dirty + len })).heap m = some { M with dirty := M.dirty + len } :=
        Function.update_self ..
      have hex : ∀ m' M', s.heap m' = some M' → ∃ M2, (s.setMemo m (some { M with dirty := M.dirty + len })).heap m' = some M2 ∧
          M'.dirty ≤ M2.dirty := by
        intro m' M' hx
        by_cases hc : m' = m
        · subst hc; rw [h2] at hx; cases hx; exact ⟨_, hself, Nat.le_add_right ..⟩
        · exact ⟨M', by unfold State.setMemo; simp only [Function.update_of_ne hc]; exact hx, Nat.le_refl _⟩
      have hi1 : Inv (s.setMemo m (some { M with dirty := M.dirty + len })) ex := by
        constructor
        · intro m' M' hx
          rcases hheap m' M' hx with ⟨rfl, rfl⟩ | ⟨_, hx⟩
          · have := h.refs m' M h2
            exact ⟨this.1, this.2.1, by show M.dirty + len ≤ M.capacity; omega⟩
          · exact h.refs m' M' hx
        · intro j r' hr' m' hm'
          obtain ⟨M', o', h6, h7, h8⟩ := h.held j r' hr' m' hm'
          obtain ⟨M2, h9, h10⟩ := hex m' M' h6
          exact ⟨M2, o', h9, h7, by omega⟩
        · intro m' hm'
          obtain ⟨M', h6⟩ := h.toks m' hm'
          obtain ⟨M2, h9, _⟩ := hex m' M' h6
          exact ⟨M2, h9⟩
        · intro m' hm'
          have h6 := h.fresh m' hm'
          show Function.update s.heap m _ m' = none
          rw [Function.update_of_ne (by rintro rfl; rw [h6] at h2; cases h2)]; exact h6
      have hi2 : Inv ((s.setMemo m (some { M with dirty := M.dirty + len })).setRep i (some { r with length := r.length + len })) ex := by
        have hslot : (s.setMemo m (some { M with dirty := M.dirty + len })).strs[i]? = some (some r) := hr
        -- slot i holds the same memo as before
        have hcnt : ∀ m', cnt (s.strs.set i (some { r with length := r.length + len })) m' = cnt s.strs m' := by
          intro m'
          have := cnt_set hr (some { r with length := r.length + len }) m'
          have h6 : tok (some { r with length := r.length + len }) = tok (some r) := rfl
          rw [h6] at this; omega
        constructor
        · intro m' M' hx
          have := hi1.refs m' M' hx
          refine ⟨?_, this.2⟩
          show M'.refcount = cnt (s.strs.set i (some { r with length := r.length + len })) m' + _
          rw [hcnt]; exact this.1
        · intro j r' hr'
          have hr2 : (s.strs.set i (some { r with length := r.length + len }))[j]? = some (some r') := hr'
          have hlt := (List.getElem?_eq_some_iff.1 hr).1
          rw [List.getElem?_set] at hr2
          by_cases hx : i = j
          · rw [if_pos hx, if_pos hlt] at hr2
            cases hr2
            intro m' hm'
            have hm2 : r.memo = some m' := hm'
            rw [hm] at hm2
            cases hm2
            exact ⟨_, o, hself, h3, by show o + (r.length + len) ≤ M.dirty + len; omega⟩
          · rw [if_neg hx] at hr2; exact hi1.held j r' hr2
        · exact hi1.toks
        · exact hi1.fresh
      rw [hm] at hi2
      refine ⟨_, _, rfl, hi2, ?_, ?_⟩
      · refine ⟨Nat.le_refl _, rfl, fun m' _ M' hM' => ?_⟩
        rcases hheap m' M' hM' with ⟨rfl, rfl⟩ | ⟨_, hx⟩
        · exact ⟨M, h2, Nat.le_add_right .., rfl, fun _ _ => rfl⟩
        · exact ⟨M', hx, Nat.le_refl _, rfl, fun _ _ => rfl⟩
      · have hl := hv.1
        refine ⟨⟨m, o, { M with dirty := M.dirty + len }, by rw [← hd, hl], hself, by show M.dirty + len = _; omega, ?_, ?_, ?_, ?_⟩⟩
        · show M.dirty + len ≤ M.capacity; omega
        · intro _; exact ⟨M, h2, by omega, rfl, rfl⟩
        · show s.strs.set i _ = _
          rw [← hl, ← h3]
        · rw [← hl]; exact h5
    · rw [if_neg hc]; exact ⟨_, _, rfl, hf2, hf3, hf4⟩

theorem room_write {s s' : State} {ex : List Nat} {i : Nat} {v : List UInt8} {len : Nat} {p : Ptr}
    (h' : Inv s' ex) (hk : Kp s s') (R : Room s s' i v len p) {l : List UInt8} (hl : l.length = len) :
    ∃ s2 r, s'.write p l = some s2 ∧ Inv s2 ex ∧ Kp s s2 ∧ s2.strs = s'.strs ∧ s2.strs = s.strs.set i (some r) ∧ Live s2 r (v ++ l) ∧
      r.memo = some R.m ∧ ∃ M, s2.heap R.m = some M ∧ R.o + r.length = M.dirty := by
  obtain ⟨m, o, M, hp, hheap, hd, hc, hold, hstr, hb⟩ := R
  refine ⟨s'.setMemo m (some { M with bytes := poke M.bytes (o + v.length) l }), ⟨.memo m o, v.length + len, some m⟩, ?_, ?_, ?_, rfl, hstr, ?_,
    rfl, ?_⟩
  · rw [hp]
    unfold State.write
    simp only [hheap]
    rw [if_pos (by omega)]
  · have hh : ∀ m' M', s'.heap m' = some M' → ∃ M2, (s'.setMemo m (some { M with bytes := poke M.bytes (o + v.length) l })).heap m' = some M2 ∧
        M2.dirty = M'.dirty ∧ M2.capacity = M'.capacity ∧ M2.refcount = M'.refcount := by
      intro m' M' hx
      by_cases hc : m' = m
      · subst hc; rw [hheap] at hx; cases hx
        exact ⟨_, Function.update_self .., rfl, rfl, rfl⟩
      · exact ⟨M', by unfold State.setMemo; simp only [Function.update_of_ne hc]; exact hx, rfl, rfl, rfl⟩
    have hnone : ∀ m', s'.heap m' = none → (s'.setMemo m (some { M with bytes := poke M.bytes (o + v.length) l })).heap m' = none := by
      intro m' hx
      show Function.update s'.heap m _ m' = none
      rw [Function.update_of_ne (by rintro rfl; rw [hx] at hheap; cases hheap)]; exact hx
    constructor
    · intro m' M2 hx
      cases hy : s'.heap m' with
      | none => rw [hnone m' hy] at hx; cases hx
      | some M' =>
        obtain ⟨M3, h1, h2, h3, h4⟩ := hh m' M' hy
        rw [h1] at hx; cases hx
        have := h'.refs m' M' hy
        rw [h2, h3, h4]; exact this
    · intro j r hr m' hm'
      obtain ⟨M', o', h1, h2, h3⟩ := h'.held j r hr m' hm'
      obtain ⟨M3, h4, h5, _⟩ := hh m' M' h1
      exact ⟨M3, o', h4, h2, by omega⟩
    · intro m' hm'
      obtain ⟨M', h1⟩ := h'.toks m' hm'
      obtain ⟨M3, h4, _⟩ := hh m' M' h1
      exact ⟨M3, h4⟩
    · intro m' hm'; exact hnone m' (h'.fresh m' hm')
  · refine ⟨hk.next, hk.const, fun m' hm' M' hM' => ?_⟩
    by_cases hx : m' = m
    · subst hx
      have : M' = { M with bytes := poke M.bytes (o + v.length) l } := by
        have h1 : some M' = some _ := hM'.symm.trans (Function.update_self ..)
        exact Option.some.inj h1
      subst this
      obtain ⟨M0, h1, h2, h3, h4⟩ := hold hm'
      refine ⟨M0, h1, by show M0.dirty ≤ M.dirty; omega, h3, fun x hx => ?_⟩
      show poke M.bytes _ l x = _
      rw [poke_lt (by omega), h4]
    · have hM2 : s'.heap m' = some M' := by rw [← hM']; exact (Function.update_of_ne hx ..).symm
      exact hk.heap m' hm' M' hM2
  · refine ⟨by simp [hl], Or.inr ⟨m, { M with bytes := poke M.bytes (o + v.length) l }, o, rfl, Function.update_self .., rfl, ?_, ?_⟩⟩
    · show o + (v.length + len) ≤ M.dirty; omega
    · show v ++ l = (List.range (v.length + len)).map fun k => poke M.bytes (o + v.length) l (o + k)
      rw [List.range_add, List.map_append, List.map_map]
      congr 1
      · refine hb.trans (List.map_congr_left fun k hk => ?_)
        rw [List.mem_range] at hk
        rw [poke_lt (by omega)]
      · rw [← hl]
        refine (range_poke M.bytes (o + v.length) l).symm.trans (List.map_congr_left fun k _ => ?_)
        show _ = poke _ _ _ (o + (v.length + k))
        rw [Nat.add_assoc]
  · exact ⟨_, Function.update_self .., by show o + (v.length + len) = M.dirty; omega⟩

theorem holds_set {strs : List (Option Rep)} {ex : List Nat} {i m : Nat} {y : Option Rep}
    (h : m ∈ ex ∨ ∃ (j : Nat) (r : Rep), j ≠ i ∧ strs[j]? = some (some r) ∧ r.memo = some m) : Holds (strs.set i y) ex m := by
  rcases h with h | ⟨j, r, h1, h2, h3⟩
  · exact Or.inl h
  · exact Or.inr ⟨j, r, by rw [List.getElem?_set_ne (Ne.symm h1)]; exact h2, h3⟩

/-- An argument whose memo, if any, is held by others than string `i`. -/
def SrcSafe (s : State) (ex : List Nat) (i : Nat) (src : Src) (w : List UInt8) : Prop :=
  match src with
  | .ext l => w = l
  | .data p n => ∃ mo, Live s ⟨p, n, mo⟩ w ∧
      ∀ m, mo = some m → m ∈ ex ∨ ∃ (j : Nat) (r : Rep), j ≠ i ∧ s.strs[j]? = some (some r) ∧ r.memo = some m

theorem SrcSafe.live {s : State} {ex : List Nat} {i : Nat} {src : Src} {w : List UInt8} (h : SrcSafe s ex i src w) : SrcLive s ex src w := by
  cases src with
  | ext l => exact h
  | data p n =>
    obtain ⟨mo, h1, h2⟩ := h
    exact ⟨mo, h1, fun m hm => (h2 m hm).imp id fun ⟨j, r, _, h3, h4⟩ => ⟨j, r, h3, h4⟩⟩

theorem SrcSafe.get {s s' : State} {ex : List Nat} {i : Nat} {src : Src} {w : List UInt8} {y : Option Rep} (h : SrcSafe s ex i src w)
    (hi : Inv s ex) (hi' : Inv s' ex) (hk : Kp s s') (hs : s'.strs = s.strs.set i y) : SrcLive s' ex src w := by
  cases src with
  | ext l => exact h
  | data p n =>
    obtain ⟨mo, h1, h2⟩ := h
    have hh : ∀ m, mo = some m → Holds s'.strs ex m := fun m hm => by rw [hs]; exact holds_set (h2 m hm)
    exact ⟨mo, h1.keep hi hk (fun m hm => hi'.alive (hh m hm)), hh⟩

theorem extendCopy_spec {s : State} {ex : List Nat} {i : Nat} {r : Rep} {v w : List UInt8} {src : Src} (h : Inv s ex)
    (hr : s.strs[i]? = some (some r)) (hv : Live s r v) (hlen : 0 < src.len) (hs : SrcSafe s ex i src w) :
    ∃ s' r', s.extendCopy i src = some s' ∧ Inv s' ex ∧ Kp s s' ∧ s'.strs = s.strs.set i (some r') ∧ Live s' r' (v ++ w) := by
  obtain ⟨s1, p, h1, h2, h3, ⟨R⟩⟩ := extend_spec h hr hv hlen
  have h4 := hs.get h h2 h3 R.strs
  obtain ⟨s2, r', h5, h6, h7, -, h8, h9, -⟩ := room_write h2 h3 R (l := w) h4.len.symm
  refine ⟨s2, r', ?_, h6, h7, h8, h9⟩
  unfold State.extendCopy
  simp only [h1, h4.get h2, h5]

end Verif.Strings
