import Verif.Strings.Ops

/-!
# Strings behave as values
-/
namespace Verif.Strings

/-- What a program knows about a string: destroyed, moved from (nothing is known), or its characters. -/
inductive AVal where
  | gone
  | moved
  | val (v : List UInt8)
deriving DecidableEq

def aget (A : List AVal) (i : Nat) : Option (List UInt8) :=
  match A[i]? with
  | some (.val v) => some v
  | _ => none

def there (A : List AVal) (i : Nat) : Bool :=
  match A[i]? with
  | some (.val _) => true
  | some .moved => true
  | _ => false

/-- Where a substring begins; negative positions count from the end. -/
def sliceFrom (n pos : Int) : Int := if pos < 0 then n + pos else pos

/-- Where it ends; negative lengths leave as many characters off the end. -/
def sliceTo (n pos len : Int) : Int := if len < 0 then n + len else sliceFrom n pos + len

/-- The characters at positions from `sliceFrom` to before `sliceTo`. -/
def slice (v : List UInt8) (pos len : Int) : List UInt8 :=
  ((List.range v.length).filter fun k : Nat => decide (sliceFrom v.length pos ≤ (k : Int) ∧ (k : Int) < sliceTo v.length pos len)).map fun k => v.getD k 0

/-- What operations on values do.  No result if the program may not do it. -/
def astep (c : Nat → Nat → UInt8) (A : List AVal) : Op → Option (List AVal)
  | .empty => some (A ++ [.val []])
  | .stable region off len => some (A ++ [.val ((List.range len).map fun k => c region (off + k))])
  | .bytes l => some (A ++ [.val l])
  | .copy j => (aget A j).map fun v => A ++ [.val v]
  | .moveNew j => (aget A j).map fun v => A.set j .moved ++ [.val v]
  | .substr j pos len => (aget A j).bind fun v =>
      if len < 0 ∨ (0 ≤ sliceFrom v.length pos ∧ (v.length : Int) ≤ len) ∨ sliceTo v.length pos len < 2 ^ 31 then
        some (A ++ [.val (slice v pos len)]) else none
  | .unique j => (aget A j).map fun v => A ++ [.val v]
  | .destroy i => if there A i then some (A.set i .gone) else none
  | .assign i j => if there A i then (aget A j).map fun w => A.set i (.val w) else none
  | .moveAssign i j => if there A i ∧ i ≠ j then (aget A j).map fun w => (A.set i (.val w)).set j .moved else none
  | .swap i j => if there A i ∧ there A j then (A[i]?).bind fun a => (A[j]?).map fun b => (A.set i b).set j a else none
  | .assignBytes i l => if there A i then some (A.set i (.val l)) else none
  | .assignPart i j off len => if there A i then (aget A j).bind fun w =>
      if off + len ≤ w.length then some (A.set i (.val ((w.drop off).take len))) else none else none
  | .append i j => (aget A i).bind fun v => (aget A j).map fun w => A.set i (.val (v ++ w))
  | .appendBytes i l => (aget A i).map fun v => A.set i (.val (v ++ l))
  | .appendPart i j off len => (aget A i).bind fun v => (aget A j).bind fun w =>
      if off + len ≤ w.length then some (A.set i (.val (v ++ (w.drop off).take len))) else none
  | .appendFill i c len => (aget A i).map fun v => A.set i (.val (v ++ List.replicate len c))
  | .cstr i => (aget A i).map fun _ => A
  | .shrink i => (aget A i).map fun _ => A

def arun (c : Nat → Nat → UInt8) (A : List AVal) : List Op → Option (List AVal)
  | [] => some A
  | o :: l => (astep c A o).bind fun A1 => arun c A1 l

/-- A string has the value. -/
def Match (s : State) : Option Rep → AVal → Prop
  | none, .gone => True
  | some r, .moved => r.memo = none
  | some r, .val v => Live s r v
  | _, _ => False

/-- Constant data is `c`, and every string has its value. -/
structure RelC (c : Nat → Nat → UInt8) (s : State) (ex : List Nat) (A : List AVal) : Prop where
  cst : s.const = c
  inv : Inv s ex
  len : s.strs.length = A.length
  agree : ∀ (i : Nat) x a, s.strs[i]? = some x → A[i]? = some a → Match s x a

variable {c : Nat → Nat → UInt8}

local notation "Rel" => RelC c

theorem Match.keep {s s' : State} {ex ex' : List Nat} (hi : Inv s ex) (hi' : Inv s' ex') (hk : Kp s s') {j : Nat} {x : Option Rep} {a : AVal}
    (hx : s'.strs[j]? = some x) (h : Match s x a) : Match s' x a := by
  cases x with
  | none => cases a <;> exact h
  | some r =>
    cases a with
    | gone => exact h
    | moved => exact h
    | val v =>
      refine Live.keep hi hk (fun m hm => ?_) h
      exact hi'.alive (Or.inr ⟨j, r, hx, hm⟩)

theorem RelC.set {s s' : State} {ex ex' : List Nat} {A : List AVal} {i : Nat} {x : Option Rep} {a : AVal} (h : Rel s ex A)
    (hi' : Inv s' ex') (hk : Kp s s') (hs : s'.strs = s.strs.set i x) (hx : Match s' x a) : Rel s' ex' (A.set i a) := by
  refine ⟨hk.const.trans h.cst, hi', by rw [hs]; simp [h.len], fun j y b hy hb => ?_⟩
  have hy2 := hy
  rw [hs, List.getElem?_set] at hy2
  rw [List.getElem?_set] at hb
  by_cases hc : i = j
  · rw [if_pos hc] at hy2 hb
    split at hy2
    · split at hb
      · cases hy2; cases hb; exact hx
      · cases hb
    · cases hy2
  · rw [if_neg hc] at hy2 hb
    exact (h.agree j y b hy2 hb).keep h.inv hi' hk hy

theorem RelC.add {s s' : State} {ex ex' : List Nat} {A : List AVal} {r : Rep} {v : List UInt8} (h : Rel s ex A)
    (hi' : Inv s' ex') (hk : Kp s s') (hs : s'.strs = s.strs ++ [some r]) (hx : Live s' r v) : Rel s' ex' (A ++ [.val v]) := by
  refine ⟨hk.const.trans h.cst, hi', by rw [hs]; simp [h.len], fun j y b hy hb => ?_⟩
  have hy2 := hy
  rw [hs, List.getElem?_append] at hy2
  rw [List.getElem?_append, ← h.len] at hb
  split at hy2
  · rw [if_pos (by assumption)] at hb
    exact (h.agree j y b hy2 hb).keep h.inv hi' hk hy
  · rw [if_neg (by assumption)] at hb
    obtain ⟨h1, h2⟩ := List.getElem?_eq_some_iff.1 hy2
    obtain ⟨h3, h4⟩ := List.getElem?_eq_some_iff.1 hb
    simp only [List.length_singleton] at h1
    have h0 : j - s.strs.length = 0 := by omega
    simp only [h0, List.getElem_cons_zero] at h2 h4
    subst h2 h4; exact hx

theorem RelC.same {s s' : State} {ex ex' : List Nat} {A : List AVal} (h : Rel s ex A) (hi' : Inv s' ex') (hk : Kp s s')
    (hs : s'.strs = s.strs) : Rel s' ex' A :=
  ⟨hk.const.trans h.cst, hi', by rw [hs]; exact h.len, fun j y b hy hb => (h.agree j y b (by rw [← hs]; exact hy) hb).keep h.inv hi' hk hy⟩

theorem RelC.get {s : State} {ex : List Nat} {A : List AVal} (h : Rel s ex A) {i : Nat} {v : List UInt8} (hi : aget A i = some v) :
    ∃ r, s.strs[i]? = some (some r) ∧ Live s r v := by
  unfold aget at hi
  split at hi
  · rename_i w hw
    cases hi
    have hlt := (List.getElem?_eq_some_iff.1 hw).1
    rw [← h.len] at hlt
    have := h.agree i _ _ (List.getElem?_eq_getElem hlt) hw
    cases hx : s.strs[i] with
    | none => rw [hx] at this; exact this.elim
    | some r => rw [hx] at this; exact ⟨r, by rw [List.getElem?_eq_getElem hlt, hx], this⟩
  · cases hi

theorem RelC.there {s : State} {ex : List Nat} {A : List AVal} (h : Rel s ex A) {i : Nat} (hi : there A i = true) :
    ∃ r a, s.strs[i]? = some (some r) ∧ A[i]? = some a ∧ Match s (some r) a := by
  have : ∃ a, A[i]? = some a ∧ a ≠ .gone := by
    unfold Strings.there at hi
    split at hi
    · rename_i v hv; exact ⟨_, hv, by simp⟩
    · rename_i hv; exact ⟨_, hv, by simp⟩
    · cases hi
  obtain ⟨a, ha, hne⟩ := this
  have hlt := (List.getElem?_eq_some_iff.1 ha).1
  rw [← h.len] at hlt
  have hm := h.agree i _ _ (List.getElem?_eq_getElem hlt) ha
  cases hx : s.strs[i] with
  | none =>
    rw [hx] at hm
    cases a with
    | gone => exact absurd rfl hne
    | moved => exact hm.elim
    | val v => exact hm.elim
  | some r => rw [hx] at hm; exact ⟨r, a, by rw [List.getElem?_eq_getElem hlt, hx], ha, hm⟩

/-- A part of a string. -/
theorem Live.part {s : State} {r : Rep} {v : List UInt8} (h : Live s r v) {off len : Nat} (hl : off + len ≤ v.length) :
    Live s ⟨r.data.add off, len, r.memo⟩ ((v.drop off).take len) := by
  have hlen : len = ((v.drop off).take len).length := by simp; omega
  have key : ∀ (f : Nat → UInt8) (o : Nat), v = (List.range r.length).map (fun k => f (o + k)) →
      (v.drop off).take len = (List.range len).map fun k => f (o + off + k) := by
    intro f o hv
    apply List.ext_getElem
    · simp; omega
    · intro k h1 h2
      simp only [List.getElem_take, List.getElem_drop, List.getElem_map, List.getElem_range]
      simp only [hv, List.getElem_map, List.getElem_range, Nat.add_assoc]
  refine ⟨hlen, ?_⟩
  rcases h.2 with ⟨h1, c, o, h2, h3⟩ | ⟨m, M, o, h1, h2, h3, h4, h5⟩
  · exact Or.inl ⟨h1, c, o + off, by rw [h2]; rfl, key _ _ h3⟩
  · have := h.1
    exact Or.inr ⟨m, M, o + off, h1, h2, by rw [h3]; rfl, by show o + off + len ≤ _; omega, key _ _ h5⟩

/-- An argument whose memo, if any, is held by string `i` or by others. -/
def SrcOk (s : State) (i : Nat) (r : Rep) (src : Src) (w : List UInt8) : Prop :=
  match src with
  | .ext l => w = l
  | .data p n => ∃ mo, Live s ⟨p, n, mo⟩ w ∧
      ∀ m, mo = some m → r.memo = some m ∨ ∃ (j : Nat) (r : Rep), j ≠ i ∧ s.strs[j]? = some (some r) ∧ r.memo = some m

theorem SrcOk.len {s : State} {i : Nat} {r : Rep} {src : Src} {w : List UInt8} (h : SrcOk s i r src w) : src.len = w.length := by
  cases src with
  | ext l => exact congrArg List.length (Eq.symm h)
  | data p n => obtain ⟨mo, h1, _⟩ := h; exact h1.1

/-- If it is not in the memo of the string, others hold it. -/
theorem SrcOk.safe {s : State} {i : Nat} {r : Rep} {src : Src} {w : List UInt8} (hi : Inv s []) (h : SrcOk s i r src w)
    (hn : ∀ m M, r.memo = some m → s.heap m = some M → src.within m M = false) : SrcSafe s [] i src w := by
  cases src with
  | ext l => exact h
  | data p n =>
    obtain ⟨mo, h1, h2⟩ := h
    refine ⟨mo, h1, fun m hm => Or.inr ?_⟩
    rcases h2 m hm with h3 | h3
    · obtain ⟨M, o, h4, h5, h6⟩ := h1.wf m hm
      have h7 := hn m M h3 h4
      have h8 := (hi.refs m M h4).2.2
      have h5 : p = .memo m o := h5
      have h6 : o + n ≤ M.dirty := h6
      rw [h5] at h7
      simp only [Src.within, beq_self_eq_true, Bool.true_and, decide_eq_false_iff_not] at h7
      omega
    · exact h3

/-- If it is in the memo of the string, that is its memo. -/
theorem within_memo {s : State} {p : Ptr} {n m : Nat} {M : Memo} {mo : Option Nat} {w : List UInt8} (h : Live s ⟨p, n, mo⟩ w)
    (hw : (Src.data p n).within m M = true) : mo = some m := by
  rcases h.2 with ⟨_, c, o, h2, _⟩ | ⟨m', M', o, h1, _, h3, _⟩
  · have h2 : p = .const c o := h2
    rw [h2] at hw; cases hw
  · have h3 : p = .memo m' o := h3
    have h1 : mo = some m' := h1
    rw [h3] at hw
    simp only [Src.within, Bool.and_eq_true, beq_iff_eq] at hw
    rw [h1, hw.1]

theorem SrcSafe.mono {s s' : State} {ex ex' : List Nat} {i : Nat} {src : Src} {w : List UInt8} (h : SrcSafe s ex i src w)
    (hi : Inv s ex) (hi' : Inv s' ex') (hk : Kp s s') (hs : ∀ j, j ≠ i → s'.strs[j]? = s.strs[j]?) (he : ∀ m ∈ ex, m ∈ ex') :
    SrcSafe s' ex' i src w := by
  cases src with
  | ext l => exact h
  | data p n =>
    obtain ⟨mo, h1, h2⟩ := h
    have hh : ∀ m, mo = some m → m ∈ ex' ∨ ∃ (j : Nat) (r : Rep), j ≠ i ∧ s'.strs[j]? = some (some r) ∧ r.memo = some m := by
      intro m hm
      rcases h2 m hm with h3 | ⟨j, r, h3, h4, h5⟩
      · exact Or.inl (he m h3)
      · exact Or.inr ⟨j, r, h3, by rw [hs j h3]; exact h4, h5⟩
    exact ⟨mo, h1.keep hi hk (fun m hm => hi'.alive ((hh m hm).imp id fun ⟨j, r, _, h3, h4⟩ => ⟨j, r, h3, h4⟩)), hh⟩

/-- The string lets its memo go. -/
theorem drop_spec {s : State} {ex : List Nat} {i : Nat} {r : Rep} (h : Inv s ex) (hr : s.strs[i]? = some (some r)) :
    ∃ s1, s.deref r = some s1 ∧ Inv (s1.setRep i none) ex ∧ Kp s (s1.setRep i none) ∧ s1.strs = s.strs := by
  have h1 := inv_setRep (y := none) hr (ex := ex) h (by intro r h; cases h)
  obtain ⟨s', h2, h3, h4, h5, h6⟩ := deref_spec h1
  rw [deref_setRep] at h2
  obtain ⟨s1, h7, h8⟩ := Option.map_eq_some_iff.1 h2
  refine ⟨s1, h7, by rw [h8]; exact h3, by rw [h8]; exact ⟨h4.next, h4.const, h4.heap⟩, ?_⟩
  unfold State.deref at h7
  split at h7
  · cases h7; rfl
  · unfold State.decref at h7
    split at h7
    · cases h7
    · split at h7
      · cases h7
      · split at h7 <;> cases h7 <;> rfl

theorem Kp.setRep {s s' : State} (h : Kp s s') (i : Nat) (y : Option Rep) : Kp s (s'.setRep i y) := ⟨h.next, h.const, h.heap⟩

theorem Kp.addRep {s s' : State} (h : Kp s s') (r : Rep) : Kp s (s'.addRep r) := ⟨h.next, h.const, h.heap⟩

theorem Live.setRep {s : State} {r : Rep} {v : List UInt8} (h : Live s r v) (i : Nat) (y : Option Rep) : Live (s.setRep i y) r v := h

/-- The string gets a new memo. -/
theorem refill_spec {s : State} {A : List AVal} {i : Nat} {r : Rep} {src : Src} {w : List UInt8} (h : Rel s [] A)
    (hr : s.strs[i]? = some (some r)) (hs : SrcSafe s [] i src w) :
    ∃ s1 s2 r2, s.deref r = some s1 ∧ s1.fill src = some (s2, r2) ∧ Rel (s2.setRep i (some r2)) [] (A.set i (.val w)) := by
  obtain ⟨s1, h1, h2, h3, h4⟩ := drop_spec h.inv hr
  have h5 : SrcSafe (s1.setRep i none) [] i src w := by
    refine hs.mono h.inv h2 h3 (fun j hj => ?_) (fun m hm => hm)
    show (s1.strs.set i none)[j]? = _
    rw [List.getElem?_set_ne (Ne.symm hj), h4]
  obtain ⟨t2, r2, h6, h7, h8, h9, h10⟩ := fill_spec h2 h5.live
  rw [fill_setRep] at h6
  obtain ⟨⟨s2, r3⟩, h11, h12⟩ := Option.map_eq_some_iff.1 h6
  obtain ⟨rfl, rfl⟩ := Prod.mk.inj h12
  dsimp only at h7 h8 h9 h10 h11
  refine ⟨s1, s2, r3, h1, h11, ?_⟩
  have hlt := (List.getElem?_eq_some_iff.1 hr).1
  have hstr : (s2.setRep i none).strs = s.strs.set i none := by rw [h9]; show s1.strs.set i none = _; rw [h4]
  have h13 := inv_setRep (i := i) (x := none) (by rw [hstr, List.getElem?_set_self hlt]) h7 (by intro r hr; cases hr; exact h10.wf)
  rw [setRep_setRep] at h13
  refine h.set (x := some r3) h13 (by have := (h3.trans h8).setRep i (some r3); rw [setRep_setRep] at this; exact this) ?_ h10
  show s2.strs.set i (some r3) = _
  have : (s2.setRep i none).strs.set i (some r3) = s.strs.set i (some r3) := by rw [hstr, List.set_set]
  rw [← this]; show _ = (s2.strs.set i none).set i _; rw [List.set_set]

/-- The string refers to another part of its memo. -/
theorem inv_retarget {s : State} {ex : List Nat} {i : Nat} {r r' : Rep} (h : Inv s ex) (hr : s.strs[i]? = some (some r))
    (hm : r'.memo = r.memo) (hw : Wf s r') : Inv (s.setRep i (some r')) ex := by
  have hcnt : ∀ m, cnt (s.strs.set i (some r')) m = cnt s.strs m := by
    intro m
    have h6 := cnt_set hr (some r') m
    have h7 : tok (some r') = tok (some r) := by simp [tok, hm]
    rw [h7] at h6; omega
  constructor
  · intro m' M' hx
    have := h.refs m' M' hx
    refine ⟨?_, this.2⟩
    show _ = cnt (s.strs.set i _) m' + _
    rw [hcnt]; exact this.1
  · intro j rj hj
    have hr2 : (s.strs.set i (some r'))[j]? = some (some rj) := hj
    rw [List.getElem?_set] at hr2
    by_cases hx : i = j
    · rw [if_pos hx, if_pos (List.getElem?_eq_some_iff.1 hr).1] at hr2
      cases hr2
      exact hw
    · rw [if_neg hx] at hr2; exact h.held j rj hr2
  · exact h.toks
  · exact h.fresh

theorem assignSrc_spec {s : State} {A : List AVal} {i : Nat} {r : Rep} {src : Src} {w : List UInt8} (h : Rel s [] A)
    (hr : s.strs[i]? = some (some r)) (hs : SrcOk s i r src w) : ∃ s', s.assignSrc i src = some s' ∧ Rel s' [] (A.set i (.val w)) := by
  unfold State.assignSrc
  simp only [rep_eq hr]
  cases hm : r.memo with
  | none =>
    obtain ⟨s1, s2, r2, h1, h2, h3⟩ := refill_spec h hr (hs.safe h.inv (by intro m M h1; rw [hm] at h1; cases h1))
    simp only [h1, h2]
    exact ⟨_, rfl, h3⟩
  | some m =>
    obtain ⟨M, o, h1, h2, h3⟩ := h.inv.held i r hr m hm
    simp only [h1]
    have hnot : src.within m M = false → ∃ s', (match s.deref r with
        | none => none
        | some s1 =>
          match s1.fill src with
          | none => none
          | some (s2, r2) => some (s2.setRep i (some r2))) = some s' ∧ Rel s' [] (A.set i (.val w)) := by
      intro hw
      obtain ⟨s1, s2, r2, h4, h5, h6⟩ := refill_spec h hr (hs.safe h.inv (by
        intro m' M' h7 h8
        rw [hm] at h7; cases h7
        rw [h1] at h8; cases h8
        exact hw))
      simp only [h4, h5]
      exact ⟨_, rfl, h6⟩
    cases src with
    | ext l => exact hnot rfl
    | data p n =>
      dsimp only
      cases hw : (Src.data p n).within m M with
      | false => rw [if_neg (by decide)]; exact hnot hw
      | true =>
        rw [if_pos rfl]
        obtain ⟨mo, h4, h5⟩ := hs
        have := within_memo h4 hw
        subst this
        refine ⟨_, rfl, ?_⟩
        have hinv : Inv (s.setRep i (some ⟨p, n, some m⟩)) [] := inv_retarget h.inv hr hm.symm h4.wf
        exact h.set hinv ((Kp.refl s).setRep i _) rfl h4

theorem append_spec {s : State} {A : List AVal} {i : Nat} {r : Rep} {src : Src} {v w : List UInt8} {memo : Option Nat} (h : Rel s [] A)
    (ha : aget A i = some v)
    (hr : s.strs[i]? = some (some r)) (hv : Live s r v) (hs : SrcOk s i r src w)
    (hm : ∀ m, memo = some m → ∃ p n, src = .data p n ∧ Live s ⟨p, n, some m⟩ w ∧
      (n = r.length ∨ ∃ (j : Nat) (r : Rep), j ≠ i ∧ s.strs[j]? = some (some r) ∧ r.memo = some m)) :
    ∃ s', s.append i src memo = some s' ∧ Rel s' [] (A.set i (.val (v ++ w))) := by
  unfold State.append
  simp only [rep_eq hr]
  by_cases h0 : src.len = 0
  · rw [if_pos h0]
    have hw : w = [] := by have := hs.len; rw [h0] at this; exact List.eq_nil_of_length_eq_zero this.symm
    subst hw
    rw [List.append_nil]
    refine ⟨s, rfl, ?_⟩
    have : A.set i (.val v) = A := by
      unfold aget at ha
      split at ha
      · rename_i w hw
        cases ha
        obtain ⟨h1, h2⟩ := List.getElem?_eq_some_iff.1 hw
        rw [← h2]; exact List.set_getElem_self h1
      · cases ha
    rw [this]; exact h
  rw [if_neg h0]
  have hpos : 0 < src.len := by omega
  have hcopy : SrcSafe s [] i src w → ∃ s', s.extendCopy i src = some s' ∧ Rel s' [] (A.set i (.val (v ++ w))) := by
    intro hsafe
    obtain ⟨s', r', h1, h2, h3, h4, h5⟩ := extendCopy_spec h.inv hr hv hpos hsafe
    exact ⟨s', h1, h.set h2 h3 h4 h5⟩
  have hgen : ∃ s', (match r.memo with
        | none => s.extendCopy i src
        | some mm =>
          match s.heap mm with
          | none => none
          | some M =>
            if src.within mm M then
              match s.incref mm with
              | none => none
              | some s1 =>
                match s1.extendCopy i src with
                | none => none
                | some s2 => s2.decref mm
            else s.extendCopy i src) = some s' ∧ Rel s' [] (A.set i (.val (v ++ w))) := by
    cases hmm : r.memo with
    | none => exact hcopy (hs.safe h.inv (by intro m M h1; rw [hmm] at h1; cases h1))
    | some mm =>
      obtain ⟨M, o, h1, h2, h3⟩ := h.inv.held i r hr mm hmm
      simp only [h1]
      cases hw : src.within mm M with
      | false =>
        rw [if_neg (by decide)]
        refine hcopy (hs.safe h.inv ?_)
        intro m' M' h7 h8
        rw [hmm] at h7; cases h7
        rw [h1] at h8; cases h8
        exact hw
      | true =>
        rw [if_pos rfl]
        obtain ⟨s1, h4, h5, h6, h7, h8, h9⟩ := incref_spec h.inv h1
        have hsafe : SrcSafe s1 [mm] i src w := by
          cases src with
          | ext l => cases hw
          | data p n =>
            obtain ⟨mo, h10, _⟩ := hs
            have := within_memo h10 hw
            subst this
            refine ⟨some mm, h10.keep h.inv h6 ?_, fun m hm => Or.inl (by cases hm; simp)⟩
            intro m hm; cases hm; exact ⟨_, h8⟩
        have hv1 : Live s1 r v := hv.keep h.inv h6 (by intro m hm; rw [hmm] at hm; cases hm; exact ⟨_, h8⟩)
        obtain ⟨s2, r', h10, h11, h12, h13, h14⟩ := extendCopy_spec h5 (by rw [h7]; exact hr) hv1 hpos hsafe
        obtain ⟨s3, h15, h16, h17, h18, h19⟩ := decref_spec h11
        simp only [h4, h10]
        refine ⟨s3, h15, ?_⟩
        have hr1 : Rel s1 [mm] A := h.same h5 h6 h7
        have hr2 : Rel s2 [mm] (A.set i (.val (v ++ w))) := hr1.set h11 h12 h13 h14
        exact hr2.same h16 h17 h18
  cases memo with
  | none => cases src <;> exact hgen
  | some m =>
    obtain ⟨p, n, rfl, h1, h2⟩ := hm m rfl
    dsimp only
    by_cases hl : r.length = 0
    · rw [if_pos hl]
      have h2 := h2.resolve_left (by intro hx; exact h0 (hx.trans hl))
      obtain ⟨s1, h3, h4, h5, h6⟩ := drop_spec h.inv hr
      obtain ⟨j, rj, h7, h8, h9⟩ := h2
      have hj : (s1.setRep i none).strs[j]? = some (some rj) := by
        show (s1.strs.set i none)[j]? = _
        rw [List.getElem?_set_ne (Ne.symm h7), h6]; exact h8
      obtain ⟨M, h10⟩ := h4.alive (Or.inr ⟨j, rj, hj, h9⟩)
      obtain ⟨t2, h11, h12, h13, h14, h15, h16⟩ := incref_spec h4 h10
      rw [incref_setRep] at h11
      obtain ⟨s2, h17, rfl⟩ := Option.map_eq_some_iff.1 h11
      simp only [h3, h17]
      refine ⟨_, rfl, ?_⟩
      have hlt := (List.getElem?_eq_some_iff.1 hr).1
      have hstr : (s2.setRep i none).strs = s.strs.set i none := by rw [h14]; show s1.strs.set i none = _; rw [h6]
      have hlive : Live (s2.setRep i none) ⟨p, n, some m⟩ w := h1.keep h.inv (h5.trans h13) (by intro m' hm'; cases hm'; exact ⟨_, h15⟩)
      have h18 := inv_setRep (ex := []) (i := i) (x := none) (y := some ⟨p, n, some m⟩) (by rw [hstr, List.getElem?_set_self hlt]) h12
        (by intro r hr; cases hr; exact hlive.wf)
      rw [setRep_setRep] at h18
      have hvw : v = [] := List.eq_nil_of_length_eq_zero (hv.1.symm.trans hl)
      subst hvw
      refine h.set (x := some ⟨p, n, some m⟩) h18 (by have := (h5.trans h13).setRep i (some ⟨p, n, some m⟩); rw [setRep_setRep] at this; exact this) ?_ hlive
      show s2.strs.set i _ = _
      have : (s2.setRep i none).strs.set i (some ⟨p, n, some m⟩) = s.strs.set i (some ⟨p, n, some m⟩) := by rw [hstr, List.set_set]
      rw [← this]; show _ = (s2.strs.set i none).set i _; rw [List.set_set]
    · rw [if_neg hl]; exact hgen

end Verif.Strings
