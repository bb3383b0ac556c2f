import Verif.JsonArr.Steps
import Verif.JsonArr.Spec

namespace Verif.JsonArr

/-- The change `f` does to the memory what `g` does to values. -/
def ChangeOK (inn : List Val) (w : Val) (f : Change)
    (g : JV → List JV → JV → Option (JV × List JV)) : Prop :=
  ∀ h D v R r, Rep h D (v :: (inn ++ R)) → (w = .null ∨ w ∈ R) →
    g (dv D w) (inn.map (dv D)) (dv D v) = some r →
    ∃ h' v' out D', f h v = some (h', v', out) ∧ Rep h' D' (v' :: (out ++ R)) ∧
      dv D' v' = r.1 ∧ out.map (dv D') = r.2 ∧ (∀ u ∈ R, dv D' u = dv D u) ∧ Frame R w h h'

theorem setNum_ok (i : Int) : ChangeOK [] .null (setNum i) fun _ _ _ => some (.num i, []) := by
  intro h D v R r hr _ hg
  simp only [Option.some.injEq] at hg
  subst hg
  obtain ⟨h', he, hr', hf⟩ := drop_ok (ws := [v]) (R := R) (by simpa using hr)
  exact ⟨h', .num i, [], D, by simp [setNum, he], hr'.cons (by simp), rfl, rfl,
    fun _ _ => rfl, hf⟩

theorem assign_ok (w : Val) : ChangeOK [] w (assign w) fun u _ _ => some (u, []) := by
  intro h D v R r hr hw hg
  simp only [Option.some.injEq] at hg
  subst hg
  obtain ⟨h1, he1, hr1, _, hb1, _⟩ := ref_ok (v := w) hr (by
    intro a ha
    rcases hw with hw | hw
    · rw [hw] at ha; cases ha
    · exact hr.live_root (by simp [← ha, hw]))
  obtain ⟨h2, he2, hr2, hf2⟩ := drop_ok (ws := [v]) (R := w :: R)
    (by simpa using hr1.perm (List.Perm.swap _ _ _))
  refine ⟨h2, w, [], D, by simp [assign, he1, he2], hr2, rfl, rfl, fun _ _ => rfl, ?_⟩
  refine Frame.trans (h1 := h1) ?_ ((hf2.mono ?_).any w)
  · intro b n hb _ hbw
    rw [hb1 b hbw]; exact hb
  · intro a; rw [List.count_cons]; omega

theorem assign_self_ok {h D v R} (hr : Rep h D (v :: R)) :
    ∃ h', assign v h v = some (h', v, []) ∧ Rep h' D (v :: R) := by
  obtain ⟨h1, he1, hr1, _, hb1, _⟩ := ref_ok (v := v) hr (by
    intro a ha
    exact hr.live_root (by simp [← ha]))
  obtain ⟨h2, he2, hr2, hf2⟩ := drop_ok (ws := [v]) (R := v :: R) (by simpa using hr1)
  exact ⟨h2, by simp [assign, he1, he2], hr2⟩

theorem moveIn_ok (w : Val) : ChangeOK [w] .null (moveIn w)
    fun _ ins t => some (ins.headD .null, [t]) := by
  intro h D v R r hr hw hg
  simp only [Option.some.injEq] at hg
  subst hg
  exact ⟨h, w, [v], D, rfl, hr.perm (List.Perm.swap _ _ _), rfl, rfl, fun _ _ => rfl,
    Frame.refl _ _ _⟩

theorem sizeV_ok {h D v R l} (hr : Rep h D (v :: R)) (hl : Spec.asList (dv D v) = some l) :
    sizeV h v = some l.length ∧ (∀ i, v ≠ .num i) ∧ items (dv D v) = l := by
  match v with
  | .null => simp [dv, Spec.asList] at hl; subst hl; simp [sizeV, items, dv]
  | .num i => simp [dv, Spec.asList] at hl
  | .arr none => simp [dv, Spec.asList] at hl; subst hl; simp [sizeV, items, dv]
  | .arr (some a) =>
    simp [dv, Spec.asList] at hl; subst hl
    obtain ⟨n, hg⟩ := hr.live_root (a := a) (by simp)
    refine ⟨?_, by simp, rfl⟩
    simp [sizeV, hg, hr.den a n hg]

theorem Own.elems {h D R b n} (ho : Own h D R b n) :
    elemsOf h (.arr (some b)) = some n.elems := by simp [elemsOf, ho.live]

theorem insertAt_ok (k : Option Nat) (w : Val) : ChangeOK [w] .null (insertAt k w)
    fun _ ins t => (Spec.insert k (ins.headD .null) t).map (·, []) := by
  intro h D v R r hr hw hg
  simp only [Option.map_eq_some_iff] at hg
  obtain ⟨t, hg, rfl⟩ := hg
  simp only [Spec.insert, Option.bind_eq_bind, Option.bind_eq_some_iff] at hg
  obtain ⟨l, hl, hg⟩ := hg
  split at hg
  case isFalse => cases hg
  rename_i hk
  simp only [Option.some.injEq] at hg
  obtain ⟨hs, hn, hi⟩ := sizeV_ok hr hl
  obtain ⟨h1, b, n, D1, he1, ho, hcap, hel, hv1, hf1⟩ :=
    uniqueify_ok (conv := false) (ncap := l.length + 1) hr (.inr hn)
  rw [hi] at hel
  have hlen : n.elems.length = l.length := by rw [← hel, List.length_map]
  obtain ⟨h2, D2, he2, ho2, hd2, hv2, _, hf2, _⟩ := write_ok (R' := R)
    (es := n.elems.take (k.getD l.length) ++ w :: n.elems.drop (k.getD l.length)) ho
    (by
      intro c
      have := congrArg (List.count (Val.arr (some c))) (List.take_append_drop (k.getD l.length) n.elems)
      simp only [List.count_append, List.count_cons, List.cons_append, List.nil_append] at this ⊢
      omega)
    (by simp; omega)
  refine ⟨h2, .arr (some b), [], D2, ?_, ho2.rep, ?_, rfl, ?_, (hf1.trans hf2).mono ?_⟩
  · simp [insertAt, hs, he1, ho.elems, hk, he2]
  · rw [← hg]
    simp only [dv_arr, hd2, List.map_append, List.map_cons, List.map_take, List.map_drop, hel,
      List.headD_cons]
    rw [hv1 w (by simp)]
  · intro u hu; rw [hv2 u hu, hv1 u (by simp [hu])]
  · intro a; rw [List.count_append]; omega

/-- What `insertOwn` inserts. -/
theorem insertOwn_ok {k : Option Nat} {i : Nat} {h D v R l} {u : JV} (hr : Rep h D (v :: R))
    (hl : dv D v = .arr l) (hk : k.getD l.length ≤ l.length)
    (hu : (if i < k.getD l.length then l[i]? else if i = k.getD l.length then l[i]? else
      if i ≤ l.length then l[i - 1]? else some .null) = some u) :
    ∃ h' v' D', insertOwn k i h v = some (h', v', []) ∧ Rep h' D' (v' :: R) ∧
      dv D' v' = .arr (l.take (k.getD l.length) ++ u :: l.drop (k.getD l.length)) ∧
      (∀ u ∈ R, dv D' u = dv D u) := by
  obtain ⟨hs, hn, hi⟩ := sizeV_ok hr (l := l) (by rw [hl]; rfl)
  obtain ⟨h1, b, n, D1, he1, ho, hcap, hel, hv1, hf1⟩ :=
    uniqueify_ok (conv := false) (ncap := l.length + 1) hr (.inr hn)
  rw [hi] at hel
  have hlen : n.elems.length = l.length := by rw [← hel, List.length_map]
  have hget : ∀ j : Nat, l[j]? = (n.elems[j]?).map (dv D1) := by
    intro j; rw [← hel, List.getElem?_map]
  obtain ⟨w, hw, hwu, hwm⟩ : ∃ w, shifted n.elems (k.getD l.length) i = some w ∧ dv D1 w = u ∧
      (w = .null ∨ w ∈ n.elems) := by
    unfold shifted
    rw [hlen]
    split at hu
    · rw [if_pos ‹_›]
      rw [hget, Option.map_eq_some_iff] at hu
      obtain ⟨w, hw, hd⟩ := hu
      exact ⟨w, hw, hd, .inr (List.mem_of_getElem? hw)⟩
    · rw [if_neg ‹_›]
      split at hu
      · rename_i _ hik
        rw [if_pos hik, ← hik]
        rw [hget, Option.map_eq_some_iff] at hu
        obtain ⟨w, hw, hd⟩ := hu
        exact ⟨w, hw, hd, .inr (List.mem_of_getElem? hw)⟩
      · rw [if_neg ‹_›]
        split at hu
        · rw [if_pos ‹_›]
          rw [hget, Option.map_eq_some_iff] at hu
          obtain ⟨w, hw, hd⟩ := hu
          exact ⟨w, hw, hd, .inr (List.mem_of_getElem? hw)⟩
        · rw [if_neg ‹_›]
          cases hu
          exact ⟨.null, rfl, rfl, .inl rfl⟩
  have hwb : Val.arr (some b) ≠ w := by
    rintro rfl
    rcases hwm with hwm | hwm
    · cases hwm
    · exact ho.rep.only_elems ho.live ho.one ho.live hwm
  obtain ⟨h2, he2, hr2, _, hb2, _⟩ := ref_ok (v := w) ho.rep (by
    rintro a rfl
    rcases hwm with hwm | hwm
    · cases hwm
    · exact ho.rep.live_elem ho.live hwm)
  have ho2 : Own h2 D1 (w :: R) b n :=
    ⟨hr2.perm (List.Perm.swap _ _ _), by rw [hb2 b hwb]; exact ho.live, ho.one⟩
  obtain ⟨h3, D3, he3, ho3, hd3, hv3, _, _, _⟩ := write_ok (R' := R)
    (es := n.elems.take (k.getD l.length) ++ w :: n.elems.drop (k.getD l.length)) ho2
    (by
      intro c
      have := congrArg (List.count (Val.arr (some c)))
        (List.take_append_drop (k.getD l.length) n.elems)
      simp only [List.count_append, List.count_cons] at this ⊢
      omega)
    (by simp; omega)
  refine ⟨h3, .arr (some b), D3, ?_, ho3.rep, ?_, ?_⟩
  · simp [insertOwn, hs, he1, ho.elems, hk, hw, he2, he3]
  · simp only [dv_arr, hd3, List.map_append, List.map_cons, List.map_take, List.map_drop, hel, hwu]
  · intro u hu; rw [hv3 u hu, hv1 u hu]

/-- At the end of the array there is nothing to read. -/
theorem insertOwn_end {k : Option Nat} {i : Nat} {h D v R l} (hr : Rep h D (v :: R))
    (hl : dv D v = .arr l) (hk : k.getD l.length = l.length) (hi : i = l.length) :
    insertOwn k i h v = none := by
  obtain ⟨hs, hn, hit⟩ := sizeV_ok hr (l := l) (by rw [hl]; rfl)
  obtain ⟨h1, b, n, D1, he1, ho, hcap, hel, hv1, hf1⟩ :=
    uniqueify_ok (conv := false) (ncap := l.length + 1) hr (.inr hn)
  rw [hit] at hel
  have hlen : n.elems.length = l.length := by rw [← hel, List.length_map]
  have hsh : shifted n.elems l.length l.length = none := by
    simp [shifted, hlen]
  simp [insertOwn, hs, he1, ho.elems, hk, hi, hsh]

theorem shrink_ok {h D R b n es out} (ho : Own h D R b n)
    (hcount : ∀ c, es.count (.arr (some c)) + out.count (.arr (some c))
      = n.elems.count (.arr (some c)))
    (hc : es.length ≤ n.cap) :
    ∃ h2 h3 D', write h (.arr (some b)) es = some h2 ∧ drop h2 out = some h3 ∧
      Rep h3 D' (.arr (some b) :: R) ∧ D' b = es.map (dv D) ∧
      (∀ u ∈ R, dv D' u = dv D u) ∧ Frame R .null h h3 := by
  obtain ⟨h2, D2, he2, ho2, hd2, hv2, _, hf2, _⟩ := write_ok (R' := out ++ R) (es := es) ho
    (by intro c; have := hcount c; rw [List.count_append]; omega) hc
  obtain ⟨h3, he3, hr3, hf3⟩ := drop_ok (ws := out) (R := .arr (some b) :: R)
    (ho2.rep.perm List.perm_middle.symm)
  refine ⟨h2, h3, D2, he2, he3, hr3, hd2, fun u hu => hv2 u (by simp [hu]), hf2.trans (hf3.mono ?_)⟩
  intro a; rw [List.count_cons]; omega

theorem pop_ok : ChangeOK [] .null popBack
    fun _ _ t => (Spec.edit .pop t).map (·, []) := by
  intro h D v R r hr hw hg
  simp only [Option.map_eq_some_iff] at hg
  obtain ⟨t, hg, rfl⟩ := hg
  have hl : ∃ x l, dv D v = .arr (x :: l) ∧ t = .arr (x :: l).dropLast := by
    revert hg
    cases dv D v with
    | null => simp [Spec.edit]
    | num i => simp [Spec.edit]
    | arr l =>
      cases l with
      | nil => simp [Spec.edit]
      | cons x l => simp only [Spec.edit, Option.some.injEq]; rintro rfl; exact ⟨x, l, rfl, rfl⟩
  obtain ⟨x, l, hl, rfl⟩ := hl
  obtain ⟨hs, hn, hi⟩ := sizeV_ok hr (l := x :: l) (by rw [hl]; rfl)
  obtain ⟨h1, b, n, D1, he1, ho, hcap, hel, hv1, hf1⟩ :=
    uniqueify_ok (conv := false) (ncap := 0) hr (.inr hn)
  rw [hi] at hel
  have hlen : n.elems.length = l.length + 1 := by
    rw [← List.length_cons (a := x), ← hel, List.length_map]
  have hfit := ho.rep.fits b n ho.live
  obtain ⟨h2, h3, D3, he2, he3, hr3, hd3, hv3, hf3⟩ := shrink_ok (R := R)
    (es := n.elems.take (n.elems.length - 1)) (out := n.elems.drop (n.elems.length - 1)) ho
    (by intro c; rw [← List.count_append, List.take_append_drop]) (by simp; omega)
  refine ⟨h3, .arr (some b), [], D3, ?_, hr3, ?_, rfl, ?_, hf1.trans hf3⟩
  · simp [popBack, hs, he1, ho.elems, he2, he3]
  · simp only [dv, hd3, List.map_take, hel, hlen, List.dropLast_eq_take, List.length_cons]
  · intro u hu; rw [hv3 u hu, hv1 u (by simp [hu])]

theorem erase_ok (first last : Nat) : ChangeOK [] .null (erase first last)
    fun _ _ t => (Spec.edit (.erase first last) t).map (·, []) := by
  intro h D v R r hr hw hg
  simp only [Option.map_eq_some_iff] at hg
  obtain ⟨t, hg, rfl⟩ := hg
  simp only [Spec.edit, Option.bind_eq_bind, Option.bind_eq_some_iff] at hg
  obtain ⟨l, hl, hg⟩ := hg
  obtain ⟨hs, hn, hi⟩ := sizeV_ok hr hl
  split at hg
  · cases hg
  rename_i hlast
  split at hg
  · rename_i hfl
    simp only [Option.some.injEq] at hg
    subst hg
    obtain ⟨h1, b, n, D1, he1, ho, hcap, hel, hv1, hf1⟩ :=
      uniqueify_ok (conv := false) (ncap := 0) hr (.inr hn)
    rw [hi] at hel
    have hlen : n.elems.length = l.length := by rw [← hel, List.length_map]
    have hfit := ho.rep.fits b n ho.live
    obtain ⟨h2, h3, D3, he2, he3, hr3, hd3, hv3, hf3⟩ := shrink_ok (R := R)
      (es := n.elems.take first ++ n.elems.drop last)
      (out := (n.elems.take last).drop first) ho
      (by
        intro c
        have h1 := congrArg (List.count (Val.arr (some c))) (List.take_append_drop last n.elems)
        have h2 := congrArg (List.count (Val.arr (some c)))
          (List.take_append_drop first (n.elems.take last))
        rw [List.take_take, Nat.min_eq_left (by omega)] at h2
        rw [List.count_append] at h1 h2 ⊢
        omega)
      (by simp; omega)
    refine ⟨h3, .arr (some b), [], D3, ?_, hr3, ?_, rfl, ?_, hf1.trans hf3⟩
    · simp [erase, hs, he1, ho.elems, he2, he3, hlast, hfl]
    · simp only [dv, hd3, List.map_append, List.map_take, List.map_drop, hel]
    · intro u hu; rw [hv3 u hu, hv1 u (by simp [hu])]
  · rename_i hfl
    simp only [Option.some.injEq] at hg
    subst hg
    exact ⟨h, v, [], D, by simp [erase, hs, hlast, hfl], hr, rfl, rfl, fun _ _ => rfl,
      Frame.refl _ _ _⟩

theorem resize_ok (m : Nat) : ChangeOK [] .null (resize m)
    fun _ _ t => (Spec.edit (.resize m) t).map (·, []) := by
  intro h D v R r hr hw hg
  simp only [Option.map_eq_some_iff] at hg
  obtain ⟨t, hg, rfl⟩ := hg
  simp only [Spec.edit, Option.map_eq_some_iff] at hg
  obtain ⟨l, hl, rfl⟩ := hg
  obtain ⟨hs, hn, hi⟩ := sizeV_ok hr hl
  obtain ⟨h1, b, n, D1, he1, ho, hcap, hel, hv1, hf1⟩ :=
    uniqueify_ok (conv := false) (ncap := m) hr (.inr hn)
  rw [hi] at hel
  have hlen : n.elems.length = l.length := by rw [← hel, List.length_map]
  have hfit := ho.rep.fits b n ho.live
  obtain ⟨h2, h3, D3, he2, he3, hr3, hd3, hv3, hf3⟩ := shrink_ok (R := R)
    (es := n.elems.take m ++ List.replicate (m - n.elems.length) .null)
    (out := (n.elems.drop m).reverse) ho
    (by
      intro c
      have h1 := congrArg (List.count (Val.arr (some c))) (List.take_append_drop m n.elems)
      rw [List.count_append] at h1 ⊢
      rw [List.count_reverse, List.count_replicate]
      simp; omega)
    (by simp; omega)
  refine ⟨h3, .arr (some b), [], D3, ?_, hr3, ?_, rfl, ?_, hf1.trans hf3⟩
  · simp [resize, he1, ho.elems, he2, he3]
  · simp only [dv, hd3, List.map_append, List.map_take, List.map_replicate, hel, hlen]
  · intro u hu; rw [hv3 u hu, hv1 u (by simp [hu])]

theorem reserve_ok (m : Nat) : ChangeOK [] .null (reserve m)
    fun _ _ t => (Spec.edit (.reserve m) t).map (·, []) := by
  intro h D v R r hr hw hg
  simp only [Option.map_eq_some_iff] at hg
  obtain ⟨t, hg, rfl⟩ := hg
  simp only [Spec.edit, Option.map_eq_some_iff] at hg
  obtain ⟨l, hl, rfl⟩ := hg
  obtain ⟨hs, hn, hi⟩ := sizeV_ok hr hl
  obtain ⟨h1, b, n, D1, he1, ho, hcap, hel, hv1, hf1⟩ :=
    uniqueify_ok (conv := false) (ncap := m) hr (.inr hn)
  refine ⟨h1, .arr (some b), [], D1, by simp [reserve, he1], ho.rep, ?_, rfl, hv1, hf1⟩
  simp only [dv]
  rw [ho.rep.den b n ho.live, hel, hi]

theorem clear_ok : ChangeOK [] .null clear
    fun _ _ t => (Spec.edit .clear t).map (·, []) := by
  intro h D v R r hr hw hg
  simp only [Option.map_eq_some_iff] at hg
  obtain ⟨t, hg, rfl⟩ := hg
  match v, hr, hg with
  | .null, hr, hg =>
    simp [dv, Spec.edit] at hg; subst hg
    exact ⟨h, .null, [], D, rfl, hr, rfl, rfl, fun _ _ => rfl, Frame.refl _ _ _⟩
  | .num i, hr, hg =>
    simp [dv, Spec.edit] at hg; subst hg
    exact ⟨h, .null, [], D, rfl, (hr.tail (by simp)).cons (by simp), rfl, rfl, fun _ _ => rfl,
      Frame.refl _ _ _⟩
  | .arr none, hr, hg =>
    simp [dv, Spec.edit] at hg; subst hg
    exact ⟨h, .arr none, [], D, rfl, hr, rfl, rfl, fun _ _ => rfl, Frame.refl _ _ _⟩
  | .arr (some a), hr, hg =>
    simp [dv, Spec.edit] at hg; subst hg
    obtain ⟨n, hga⟩ := hr.live_root (a := a) (by simp)
    by_cases h1 : n.rc = 1
    · obtain ⟨h2, h3, D3, he2, he3, hr3, hd3, hv3, hf3⟩ := shrink_ok (R := R)
        (es := []) (out := n.elems) ⟨hr, hga, h1⟩ (by simp) (by simp)
      refine ⟨h3, .arr (some a), [], D3, by simp [clear, hga, h1, he2, he3], hr3, ?_, rfl, hv3, hf3⟩
      simp [dv, hd3]
    · obtain ⟨h', he, hr', hf⟩ := drop_ok (ws := [Val.arr (some a)]) (R := R) (by simpa using hr)
      exact ⟨h', .arr none, [], D, by simp [clear, hga, h1, he], hr'.cons (by simp), rfl, rfl,
        fun _ _ => rfl, hf⟩

theorem edit_ok (e : Edit) : ChangeOK [] .null e.run
    fun _ _ t => (Spec.edit e t).map (·, []) := by
  cases e with
  | num i => exact setNum_ok i
  | pop => exact pop_ok
  | erase f l => exact erase_ok f l
  | resize n => exact resize_ok n
  | reserve n => exact reserve_ok n
  | clear => exact clear_ok

/-! ## Nested elements -/

theorem count_set {es : List Val} {i : Nat} {w : Val} (hw : es[i]? = some w) (x c : Val) :
    (es.set i x).count c + [w].count c = es.count c + [x].count c := by
  induction es generalizing i with
  | nil => simp at hw
  | cons e es ih =>
    cases i with
    | zero =>
      simp at hw; subst hw
      simp only [List.set_cons_zero, List.count_cons, List.count_nil]; omega
    | succ i =>
      have := ih (i := i) (by simpa using hw)
      simp only [List.set_cons_succ, List.count_cons, List.count_nil] at this ⊢; omega

theorem pad_eq (i : Nat) (t : JV) :
    Spec.pad i t = items t ++ List.replicate (i + 1 - (items t).length) .null := by
  cases t <;> simp [Spec.pad, items]

theorem getInsert_ok {i h D v R} (hr : Rep h D (v :: R)) :
    ∃ h' b n D', getInsert i h v = some (h', .arr (some b)) ∧ Own h' D' R b n ∧
      i < n.elems.length ∧ n.elems.map (dv D') = Spec.pad i (dv D v) ∧
      (∀ u ∈ R, dv D' u = dv D u) ∧ Frame R .null h h' := by
  obtain ⟨h1, b, n, D1, he1, ho, hcap, hel, hv1, hf1⟩ :=
    uniqueify_ok (conv := true) (ncap := i + 1) hr (.inl rfl)
  have hlen : n.elems.length = (items (dv D v)).length := by rw [← hel, List.length_map]
  by_cases hle : n.elems.length ≤ i
  · obtain ⟨h2, D2, he2, ho2, hd2, hv2, hv2', hf2, _⟩ := write_ok (R' := R)
      (es := n.elems ++ List.replicate (i + 1 - n.elems.length) .null) ho
      (by intro c; rw [List.count_append, List.count_replicate]; simp)
      (by simp; omega)
    refine ⟨h2, b, _, D2, ?_, ho2, by simp; omega, ?_, ?_, hf1.trans hf2⟩
    · simp [getInsert, he1, ho.elems, hle, he2]
    · simp only
      rw [← ho2.rep.den b _ ho2.live, hd2, List.map_append, hel, pad_eq, List.map_replicate, hlen]
      rfl
    · intro u hu; rw [hv2 u hu, hv1 u hu]
  · refine ⟨h1, b, n, D1, ?_, ho, by omega, ?_, hv1, hf1⟩
    · simp [getInsert, he1, ho.elems, hle]
    · rw [hel, pad_eq, ← hlen]
      have : i + 1 - n.elems.length = 0 := by omega
      simp [this]

theorem modify_ok {inn w f g} (hf : ChangeOK inn w f g) : ∀ p : List Nat,
    ChangeOK inn w (modify f p) fun u ins t => Spec.modify (g u ins) p t
  | [] => hf
  | i :: p => by
    intro h D v R r hr hw hg
    have ih := modify_ok hf p
    simp only [Spec.modify, Option.bind_eq_bind, Option.bind_eq_some_iff] at hg
    obtain ⟨r', hg, hr'⟩ := hg
    simp only [Option.some.injEq] at hr'
    subst hr'
    obtain ⟨h1, b, n, D1, he1, ho, hi, hel, hv1, hf1⟩ := getInsert_ok (i := i) hr
    obtain ⟨e, hwe⟩ : ∃ e, n.elems[i]? = some e := ⟨_, List.getElem?_eq_getElem hi⟩
    have hfit := ho.rep.fits b n ho.live
    obtain ⟨h2, D2, he2, ho2, hd2, hv2, hv2', hf2, _⟩ :=
      write_ok (R' := e :: (inn ++ R)) (es := n.elems.set i .null) ho
      (by
        intro c
        have := count_set hwe .null (.arr (some c))
        rw [List.count_cons]
        simp only [List.count_cons, List.count_nil] at this ⊢
        simp at this ⊢
        omega)
      (by simp; omega)
    have hbR : Val.arr (some b) ∉ e :: (inn ++ R) := ho2.rep.only_root ho2.live ho2.one
    have hdw : dv D2 w = dv D w := by
      rcases hw with rfl | hw
      · rfl
      · rw [hv2 w (by simp [hw]), hv1 w (by simp [hw])]
    have hdi : inn.map (dv D2) = inn.map (dv D) := by
      apply List.map_congr_left
      intro u hu; rw [hv2 u (by simp [hu]), hv1 u (by simp [hu])]
    have hde : dv D2 e = (Spec.pad i (dv D v)).getD i .null := by
      rw [hv2 e (by simp), ← hel]
      simp [hwe]
    obtain ⟨h3, v3, out, D3, he3, hr3, hd3, ho3, hv3, hf3⟩ := ih h2 D2 e (.arr (some b) :: R) r'
      (ho2.rep.perm (by
        refine (List.Perm.swap _ _ _).trans (List.Perm.cons _ ?_)
        exact List.perm_middle.symm))
      (hw.imp id (fun h => by simp [h]))
      (by rw [hdw, hdi, hde]; exact hg)
    have hcb : (Val.arr (some b) :: R).count (.arr (some b)) = 1 := by
      rw [List.count_cons_self, List.count_eq_zero.2]
      intro hm; exact hbR (by simp [hm])
    have hlive3 := hf3 b _ ho2.live (by rw [hcb]; exact Nat.le_of_eq ho2.one) (by
      intro hbw
      rcases hw with rfl | hw
      · cases hbw
      · exact hbR (by simp [hbw, hw]))
    have hr3' : Rep h3 D3 (.arr (some b) :: (v3 :: (out ++ R))) :=
      hr3.perm ((List.Perm.cons _ List.perm_middle).trans (List.Perm.swap _ _ _))
    have hse : (n.elems.set i .null)[i]? = some .null := by simp [hi]
    obtain ⟨h4, D4, he4, ho4, hd4, hv4, _, hf4, hf4'⟩ :=
      write_ok (R' := out ++ R) (es := (n.elems.set i .null).set i v3) ⟨hr3', hlive3, ho2.one⟩
      (by
        intro c
        have := count_set hse v3 (.arr (some c))
        rw [List.count_cons (l := out ++ R)]
        simp only [List.count_cons, List.count_nil] at this ⊢
        simp at this ⊢
        omega)
      (by simp; omega)
    have hD3 : D3 b = D2 b := by
      have := hv3 (.arr (some b)) (by simp)
      simpa [dv] using this
    refine ⟨h4, .arr (some b), out, D4, ?_, ho4.rep, ?_, ?_, ?_, ?_⟩
    · simp only [modify, he1, Option.bind_eq_bind, Option.bind_some, ho.elems, hwe, he2, he3]
      have : elemsOf h3 (.arr (some b)) = some (n.elems.set i .null) := by
        simp [elemsOf, hlive3]
      simp only [this, Option.bind_some, he4]
    · simp only [dv_arr, hd4]
      have hden := hr3'.den b _ hlive3
      simp only at hden
      rw [List.map_set, ← hden, hD3, hd2, List.map_set, List.set_set, hel, hd3]
    · rw [← ho3]
      apply List.map_congr_left
      intro u hu; exact hv4 u (by simp [hu])
    · intro u hu
      rw [hv4 u (by simp [hu]), hv3 u (by simp [hu]), hv2 u (by simp [hu]), hv1 u (by simp [hu])]
    · have hm : ∀ (L : List Val) a, R.count (Val.arr (some a)) ≤ (L ++ R).count (.arr (some a)) := by
        intro L a; rw [List.count_append]; omega
      refine ((hf1.mono (hm _)).any w).trans ((((hf2.mono (hm _)).any w)).trans
        ((hf3.mono (hm [_])).trans ((hf4'.mono (hm _)).any w)))

end Verif.JsonArr
