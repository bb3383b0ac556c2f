import Verif.JsonArr.Rep

/-!
# Changes to shared arrays and what they mean

`ChangeOK inn w f g`: the change `f` does to the memory what `g` does to values.  It uses up
the values `inn`, may share the value `w`, and leaves all other values alone; blocks that are
only referenced from elsewhere are not touched.
-/
namespace Verif.JsonArr

/-- Blocks that are only referenced from `R` (and are not `w`) stay as they are. -/
def Frame (R : List Val) (w : Val) (h h' : Heap) : Prop :=
  ∀ b n, get h b = some n → n.rc ≤ R.count (.arr (some b)) → Val.arr (some b) ≠ w →
    get h' b = some n

theorem Frame.refl (R w h) : Frame R w h h := fun _ _ hg _ _ => hg

theorem Frame.trans {R w h h1 h2} (f1 : Frame R w h h1) (f2 : Frame R w h1 h2) :
    Frame R w h h2 := fun b n hg hc hw => f2 b n (f1 b n hg hc hw) hc hw

theorem Frame.mono {R R' w h h'} (f : Frame R' w h h')
    (hle : ∀ a, R.count (.arr (some a)) ≤ R'.count (.arr (some a))) : Frame R w h h' :=
  fun b n hg hc hw => f b n hg (Nat.le_trans hc (hle b)) hw

theorem Frame.any {R h h'} (f : Frame R .null h h') (w : Val) : Frame R w h h' :=
  fun b n hg hc _ => f b n hg hc (by simp)

theorem frame_set {R a h n w} (hg : get h a = some n) (hn : R.count (.arr (some a)) < n.rc)
    (o : Option Node) : Frame R w h (h.set a o) := by
  intro b m hb hc _
  rw [get_set hg]
  split
  · subst b; rw [hg] at hb; cases hb; omega
  · exact hb

theorem frame_append (R w h n) : Frame R w h (h ++ [some n]) := by
  intro b m hb hc _
  rw [get_append]
  have := get_lt hb
  rw [if_neg (by omega)]; exact hb

/-! ## Destruction -/

theorem weight_set {h : Heap} {a : Nat} {n : Node} (hg : get h a = some n) :
    weight (h.set a none) + n.elems.length + 1 = weight h ∧
    ∀ m : Node, m.elems = n.elems → weight (h.set a (some m)) = weight h := by
  constructor
  · have := sum_set nodeWeight h a (some n) none (get_some hg)
    simp only [weight]; simp only [nodeWeight] at this; omega
  · intro m hm
    have := sum_set nodeWeight h a (some n) (some m) (get_some hg)
    simp only [weight]; simp only [nodeWeight, hm] at this; omega

theorem Rep.tail {h D v R} (hr : Rep h D (v :: R)) (hv : ∀ a, v ≠ .arr (some a)) :
    Rep h D R := by
  have hc : ∀ a, (v :: R).count (.arr (some a)) = R.count (.arr (some a)) := fun a =>
    List.count_cons_of_ne (hv a)
  refine ⟨hr.den, ?_, ?_, hr.fits, hr.pos⟩
  · intro a n hg; rw [← hc]; exact hr.cnt a n hg
  · intro a hg; rw [← hc]; exact hr.dead a hg

theorem Rep.cons {h D v R} (hr : Rep h D R) (hv : ∀ a, v ≠ .arr (some a)) :
    Rep h D (v :: R) := by
  have hc : ∀ a, (v :: R).count (.arr (some a)) = R.count (.arr (some a)) := fun a =>
    List.count_cons_of_ne (hv a)
  refine ⟨hr.den, ?_, ?_, hr.fits, hr.pos⟩
  · intro a n hg; rw [hc]; exact hr.cnt a n hg
  · intro a hg; rw [hc]; exact hr.dead a hg

theorem dropF_ok : ∀ (k : Nat) (h : Heap) (D : Nat → List JV) (ws R : List Val),
    Rep h D (ws ++ R) → weight h + ws.length ≤ k →
    ∃ h', dropF k h ws = some h' ∧ Rep h' D R ∧ Frame R .null h h'
  | k, h, D, [], R, hr, _ => by
    refine ⟨h, ?_, by simpa using hr, Frame.refl _ _ _⟩
    cases k <;> rfl
  | 0, h, D, w :: ws, R, hr, hk => by simp at hk
  | k + 1, h, D, w :: ws, R, hr, hk => by
    simp only [List.length_cons] at hk
    match w with
    | .null =>
      exact dropF_ok k h D ws R (hr.tail (by simp)) (by omega)
    | .num i =>
      exact dropF_ok k h D ws R (hr.tail (by simp)) (by omega)
    | .arr none =>
      exact dropF_ok k h D ws R (hr.tail (by simp)) (by omega)
    | .arr (some a) =>
      obtain ⟨n, hg⟩ := hr.live_root (a := a) (by simp)
      have hcnt := hr.cnt a n hg
      simp only [List.cons_append, List.count_cons_self, List.count_append] at hcnt
      by_cases h1 : n.rc = 1
      · have hw := (weight_set hg).1
        obtain ⟨h', he, hr', hf⟩ := dropF_ok k (h.set a none) D (n.elems ++ ws) R
          (by rw [List.append_assoc]; exact Rep.free hr hg h1)
          (by simp only [List.length_append]; omega)
        refine ⟨h', ?_, hr', (frame_set hg (by omega) _).trans hf⟩
        simp only [dropF, hg, h1, if_true]; exact he
      · have hw := (weight_set hg).2 { n with rc := n.rc - 1 } rfl
        obtain ⟨h', he, hr', hf⟩ := dropF_ok k (h.set a (some { n with rc := n.rc - 1 })) D ws R
          (Rep.subRef hr hg h1) (by omega)
        refine ⟨h', ?_, hr', (frame_set hg (by omega) _).trans hf⟩
        simp only [dropF, hg, h1, if_false]; exact he

theorem drop_ok {h D ws R} (hr : Rep h D (ws ++ R)) :
    ∃ h', drop h ws = some h' ∧ Rep h' D R ∧ Frame R .null h h' :=
  dropF_ok _ h D ws R hr (Nat.le_refl _)

/-- Blocks that survive a destruction keep their elements. -/
theorem dropF_keeps : ∀ (k : Nat) (h : Heap) (ws : List Val) (h' : Heap),
    dropF k h ws = some h' → ∀ a n', get h' a = some n' →
      ∃ n, get h a = some n ∧ n'.elems = n.elems ∧ n'.cap = n.cap
  | k, h, [], h', he, a, n', hg => by
    have : h' = h := by cases k <;> simpa [dropF] using he.symm
    subst this; exact ⟨n', hg, rfl, rfl⟩
  | 0, h, w :: ws, h', he, a, n', hg => by cases w <;> simp [dropF] at he
  | k + 1, h, w :: ws, h', he, a, n', hg => by
    match w with
    | .null => exact dropF_keeps k h ws h' he a n' hg
    | .num i => exact dropF_keeps k h ws h' he a n' hg
    | .arr none => exact dropF_keeps k h ws h' he a n' hg
    | .arr (some b) =>
      simp only [dropF] at he
      cases hb : get h b with
      | none => simp [hb] at he
      | some m =>
        simp only [hb] at he
        split at he
        · obtain ⟨n, h1, h2, h3⟩ := dropF_keeps k _ _ h' he a n' hg
          rw [get_set hb] at h1
          split at h1
          · simp at h1
          · exact ⟨n, h1, h2, h3⟩
        · obtain ⟨n, h1, h2, h3⟩ := dropF_keeps k _ _ h' he a n' hg
          rw [get_set hb] at h1
          split at h1
          · cases h1; subst a; exact ⟨m, hb, h2, h3⟩
          · exact ⟨n, h1, h2, h3⟩

/-! ## References -/

theorem ref_ok {h D R v} (hr : Rep h D R)
    (hv : ∀ a, v = .arr (some a) → ∃ n, get h a = some n) :
    ∃ h', ref h v = some h' ∧ Rep h' D (v :: R) ∧ h'.length = h.length ∧
      (∀ b, Val.arr (some b) ≠ v → get h' b = get h b) ∧
      (∀ b n, get h b = some n → ∃ n', get h' b = some n' ∧ n'.elems = n.elems ∧
        n'.cap = n.cap) := by
  match v with
  | .null => exact ⟨h, rfl, hr.cons (by simp), rfl, fun _ _ => rfl, fun b n hg => ⟨n, hg, rfl, rfl⟩⟩
  | .num _ => exact ⟨h, rfl, hr.cons (by simp), rfl, fun _ _ => rfl, fun b n hg => ⟨n, hg, rfl, rfl⟩⟩
  | .arr none =>
    exact ⟨h, rfl, hr.cons (by simp), rfl, fun _ _ => rfl, fun b n hg => ⟨n, hg, rfl, rfl⟩⟩
  | .arr (some a) =>
    obtain ⟨n, hg⟩ := hv a rfl
    refine ⟨h.set a (some { n with rc := n.rc + 1 }), by simp [ref, hg], hr.addRef hg, by simp,
      ?_, ?_⟩
    · intro b hb
      rw [get_set hg, if_neg]
      rintro rfl; exact hb rfl
    · intro b m hb
      rw [get_set hg]
      split
      · subst b; rw [hg] at hb; cases hb; exact ⟨_, rfl, rfl, rfl⟩
      · exact ⟨m, hb, rfl, rfl⟩

theorem refAll_ok : ∀ (es : List Val) (h : Heap) (D : Nat → List JV) (R : List Val),
    Rep h D R → (∀ a, Val.arr (some a) ∈ es → ∃ n, get h a = some n) →
    ∃ h', refAll h es = some h' ∧ Rep h' D (es ++ R) ∧ h'.length = h.length ∧
      (∀ b, Val.arr (some b) ∉ es → get h' b = get h b)
  | [], h, D, R, hr, _ => ⟨h, rfl, hr, rfl, fun _ _ => rfl⟩
  | e :: es, h, D, R, hr, hv => by
    obtain ⟨h1, he1, hr1, hl1, hb1, hk1⟩ := ref_ok (v := e) hr
      (fun a ha => hv a (by simp [ha]))
    obtain ⟨h2, he2, hr2, hl2, hb2⟩ := refAll_ok es h1 D (e :: R) hr1 (fun a ha => by
      obtain ⟨n, hn⟩ := hv a (by simp [ha])
      obtain ⟨n', hn', _⟩ := hk1 a n hn
      exact ⟨n', hn'⟩)
    refine ⟨h2, by simp [refAll, he1, he2], hr2.perm List.perm_middle, by omega, ?_⟩
    intro b hb
    simp only [List.mem_cons, not_or] at hb
    rw [hb2 b hb.2, hb1 b hb.1]

/-! ## Blocks of one's own -/

theorem le_pow2Up (n : Nat) : n ≤ pow2Up n := by
  unfold pow2Up
  split
  · assumption
  · have := Nat.lt_log2_self (n := n - 1)
    omega

theorem newCap_ge (ncap size : Nat) : ncap ≤ newCap ncap size ∧ size ≤ newCap ncap size := by
  have h1 : max (max ncap 8) size ≤ newCap ncap size := by
    unfold newCap
    simp only
    split
    · exact le_pow2Up _
    · have := Nat.div_add_mod (max (max ncap 8) size - 1) (2 ^ 14)
      have := Nat.mod_lt (max (max ncap 8) size - 1) (show 2 ^ 14 > 0 by decide)
      omega
  omega

/-- The elements of an array value; none for other values. -/
def items : JV → List JV
  | .arr l => l
  | _ => []

/-- What is known after a value has been given a block of its own. -/
structure Own (h : Heap) (D : Nat → List JV) (R : List Val) (b : Nat) (n : Node) : Prop where
  rep : Rep h D (.arr (some b) :: R)
  live : get h b = some n
  one : n.rc = 1

theorem hardUniqueify_ok {conv ncap h D v R} (hr : Rep h D (v :: R))
    (hc : conv = true ∨ ∀ i, v ≠ .num i) :
    ∃ h' b n D', hardUniqueify conv ncap h v = some (h', .arr (some b)) ∧ Own h' D' R b n ∧
      ncap ≤ n.cap ∧ n.elems.map (dv D') = items (dv D v) ∧ (∀ u ∈ R, dv D' u = dv D u) ∧
      Frame R .null h h' := by
  have hfresh : (∀ a, v ≠ .arr (some a)) → items (dv D v) = [] →
      ∃ h' b n D', some (h ++ [some ⟨1, newCap ncap 0, []⟩], Val.arr (some h.length))
        = some (h', Val.arr (some b)) ∧ Own h' D' R b n ∧
      ncap ≤ n.cap ∧ n.elems.map (dv D') = items (dv D v) ∧ (∀ u ∈ R, dv D' u = dv D u) ∧
      Frame R .null h h' := by
    intro hv hi
    have hr1 := hr.tail hv
    have hr2 := Rep.alloc (es := []) (c := newCap ncap 0) (by simpa using hr1) (by simp)
    refine ⟨_, _, ⟨1, newCap ncap 0, []⟩, _, rfl, ⟨hr2, by simp [get_append], rfl⟩,
      (newCap_ge _ _).1, by simp [hi], ?_, frame_append _ _ _ _⟩
    intro u hu
    apply dv_congr
    intro a ha
    apply upd_ne
    rintro rfl
    obtain ⟨n, hn⟩ := hr1.live_root (ha ▸ hu)
    rw [get_end] at hn; cases hn
  match v, hr, hc, hfresh with
  | .null, hr, hc, hfresh => exact hfresh (by simp) rfl
  | .arr none, hr, hc, hfresh => exact hfresh (by simp) rfl
  | .num i, hr, hc, hfresh =>
    have : conv = true := by
      rcases hc with hc | hc
      · exact hc
      · exact absurd rfl (hc i)
    simp only [hardUniqueify, this, if_true]
    exact hfresh (by simp) rfl
  | .arr (some a), hr, hc, hfresh =>
    obtain ⟨n, hg⟩ := hr.live_root (a := a) (by simp)
    have hcap := newCap_ge ncap n.elems.length
    by_cases h1 : n.rc = 1
    · have hr1 := hr.free hg h1
      have hr2 := Rep.alloc (c := newCap ncap n.elems.length) hr1 hcap.2
      rw [List.length_set] at hr2
      refine ⟨_, _, ⟨1, newCap ncap n.elems.length, n.elems⟩, _, by simp [hardUniqueify, hg, h1],
        ⟨hr2, by simp [get_append], rfl⟩, hcap.1, ?_, ?_, ?_⟩
      · simp only [items, dv]
        rw [hr.den a n hg]
        apply map_dv_congr
        intro c hc'
        apply upd_ne
        rintro rfl
        obtain ⟨m, hm⟩ := hr.live_elem hg hc'
        rw [get_end] at hm; cases hm
      · intro u hu
        apply dv_congr
        intro c hc'
        apply upd_ne
        rintro rfl
        obtain ⟨m, hm⟩ := hr.live_root (a := h.length) (by simp [← hc', hu])
        rw [get_end] at hm; cases hm
      · refine (frame_set hg ?_ none).trans (frame_append _ _ _ _)
        have := hr.cnt a n hg
        simp at this; omega
    · obtain ⟨h2, he2, hr2, hl2, hb2⟩ := refAll_ok n.elems h D _ hr
        (fun c hc' => hr.live_elem hg hc')
      have hr3 := Rep.alloc (c := newCap ncap n.elems.length) hr2 hcap.2
      rw [hl2] at hr3
      obtain ⟨h4, he4, hr4, hf4⟩ := drop_ok (ws := [Val.arr (some a)])
        (R := .arr (some h.length) :: R) (hr3.perm (List.Perm.swap _ _ _))
      have hroot : Val.arr (some h.length) ∉ R := by
        intro hm
        obtain ⟨m, hm⟩ := hr.live_root (a := h.length) (by simp [hm])
        rw [get_end] at hm; cases hm
      have hlive : get h4 h.length = some ⟨1, newCap ncap n.elems.length, n.elems⟩ := by
        apply hf4
        · rw [get_append, if_pos hl2.symm]
        · simp
        · simp
      refine ⟨h4, h.length, ⟨1, newCap ncap n.elems.length, n.elems⟩, _, ?_,
        ⟨hr4, hlive, rfl⟩, hcap.1, ?_, ?_, ?_⟩
      · simp [hardUniqueify, hg, h1, he2, he4]
      · simp only [items, dv]
        rw [hr.den a n hg]
        apply map_dv_congr
        intro c hc'
        apply upd_ne
        rintro rfl
        obtain ⟨m, hm⟩ := hr.live_elem hg hc'
        rw [get_end] at hm; cases hm
      · intro u hu
        apply dv_congr
        intro c hc'
        apply upd_ne
        rintro rfl
        exact hroot (hc' ▸ hu)
      · intro b m hb hc' _
        have hbl := get_lt hb
        apply hf4
        · rw [get_append, if_neg (by omega), hb2, hb]
          intro hm
          have := List.count_pos_iff.2 hm
          have := inner_ge hg (.arr (some b))
          have hcb := hr.cnt b m hb
          rw [List.count_cons] at hcb
          omega
        · rw [List.count_cons]; omega
        · simp

theorem uniqueify_ok {conv ncap h D v R} (hr : Rep h D (v :: R))
    (hc : conv = true ∨ ∀ i, v ≠ .num i) :
    ∃ h' b n D', uniqueify conv ncap h v = some (h', .arr (some b)) ∧ Own h' D' R b n ∧
      ncap ≤ n.cap ∧ n.elems.map (dv D') = items (dv D v) ∧ (∀ u ∈ R, dv D' u = dv D u) ∧
      Frame R .null h h' := by
  have hh := hardUniqueify_ok (ncap := ncap) hr hc
  match v, hr, hc, hh with
  | .null, hr, hc, hh => exact hh
  | .num _, hr, hc, hh => exact hh
  | .arr none, hr, hc, hh => exact hh
  | .arr (some a), hr, hc, hh =>
    obtain ⟨n, hg⟩ := hr.live_root (a := a) (by simp)
    simp only [uniqueify, hg]
    split
    · exact hh
    · rename_i hcond
      refine ⟨h, a, n, D, rfl, ⟨hr, hg, by omega⟩, by omega, ?_, fun _ _ => rfl, Frame.refl _ _ _⟩
      simp only [items, dv]
      exact (hr.den a n hg).symm

theorem write_ok {h D R R' b n es} (ho : Own h D R b n)
    (hcount : ∀ c, es.count (.arr (some c)) + R'.count (.arr (some c))
      = n.elems.count (.arr (some c)) + R.count (.arr (some c)))
    (hc : es.length ≤ n.cap) :
    ∃ h' D', write h (.arr (some b)) es = some h' ∧ Own h' D' R' b { n with elems := es } ∧
      D' b = es.map (dv D) ∧ (∀ u ∈ R', dv D' u = dv D u) ∧ (∀ u ∈ es, dv D' u = dv D u) ∧
      Frame R .null h h' ∧ Frame R' .null h h' := by
  have h0 := ho.rep.only ho.live ho.one
  have hle := inner_ge ho.live (.arr (some b))
  have hb := hcount b
  have hR : R'.count (.arr (some b)) = 0 := by omega
  have hE : es.count (.arr (some b)) = 0 := by omega
  have hv : ∀ (u : Val) (l : List Val), u ∈ l → l.count (.arr (some b)) = 0 →
      dv (Function.update D b (es.map (dv D))) u = dv D u := by
    intro u l hu hl
    apply dv_congr
    intro a ha
    apply upd_ne
    rintro rfl
    exact List.count_eq_zero.1 hl (ha ▸ hu)
  refine ⟨_, _, by simp [write, ho.live, hc], ⟨ho.rep.write ho.live ho.one hcount hc, ?_, ho.one⟩,
    by simp, fun u hu => hv u _ hu hR, fun u hu => hv u _ hu hE, ?_, ?_⟩
  · rw [get_set ho.live, if_pos rfl]
  · exact frame_set ho.live (by rw [ho.one]; omega) _
  · exact frame_set ho.live (by rw [ho.one]; omega) _

end Verif.JsonArr
