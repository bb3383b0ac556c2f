import Verif.SmallVector.Local
import Verif.SmallVector.Spec

/-!
# Vectors refine lists
-/
namespace Verif.SmallVector

variable {T : Type} {N : Nat}

def Fresh (m : Mem T) : Prop := ∀ b, m.next ≤ b → m.blocks b = none

/-- The vectors hold the lists, share no memory, and all memory is theirs. -/
structure R (N : Nat) (s : Sys T) (σ : Nat → Option (List T)) : Prop where
  holds : ∀ v w, s.vecs v = some w → ∃ l, σ v = some l ∧ Holds N s.mem w l
  gone : ∀ v, s.vecs v = none → σ v = none
  apart : ∀ v v' w w', s.vecs v = some w → s.vecs v' = some w' → v ≠ v' →
    w.first ≠ w'.first ∧ w.first ≠ w'.lv ∧ w.lv ≠ w'.lv
  fresh : Fresh s.mem
  owned : ∀ b, s.mem.blocks b ≠ none → ∃ v w, s.vecs v = some w ∧ (b = w.first ∨ b = w.lv)

theorem Holds.first_lt {m : Mem T} {w : Vec} {l : List T} (h : Holds N m w l) (hf : Fresh m) : w.first < m.next := by
  by_contra hc
  have := h.mem
  rw [hf _ (by omega)] at this
  cases this

theorem Holds.lv_lt {m : Mem T} {w : Vec} {l : List T} (h : Holds N m w l) (hf : Fresh m) : w.lv < m.next := by
  by_cases hl : w.first = w.lv
  · rw [← hl]; exact h.first_lt hf
  · by_contra hc
    have := h.lv hl
    rw [hf _ (by omega)] at this
    cases this

theorem Holds.congr {m m' : Mem T} {w : Vec} {l : List T} (h : Holds N m w l) (h1 : m'.blocks w.first = m.blocks w.first)
    (h2 : m'.blocks w.lv = m.blocks w.lv) : Holds N m' w l :=
  ⟨h.last, h.le, h1.trans h.mem, fun hne => h2.trans (h.lv hne), h.small, h.pow, h.lt⟩

theorem R.vec {s : Sys T} {σ : Nat → Option (List T)} (h : R N s σ) {v : Nat} {l : List T} (hv : σ v = some l) :
    ∃ w, s.vecs v = some w ∧ Holds N s.mem w l := by
  cases hw : s.vecs v with
  | none => rw [h.gone v hw] at hv; cases hv
  | some w =>
    obtain ⟨l', h1, h2⟩ := h.holds v w hw
    rw [hv] at h1
    cases h1
    exact ⟨w, rfl, h2⟩

/-- An operation on one vector. -/
theorem R.on {s : Sys T} {σ : Nat → Option (List T)} (h : R N s σ) {v : Nat} {w w' : Vec} {m' : Mem T} {l l' : List T}
    (hw : s.vecs v = some w) (hl : Holds N s.mem w l) (hF : Frame s.mem w m' w') (hl' : Holds N m' w' l') (hf : Fresh m') :
    R N ⟨m', Function.update s.vecs v (some w')⟩ (Function.update σ v (some l')) := by
  have hfirst := hl.first_lt h.fresh
  have hlv := hl.lv_lt h.fresh
  have sep : ∀ u x, u ≠ v → s.vecs u = some x → (x.first ≠ w'.first ∧ x.lv ≠ w'.first) := by
    intro u x hu hx
    obtain ⟨lx, -, hlx⟩ := h.holds u x hx
    obtain ⟨a1, a2, a3⟩ := h.apart u v x w hx hw hu
    obtain ⟨c1, c2, c3⟩ := h.apart v u w x hw hx hu.symm
    have := hlx.first_lt h.fresh
    have := hlx.lv_lt h.fresh
    rcases hF.first with e | ⟨e, -, -⟩
    · rw [e]; exact ⟨a1, c2.symm⟩
    · omega
  refine ⟨?_, ?_, ?_, hf, ?_⟩
  · intro u x hx
    simp only at hx ⊢
    by_cases hu : u = v
    · subst hu
      rw [Function.update_self] at hx ⊢
      cases hx
      exact ⟨l', rfl, hl'⟩
    · rw [Function.update_of_ne hu] at hx ⊢
      obtain ⟨lx, e, hlx⟩ := h.holds u x hx
      obtain ⟨a1, a2, a3⟩ := h.apart u v x w hx hw hu
      obtain ⟨c1, c2, c3⟩ := h.apart v u w x hw hx (Ne.symm hu)
      obtain ⟨s1, s2⟩ := sep u x hu hx
      exact ⟨lx, e, hlx.congr (hF.other _ a1 a2 s1) (hF.other _ c2.symm a3 s2)⟩
  · intro u hu
    simp only at hu
    by_cases huv : u = v
    · subst huv; rw [Function.update_self] at hu; cases hu
    · rw [Function.update_of_ne huv] at hu ⊢; exact h.gone u hu
  · intro u u' x x' hx hx' hne
    simp only at hx hx'
    by_cases hu : u = v
    · subst hu
      rw [Function.update_self] at hx
      rw [Function.update_of_ne (Ne.symm hne)] at hx'
      cases hx
      obtain ⟨s1, s2⟩ := sep u' x' (Ne.symm hne) hx'
      obtain ⟨a1, a2, a3⟩ := h.apart u u' w x' hw hx' hne
      exact ⟨s1.symm, s2.symm, by rw [hF.lv]; exact a3⟩
    · rw [Function.update_of_ne hu] at hx
      by_cases hu' : u' = v
      · subst hu'
        rw [Function.update_self] at hx'
        cases hx'
        obtain ⟨s1, s2⟩ := sep u x hu hx
        obtain ⟨a1, a2, a3⟩ := h.apart u u' x w hx hw hu
        exact ⟨s1, by rw [hF.lv]; exact a2, by rw [hF.lv]; exact a3⟩
      · rw [Function.update_of_ne hu'] at hx'
        exact h.apart u u' x x' hx hx' hne
  · intro b hb
    simp only at hb ⊢
    by_cases hb' : b = w'.first
    · exact ⟨v, w', by rw [Function.update_self], Or.inl hb'⟩
    by_cases hbl : b = w.lv
    · exact ⟨v, w', by rw [Function.update_self], Or.inr (by rw [hF.lv]; exact hbl)⟩
    by_cases hbf : b = w.first
    · exfalso
      rcases hF.first with e | ⟨-, -, e⟩
      · exact hb' (by rw [e]; exact hbf)
      · exact hb (by rw [hbf]; exact e (by rw [← hbf]; exact hbl))
    · rw [hF.other b hbf hbl hb'] at hb
      obtain ⟨u, x, hx, hc⟩ := h.owned b hb
      have hu : u ≠ v := by
        rintro rfl
        rw [hw] at hx
        cases hx
        tauto
      exact ⟨u, x, by rw [Function.update_of_ne hu]; exact hx, hc⟩

/-! ### The operations on one vector -/

variable {m : Mem T} {w : Vec} {l : List T}

theorem fresh_put (hf : Fresh m) {b : Nat} (hb : b < m.next) (B : Option (Block T)) : Fresh (m.put b B) := by
  intro c hc
  have hc' : m.next ≤ c := hc
  rw [put_other _ (by omega)]
  exact hf c hc'

theorem frame_refl (m : Mem T) (w : Vec) : Frame m w m w := ⟨rfl, Nat.le_refl _, fun _ _ _ _ => rfl, Or.inl rfl⟩

variable (left : T → T)

theorem room_spec [DecidableEq T] (hN : 0 < N) (h : Holds N m w l) (hf : Fresh m) (hl : l.length < 2 ^ 31) :
    ∃ m' w', room left w m = some (m', w') ∧ Holds N m' w' l ∧ Frame m w m' w' ∧
      Fresh m' ∧ l.length < w'.cap ∧ (w.last ≠ w.cap → w' = w ∧ m' = m) := by
  have hlast := h.last
  have hle := h.le
  unfold room
  by_cases hc : w.last = w.cap
  · rw [if_pos hc]
    obtain ⟨m', w', e, h1, h2, h3, h4, h5, -⟩ := grow_spec left hN h hf (n := 0) (by omega) (Or.inl (by omega))
    exact ⟨m', w', e, h1, h2, h5, by omega, fun hne => absurd hc hne⟩
  · rw [if_neg hc]
    exact ⟨m, w, rfl, h, frame_refl m w, hf, by omega, fun _ => ⟨rfl, rfl⟩⟩

theorem construct_spec (h : Holds N m w l) (hf : Fresh m) (hl : l.length < w.cap) (t : T) :
    ∃ m', m.construct w.first w.last t = some m' ∧ Holds N m' { w with last := w.last + 1 } (l ++ [t]) ∧
      Frame m w m' { w with last := w.last + 1 } ∧ Fresh m' := by
  have hm := h.mem
  have e : w.cap - l.length = w.cap - (l ++ [t]).length + 1 := by simp; omega
  rw [e, raws_succ] at hm
  refine ⟨_, construct_at hm (by simp [h.last]), ?_, frame_change _ _ _ _, fresh_put hf (h.first_lt hf) _⟩
  have := h.change (l' := l ++ [t]) (n := w.last + 1) (by simp; omega) (by simp [h.last])
  simpa using this

theorem read_spec (h : Holds N m w l) (i : Nat) : m.read w.first i = l[i]? := by
  simp only [Mem.read, h.mem]
  by_cases hi : i < l.length
  · rw [List.getElem?_append_left (by simpa using hi)]
    simp [objs, hi]
  · rw [List.getElem?_append_right (by simp; omega)]
    simp only [objs_length, raws]
    rw [List.getElem?_eq_none (l := l) (by omega), List.getElem?_replicate]
    split <;> simp_all

theorem set_spec (h : Holds N m w l) (hf : Fresh m) {i : Nat} (hi : i < l.length) (t : T) :
    ∃ m', m.assign w.first i t = some m' ∧ Holds N m' w (l.set i t) ∧ Frame m w m' w ∧ Fresh m' := by
  have e : l = l.take i ++ l[i] :: l.drop (i + 1) := by simp
  have hm : m.blocks w.first = some ⟨decide (w.first = w.lv), objs (l.take i) ++ .obj l[i] :: (objs (l.drop (i + 1)) ++
      raws (w.cap - l.length))⟩ := by
    rw [h.mem]
    conv_lhs => rw [e]
    simp only [objs_append, objs_cons, List.append_assoc, List.cons_append]
    rw [← e]
  refine ⟨_, assign_at hm (by simp; omega), ?_, frame_change m w _ w.last, fresh_put hf (h.first_lt hf) _⟩
  have hle := h.le
  have := h.change (l' := l.set i t) (n := w.last) (by simpa using hle) (by simp [h.last])
  have e2 : l.set i t = l.take i ++ t :: l.drop (i + 1) := by
    rw [List.set_eq_take_append_cons_drop, if_pos hi]
  rw [List.length_set] at this
  have e3 : objs (l.set i t) = objs (l.take i) ++ .obj t :: objs (l.drop (i + 1)) := by
    rw [e2]; simp
  rw [e3] at this
  simpa using this

theorem pop_spec (h : Holds N m w l) (hf : Fresh m) (hl : l ≠ []) :
    ∃ m' w', pop w m = some (m', w') ∧ Holds N m' w' l.dropLast ∧ Frame m w m' w' ∧ Fresh m' := by
  obtain ⟨l, t, rfl⟩ := (List.eq_nil_or_concat l).resolve_left hl
  have hm := h.mem
  have hlast := h.last
  have hle := h.le
  simp only [List.concat_eq_append, List.length_append, List.length_cons, List.length_nil] at hlast hle
  simp only [List.concat_eq_append, objs_append, objs_cons, objs_nil, List.append_assoc, List.cons_append, List.nil_append] at hm
  unfold pop
  rw [if_neg (by omega), destroy_at hm (by simp; omega)]
  refine ⟨_, _, rfl, ?_, frame_change _ _ _ _, fresh_put hf (h.first_lt hf) _⟩
  have := h.change (l' := l) (n := w.last - 1) (by omega) (by omega)
  have e : w.cap - l.length = w.cap - (l ++ [t]).length + 1 := by simp; omega
  rw [e, raws_succ] at this
  simpa using this

theorem clear_spec (h : Holds N m w l) (hf : Fresh m) :
    ∃ m' w', clear w m = some (m', w') ∧ Holds N m' w' [] ∧ Frame m w m' w' ∧ Fresh m' ∧ w'.cap = w.cap := by
  have hm := h.mem
  have hle := h.le
  unfold clear
  rw [h.last, destroyAll_spec l (p := []) (i := 0) hm rfl]
  refine ⟨_, _, rfl, ?_, frame_change _ _ _ _, fresh_put hf (h.first_lt hf) _, rfl⟩
  have := h.change (l' := []) (n := 0) (by simp) (by simp)
  simp only [List.nil_append]
  rw [← raws_add, Nat.add_sub_cancel' hle]
  simpa using this

theorem resize_mid_spec (h : Holds N m w l) (hf : Fresh m) (n : Nat) (t : T) (hn : n ≤ w.cap) :
    ∃ m', ((destroyAll w.first (w.last - n) n m).bind fun m => fillAll w.first t (max n w.last - w.last) w.last m) = some m' ∧
      Holds N m' { w with last := n } (l.take n ++ List.replicate (n - l.length) t) ∧
      Frame m w m' { w with last := n } ∧ Fresh m' := by
  have hm := h.mem
  have hle := h.le
  have hlast := h.last
  by_cases hc : n ≤ l.length
  · have e : l = l.take n ++ l.drop n := by simp
    have hm' : m.blocks w.first = some ⟨decide (w.first = w.lv), objs (l.take n) ++ (objs (l.drop n) ++ raws (w.cap - l.length))⟩ := by
      rw [hm, ← List.append_assoc, ← objs_append, ← e]
    have hd := destroyAll_spec (l.drop n) hm' (i := n) (by simp; omega)
    rw [List.length_drop] at hd
    rw [hlast, hd, Option.bind_some, Nat.max_eq_right hc, Nat.sub_self]
    refine ⟨_, rfl, ?_, frame_change _ _ _ _, fresh_put hf (h.first_lt hf) _⟩
    have := h.change (l' := l.take n) (n := n) (by simp; omega) (by simp; omega)
    rw [← raws_add]
    have e2 : l.length - n + (w.cap - l.length) = w.cap - (l.take n).length := by simp; omega
    rw [e2, show n - l.length = 0 by omega]
    simpa using this
  · rw [hlast, show l.length - n = 0 by omega]
    simp only [destroyAll, Option.bind_some]
    have e : w.cap - l.length = (max n l.length - l.length) + (w.cap - n) := by omega
    rw [e, raws_add] at hm
    rw [fillAll_spec t (max n l.length - l.length) hm (by simp)]
    refine ⟨_, rfl, ?_, frame_change _ _ _ _, fresh_put hf (h.first_lt hf) _⟩
    have hmax : max n l.length - l.length = n - l.length := by omega
    have := h.change (l' := l ++ List.replicate (n - l.length) t) (n := n) (by simp; omega) (by simp; omega)
    rw [hmax, List.take_of_length_le (by omega)]
    have e2 : w.cap - (l ++ List.replicate (n - l.length) t).length = w.cap - n := by simp; omega
    rw [e2] at this
    simpa using this

theorem erase_spec (h : Holds N m w l) (hf : Fresh m) {i j : Nat} (hij : i ≤ j) (hj : j ≤ l.length) :
    ∃ m' w', erase left w i j m = some (m', w') ∧ Holds N m' w' (l.take i ++ l.drop j) ∧ Frame m w m' w' ∧ Fresh m' := by
  have hm := h.mem
  have hle := h.le
  have hlast := h.last
  unfold erase
  by_cases hne : i = j
  · subst hne
    rw [if_pos rfl]
    exact ⟨m, w, rfl, by simpa using h, frame_refl m w, hf⟩
  rw [if_neg hne, if_neg (by omega)]
  have e : l = l.take i ++ ((l.drop i).take (j - i) ++ l.drop j) := by
    have : l.drop j = (l.drop i).drop (j - i) := by rw [List.drop_drop]; congr 1; omega
    rw [this, List.take_append_drop, List.take_append_drop]
  have hm' : m.blocks w.first = some ⟨decide (w.first = w.lv), objs (l.take i) ++ (objs ((l.drop i).take (j - i)) ++
      (objs (l.drop j) ++ raws (w.cap - l.length)))⟩ := by
    rw [hm]
    conv_lhs => rw [e]
    simp only [objs_append, List.append_assoc]
    rw [← e]
  obtain ⟨g', hg', hs⟩ := shiftAll_spec (m := m) left (l.drop j) ((l.drop i).take (j - i))
    (by intro h0; have := congrArg List.length h0; simp at this; omega) hm' (i := i) (j := j) (by simp; omega) (by simp; omega)
  rw [List.length_drop, ← hlast] at hs
  simp only [hs, Option.bind_eq_bind, Option.bind_some]
  rw [if_neg (by omega)]
  have hgl : g'.length = w.last - (i + (w.last - j)) := by rw [hg']; simp; omega
  have hd := destroyAll_spec (m := m.put w.first (some ⟨decide (w.first = w.lv), objs (l.take i) ++ (objs (l.drop j) ++
    (objs g' ++ raws (w.cap - l.length)))⟩)) (b := w.first) g' (p := objs (l.take i) ++ objs (l.drop j))
    (r := raws (w.cap - l.length)) (o := decide (w.first = w.lv)) (i := i + (w.last - j)) (by rw [put_same]; simp)
    (by simp; omega)
  rw [← hgl]
  simp only [hlast] at hd ⊢
  simp only [hd, put_put, Option.bind_some]
  refine ⟨_, _, rfl, ?_, frame_change _ _ _ _, fresh_put hf (h.first_lt hf) _⟩
  have := h.change (l' := l.take i ++ l.drop j) (n := i + (l.length - j)) (by simp; omega) (by simp; omega)
  rw [← raws_add]
  have e2 : g'.length + (w.cap - l.length) = w.cap - (l.take i ++ l.drop j).length := by simp; omega
  rw [e2]
  simpa using this

theorem new_spec (hN : N < 2 ^ 32) (hf : Fresh m) : Holds N (new N m).1 (new N m).2 [] ∧ Fresh (new N m).1 := by
  refine ⟨⟨rfl, by simp, ?_, ?_, fun _ => rfl, ⟨0, by simp [new]⟩, hN⟩, ?_⟩
  · simp [new, Mem.alloc, raws]
  · intro h; exact absurd rfl h
  · intro b hb
    have hb' : m.next + 1 ≤ b := hb
    show Function.update _ _ _ _ = _
    rw [Function.update_of_ne (by omega)]
    exact hf b (by omega)

theorem update_idem {α : Type} (f : Nat → α) (v : Nat) (x : α) (h : f v = x) : Function.update f v x = f := by
  subst h; simp

/-! ### The operations of programs -/

variable {s : Sys T} {σ σ' : Nat → Option (List T)}

theorem R.on_eq {f : Vec → Mem T → Option (Mem T × Vec)} (h : R N s σ) {v : Nat} {l l' : List T} (hv : σ v = some l)
    (hf : ∀ w, Holds N s.mem w l → Fresh s.mem → ∃ m' w', f w s.mem = some (m', w') ∧ Holds N m' w' l' ∧ Frame s.mem w m' w' ∧
      Fresh m') :
    ∃ s', s.on v f = some s' ∧ R N s' (Function.update σ v (some l')) := by
  obtain ⟨w, hw, hl⟩ := h.vec hv
  obtain ⟨m', w', e, h1, h2, h3⟩ := hf w hl h.fresh
  refine ⟨_, ?_, h.on hw hl h2 h1 h3⟩
  simp [Sys.on, hw, e]

variable [DecidableEq T]

/-- Pushing a value that is read after growing. -/
theorem push_spec (hN : 0 < N) (h : R N s σ) {v : Nat} {w : Vec} {l : List T} (hw : s.vecs v = some w) (hl : σ v = some l)
    (hs : l.length < 2 ^ 31) {a : Arg T} {t : T}
    (ha : ∀ m' w', Holds N m' w' l → Frame s.mem w m' w' → R N ⟨m', Function.update s.vecs v (some w')⟩ σ →
      (w.last ≠ w.cap → m' = s.mem) → a.read m' = some t) :
    ∃ m' w', push left w a s.mem = some (m', w') ∧
      R N ⟨m', Function.update s.vecs v (some w')⟩ (Function.update σ v (some (l ++ [t]))) := by
  obtain ⟨_, hw', hh⟩ := h.vec hl
  rw [hw] at hw'
  cases hw'
  obtain ⟨m1, w1, e1, h1, f1, fr1, c1, i1⟩ := room_spec left hN hh h.fresh hs
  have r1 := h.on hw hh f1 h1 fr1
  rw [update_idem σ v _ hl] at r1
  obtain ⟨m2, e2, h2, f2, fr2⟩ := construct_spec h1 fr1 c1 t
  have r2 := r1.on (v := v) (by simp) h1 f2 h2 fr2
  rw [Function.update_idem] at r2
  refine ⟨m2, _, ?_, r2⟩
  unfold push
  simp only [e1, Option.bind_eq_bind, Option.bind_some, ha m1 w1 h1 f1 r1 (fun hne => (i1 hne).2), e2]
  rfl

theorem pushMove_spec (hN : 0 < N) (h : R N s σ) {v x i : Nat} {w wx : Vec} {l lx l' : List T} {t : T} (hw : s.vecs v = some w)
    (hl : σ v = some l) (hs : l.length < 2 ^ 31) (hx : s.vecs x = some wx) (hlx : σ x = some lx) (ht : lx[i]? = some t)
    (ha : v = x → w.last ≠ w.cap) (hl' : Function.update σ x (some (lx.set i (left t))) v = some l') :
    ∃ m' w', pushMove left w (.slot wx.first i) s.mem = some (m', w') ∧
      R N ⟨m', Function.update s.vecs v (some w')⟩
        (Function.update (Function.update σ x (some (lx.set i (left t)))) v (some (l' ++ [t]))) := by
  obtain ⟨_, hw', hh⟩ := h.vec hl
  rw [hw] at hw'
  cases hw'
  obtain ⟨m1, w1, e1, h1, f1, fr1, c1, i1⟩ := room_spec left hN hh h.fresh hs
  have r1 := h.on hw hh f1 h1 fr1
  rw [update_idem σ v _ hl] at r1
  have hi : i < lx.length := (List.getElem?_eq_some_iff.1 ht).1
  have hx1 : ∃ wx1, Function.update s.vecs v (some w1) x = some wx1 ∧ wx1.first = wx.first ∧ Holds N m1 wx1 lx := by
    obtain ⟨wx1, a1, a2⟩ := r1.vec hlx
    refine ⟨wx1, a1, ?_, a2⟩
    by_cases hvx : v = x
    · subst hvx
      rw [hw] at hx
      cases hx
      simp only [Function.update_self, Option.some.injEq] at a1
      rw [← a1, (i1 (ha rfl)).1]
    · simp only [Function.update_of_ne (Ne.symm hvx), hx, Option.some.injEq] at a1
      rw [a1]
  obtain ⟨wx1, hx1, hx2, hx3⟩ := hx1
  obtain ⟨m2, e2, h2, f2, fr2⟩ := set_spec hx3 fr1 hi (left t)
  have r2 := r1.on (v := x) hx1 hx3 f2 h2 fr2
  simp only at r2
  rw [update_idem (Function.update s.vecs v (some w1)) x _ hx1] at r2
  obtain ⟨w1', hw1, h3⟩ := r2.vec hl'
  simp only [Function.update_self, Option.some.injEq] at hw1
  subst hw1
  have hlen : l'.length = l.length := by
    by_cases hvx : v = x
    · subst hvx
      rw [hl] at hlx
      cases hlx
      simp only [Function.update_self, Option.some.injEq] at hl'
      rw [← hl']; simp
    · rw [Function.update_of_ne hvx, hl] at hl'
      cases hl'
      rfl
  obtain ⟨m3, e3, h4, f3, fr3⟩ := construct_spec h3 fr2 (by omega) t
  have r3 := r2.on (v := v) (by simp) h3 f3 h4 fr3
  simp only [Function.update_idem] at r3
  refine ⟨m3, _, ?_, r3⟩
  have hr : Arg.read m1 (.slot wx.first i : Arg T) = some t := by
    rw [Arg.read, ← hx2, read_spec hx3, ht]
  have hm : Arg.moved left m1 (.slot wx.first i : Arg T) = some m2 := by
    have hr' : m1.read wx.first i = some t := hr
    simp only [Arg.moved, hr', Option.bind_eq_bind, Option.bind_some]
    rw [← hx2, e2]
  unfold pushMove
  simp only [e1, Option.bind_eq_bind, Option.bind_some, hr, hm, e3]
  rfl

omit [DecidableEq T] in
theorem R.new (hN : N < 2 ^ 32) (h : R N s σ) {v : Nat} (hv : s.vecs v = none) :
    R N ⟨(SmallVector.new N s.mem).1, Function.update s.vecs v (some (SmallVector.new N s.mem).2)⟩ (Function.update σ v (some [])) := by
  obtain ⟨h1, h2⟩ := new_spec (m := s.mem) hN h.fresh
  have hb : (SmallVector.new N s.mem).1.blocks = Function.update s.mem.blocks s.mem.next (some ⟨true, List.replicate N .raw⟩) := rfl
  have hold : ∀ u x, s.vecs u = some x → x.first ≠ s.mem.next ∧ x.lv ≠ s.mem.next := by
    intro u x hx
    obtain ⟨l, -, hl⟩ := h.holds u x hx
    have := hl.first_lt h.fresh
    have := hl.lv_lt h.fresh
    omega
  refine ⟨?_, ?_, ?_, h2, ?_⟩
  · intro u x hx
    simp only at hx ⊢
    by_cases hu : u = v
    · subst hu
      rw [Function.update_self] at hx ⊢
      cases hx
      exact ⟨[], rfl, h1⟩
    · rw [Function.update_of_ne hu] at hx ⊢
      obtain ⟨lx, e, hlx⟩ := h.holds u x hx
      obtain ⟨s1, s2⟩ := hold u x hx
      exact ⟨lx, e, hlx.congr (by rw [hb, Function.update_of_ne s1]) (by rw [hb, Function.update_of_ne s2])⟩
  · intro u hu
    simp only at hu
    by_cases huv : u = v
    · subst huv; rw [Function.update_self] at hu; cases hu
    · rw [Function.update_of_ne huv] at hu ⊢; exact h.gone u hu
  · intro u u' x x' hx hx' hne
    simp only at hx hx'
    by_cases hu : u = v
    · subst hu
      rw [Function.update_self] at hx
      rw [Function.update_of_ne (Ne.symm hne)] at hx'
      cases hx
      obtain ⟨s1, s2⟩ := hold u' x' hx'
      exact ⟨s1.symm, s2.symm, s2.symm⟩
    · rw [Function.update_of_ne hu] at hx
      by_cases hu' : u' = v
      · subst hu'
        rw [Function.update_self] at hx'
        cases hx'
        obtain ⟨s1, s2⟩ := hold u x hx
        exact ⟨s1, s1, s2⟩
      · rw [Function.update_of_ne hu'] at hx'
        exact h.apart u u' x x' hx hx' hne
  · intro b hbb
    simp only at hbb ⊢
    by_cases hbn : b = s.mem.next
    · exact ⟨v, _, by rw [Function.update_self], Or.inl hbn⟩
    · rw [hb, Function.update_of_ne hbn] at hbb
      obtain ⟨u, x, hx, hc⟩ := h.owned b hbb
      have hu : u ≠ v := by rintro rfl; rw [hv] at hx; cases hx
      exact ⟨u, x, by rw [Function.update_of_ne hu]; exact hx, hc⟩

theorem reserve_spec (hN : 0 < N) {m : Mem T} {w : Vec} {l : List T} {n : Nat} (h : Holds N m w l) (hf : Fresh m)
    (hn : n ≤ 2 ^ 31 ∨ ∃ k, n = N * 2 ^ k ∧ n < 2 ^ 32) :
    ∃ m' w', reserve left w n m = some (m', w') ∧ Holds N m' w' l ∧ Frame m w m' w' ∧ Fresh m' ∧ n ≤ w'.cap := by
  unfold reserve
  rw [h.capacity]
  by_cases hc : w.cap < n
  · rw [if_pos hc]
    have hlt : w.cap < 2 ^ 31 := by
      rcases hn with hn | ⟨k, rfl, hn⟩
      · omega
      · obtain ⟨j, hj⟩ := h.pow
        rw [hj] at hc ⊢
        have h4 : j < k := (Nat.pow_lt_pow_iff_right (by decide)).1 (Nat.lt_of_mul_lt_mul_left hc)
        have h5 : N * 2 ^ (j + 1) ≤ N * 2 ^ k := Nat.mul_le_mul_left _ (Nat.pow_le_pow_right (by decide) h4)
        have h6 : N * 2 ^ (j + 1) = N * 2 ^ j * 2 := by ring
        omega
    obtain ⟨m', w', e, h1, h2, h3, h4, h5, -⟩ := grow_spec left hN h hf hlt hn
    exact ⟨m', w', e, h1, h2, h5, h3⟩
  · rw [if_neg hc]
    exact ⟨m, w, rfl, h, frame_refl m w, hf, by omega⟩

theorem resize_spec (hN : 0 < N) (h : R N s σ) {v n : Nat} {w : Vec} {l : List T} (hw : s.vecs v = some w) (hl : σ v = some l)
    (hn : n ≤ 2 ^ 31) (t : T) :
    ∃ m' w', resize left w n t s.mem = some (m', w') ∧ R N ⟨m', Function.update s.vecs v (some w')⟩
      (Function.update σ v (some (l.take n ++ List.replicate (n - l.length) t))) := by
  obtain ⟨_, hw', hh⟩ := h.vec hl
  rw [hw] at hw'
  cases hw'
  obtain ⟨m1, w1, e1, h1, f1, fr1, c1⟩ := reserve_spec left hN hh h.fresh (Or.inl hn)
  have r1 := h.on hw hh f1 h1 fr1
  obtain ⟨m2, e2, h2, f2, fr2⟩ := resize_mid_spec h1 fr1 n t c1
  have r2 := r1.on (v := v) (by simp) h1 f2 h2 fr2
  simp only [Function.update_idem] at r2
  refine ⟨m2, _, ?_, r2⟩
  unfold resize
  simp only [e1, Option.bind_eq_bind, Option.bind_some]
  rw [← Option.bind_assoc, e2]
  rfl

theorem assign_spec (hN : 0 < N) (h : R N s σ) {v x : Nat} {w wx : Vec} {l lx : List T} (hw : s.vecs v = some w) (hl : σ v = some l)
    (hx : s.vecs x = some wx) (hlx : σ x = some lx) (hne : v ≠ x) :
    ∃ m' w', assign left w wx s.mem = some (m', w') ∧ R N ⟨m', Function.update s.vecs v (some w')⟩
      (Function.update σ v (some lx)) := by
  obtain ⟨_, hw', hh⟩ := h.vec hl
  rw [hw] at hw'
  cases hw'
  obtain ⟨_, hwx', hhx⟩ := h.vec hlx
  rw [hx] at hwx'
  cases hwx'
  obtain ⟨m1, w1, e1, h1, f1, fr1, c1⟩ := clear_spec hh h.fresh
  have r1 := h.on hw hh f1 h1 fr1
  obtain ⟨m2, w2, e2, h2, f2, fr2, c2⟩ := reserve_spec left hN h1 fr1 (n := wx.cap) (Or.inr (by
    obtain ⟨k, hk⟩ := hhx.pow
    exact ⟨k, hk, hhx.lt⟩))
  have r2 := r1.on (v := v) (by simp) h1 f2 h2 fr2
  simp only [Function.update_idem] at r2
  have hx2 : Function.update s.vecs v (some w2) x = some wx := by rw [Function.update_of_ne (Ne.symm hne), hx]
  obtain ⟨lx', hlx', hhx2⟩ := r2.holds x wx hx2
  rw [Function.update_of_ne (Ne.symm hne), hlx] at hlx'
  cases hlx'
  obtain ⟨a1, -, -⟩ := r2.apart x v wx w2 hx2 (by simp) (Ne.symm hne)
  have hle := hhx.le
  have hm2 : m2.blocks w2.first = some ⟨decide (w2.first = w2.lv), [] ++ (raws lx.length ++ raws (w2.cap - lx.length))⟩ := by
    rw [h2.mem, List.nil_append, ← raws_add, Nat.add_sub_cancel' (by omega)]
    simp
  have e3 := copyAll_spec a1 lx (p := []) (i := 0) hhx2.mem hm2 rfl rfl
  have h3 := h2.change (l' := lx) (n := wx.last) (by omega) hhx.last
  have r3 := r2.on (v := v) (by simp) h2 (frame_change m2 w2 _ wx.last) h3 (fresh_put fr2 (h2.first_lt fr2) _)
  simp only [Function.update_idem] at r3
  refine ⟨_, _, ?_, r3⟩
  unfold assign
  rw [← hhx.last] at e3
  simp only [e1, e2, hhx.capacity, e3, Option.bind_eq_bind, Option.bind_some]
  simp [hhx.last]

theorem pushAll_spec (hN : 0 < N) {v x : Nat} {wx : Vec} {lx : List T} (hx : s.vecs x = some wx) (hne : v ≠ x)
    (hlx : σ x = some lx) (hs : lx.length ≤ 2 ^ 31) (k : Nat) : ∀ (i : Nat) (w : Vec) (m : Mem T), i + k = lx.length →
    R N ⟨m, Function.update s.vecs v (some w)⟩ (Function.update σ v (some (lx.take i))) →
    ∃ m' w', pushAll left wx.first k i w m = some (m', w') ∧
      R N ⟨m', Function.update s.vecs v (some w')⟩ (Function.update σ v (some lx)) := by
  induction k with
  | zero =>
    intro i w m hi h
    refine ⟨m, w, rfl, ?_⟩
    rw [List.take_of_length_le (by omega)] at h
    exact h
  | succ k ih =>
    intro i w m hi h
    have hil : i < lx.length := by omega
    obtain ⟨m1, w1, e1, r1⟩ := push_spec left hN h (v := v) (w := w) (l := lx.take i) (a := .slot wx.first i) (t := lx[i])
      (by simp) (by simp) (by simp; omega) (by
        intro m' w' _ _ r' _
        obtain ⟨l', e', h'⟩ := r'.holds x wx (by simp [Function.update_of_ne (Ne.symm hne), hx])
        rw [Function.update_of_ne (Ne.symm hne), hlx] at e'
        cases e'
        rw [Arg.read, read_spec h']
        simp [hil])
    simp only [Function.update_idem] at r1
    have e2 : lx.take i ++ [lx[i]] = lx.take (i + 1) := by simp
    rw [e2] at r1
    obtain ⟨m2, w2, e3, r2⟩ := ih (i + 1) w1 m1 (by omega) r1
    refine ⟨m2, w2, ?_, r2⟩
    simp only [pushAll, e1, Option.bind_eq_bind, Option.bind_some, e3]

theorem finish_spec (h : R N s σ) {v : Nat} {w : Vec} (hw : s.vecs v = some w) :
    ∃ m', finish N w s.mem = some m' ∧ R N ⟨m', Function.update s.vecs v none⟩ (Function.update σ v none) := by
  obtain ⟨l, hl, hh⟩ := h.holds v w hw
  have hle := hh.le
  have hd := destroyAll_spec l (p := []) (i := 0) hh.mem rfl
  rw [← hh.last] at hd
  have hraw : ([] : List (Slot T)) ++ (raws w.last ++ raws (w.cap - w.last)) = raws w.cap := by
    rw [List.nil_append, ← raws_add, Nat.add_sub_cancel' (by rw [hh.last]; exact hle)]
  rw [hraw] at hd
  have key : ∃ m', finish N w s.mem = some m' ∧ m'.next = s.mem.next ∧ m'.blocks w.first = none ∧ m'.blocks w.lv = none ∧
      ∀ b, b ≠ w.first → b ≠ w.lv → m'.blocks b = s.mem.blocks b := by
    unfold finish release
    rw [hd]
    simp only [Option.bind_eq_bind, Option.bind_some]
    by_cases hf : w.first = w.lv
    · rw [if_neg (by simp [hf]), Option.bind_some]
      have hb : (s.mem.put w.first (some ⟨decide (w.first = w.lv), raws w.cap⟩)).blocks w.lv = some ⟨true, raws N⟩ := by
        rw [← hf, put_same, hh.small hf]; simp
      rw [dealloc_at hb]
      refine ⟨_, rfl, rfl, by rw [hf, put_same], put_same _ _ _, ?_⟩
      intro b b1 b2
      rw [put_other _ b2, put_other _ b1]
    · rw [if_pos hf]
      have hb : (s.mem.put w.first (some ⟨decide (w.first = w.lv), raws w.cap⟩)).blocks w.first = some ⟨false, raws w.cap⟩ := by
        rw [put_same]; simp [hf]
      rw [dealloc_at hb, Option.bind_some, put_put]
      have hb2 : (s.mem.put w.first none).blocks w.lv = some ⟨true, raws N⟩ := by
        rw [put_other _ (Ne.symm hf), hh.lv hf]
      rw [dealloc_at hb2]
      refine ⟨_, rfl, rfl, by rw [put_other _ hf, put_same], put_same _ _ _, ?_⟩
      intro b b1 b2
      rw [put_other _ b2, put_other _ b1]
  obtain ⟨m', e, hn, h1, h2, h3⟩ := key
  refine ⟨m', e, ?_, ?_, ?_, ?_, ?_⟩
  · intro u x hx
    simp only at hx ⊢
    by_cases hu : u = v
    · subst hu; rw [Function.update_self] at hx; cases hx
    · rw [Function.update_of_ne hu] at hx ⊢
      obtain ⟨lx, e, hlx⟩ := h.holds u x hx
      obtain ⟨a1, a2, a3⟩ := h.apart u v x w hx hw hu
      obtain ⟨c1, c2, c3⟩ := h.apart v u w x hw hx (Ne.symm hu)
      exact ⟨lx, e, hlx.congr (h3 _ a1 a2) (h3 _ c2.symm a3)⟩
  · intro u hu
    simp only at hu
    by_cases huv : u = v
    · subst huv; rw [Function.update_self]
    · rw [Function.update_of_ne huv] at hu ⊢; exact h.gone u hu
  · intro u u' x x' hx hx' hne
    simp only at hx hx'
    have hu : u ≠ v := by rintro rfl; rw [Function.update_self] at hx; cases hx
    have hu' : u' ≠ v := by rintro rfl; rw [Function.update_self] at hx'; cases hx'
    rw [Function.update_of_ne hu] at hx
    rw [Function.update_of_ne hu'] at hx'
    exact h.apart u u' x x' hx hx' hne
  · intro b hb
    simp only [hn] at hb
    by_cases b1 : b = w.first
    · rw [b1]; exact h1
    by_cases b2 : b = w.lv
    · rw [b2]; exact h2
    · simp only
      rw [h3 b b1 b2]; exact h.fresh b hb
  · intro b hb
    simp only at hb ⊢
    have b1 : b ≠ w.first := by rintro rfl; exact hb h1
    have b2 : b ≠ w.lv := by rintro rfl; exact hb h2
    rw [h3 b b1 b2] at hb
    obtain ⟨u, x, hx, hc⟩ := h.owned b hb
    have hu : u ≠ v := by
      rintro rfl
      rw [hw] at hx
      cases hx
      tauto
    exact ⟨u, x, by rw [Function.update_of_ne hu]; exact hx, hc⟩

end Verif.SmallVector
