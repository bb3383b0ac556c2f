import Verif.JsonArr.Program

/-!
# Reading values, and which blocks exist
-/
namespace Verif.JsonArr

theorem mapM_some {f : Val → Option JV} {g : Val → JV} : ∀ (l : List Val),
    (∀ v ∈ l, f v = some (g v)) → l.mapM f = some (l.map g)
  | [], _ => rfl
  | v :: l, h => by
    rw [List.mapM_cons, h v (by simp), mapM_some l fun u hu => h u (by simp [hu])]
    rfl

theorem size_elem {D : Nat → List JV} {a : Nat} {es : List Val} {v : Val} (hd : D a = es.map (dv D))
    (hv : v ∈ es) : sizeOf (dv D v) < sizeOf (dv D (.arr (some a))) := by
  have h1 : dv D v ∈ D a := by rw [hd]; exact List.mem_map_of_mem hv
  have h2 := List.sizeOf_lt_of_mem h1
  rw [dv_arr]
  simp only [JV.arr.sizeOf_spec]
  omega

theorem readAll_ok {h D R} (hr : Rep h D R) : ∀ (k : Nat) (v : Val),
    (∀ a, v = .arr (some a) → ∃ n, get h a = some n) → sizeOf (dv D v) ≤ k →
    readAll h k v = some (dv D v)
  | k, .null, _, _ => by cases k <;> rfl
  | k, .num i, _, _ => by cases k <;> rfl
  | k, .arr none, _, _ => by cases k <;> rfl
  | 0, .arr (some a), _, hk => by rw [dv_arr] at hk; simp at hk
  | k + 1, .arr (some a), hv, hk => by
    obtain ⟨n, hg⟩ := hv a rfl
    have hd := hr.den a n hg
    simp only [readAll, hg]
    rw [mapM_some (g := dv D) n.elems, dv_arr, hd]
    · rfl
    · intro v hm
      apply readAll_ok hr k v
      · intro c hc; exact hr.live_elem hg (hc ▸ hm)
      · have := size_elem hd hm
        omega

/-- A block can be found from the roots. -/
inductive Reach (h : Heap) (R : List Val) : Nat → Prop
  | root {a} : Val.arr (some a) ∈ R → Reach h R a
  | elem {b a n} : Reach h R b → get h b = some n → Val.arr (some a) ∈ n.elems → Reach h R a

theorem inner_pos {h : Heap} {v : Val} (hp : 0 < inner h v) :
    ∃ b n, get h b = some n ∧ v ∈ n.elems := by
  induction h with
  | nil => simp [inner] at hp
  | cons o h ih =>
    by_cases h0 : 0 < cntO v o
    · cases o with
      | none => simp [cntO] at h0
      | some n => exact ⟨0, n, rfl, List.count_pos_iff.1 h0⟩
    · have : 0 < inner h v := by
        simp only [inner, List.map_cons, List.sum_cons] at hp ⊢; omega
      obtain ⟨b, n, hb, hm⟩ := ih this
      exact ⟨b + 1, n, by simpa [get] using hb, hm⟩

theorem reach_of_live {h D R} (hr : Rep h D R) (N : Nat)
    (hN : ∀ b n, get h b = some n → sizeOf (D b) ≤ N) : ∀ (d a : Nat) (n : Node),
    get h a = some n → N - sizeOf (D a) ≤ d → Reach h R a := by
  intro d
  induction d with
  | zero =>
    intro a n hg hd
    have hp := hr.pos a n hg
    have hc := hr.cnt a n hg
    by_cases h0 : 0 < R.count (.arr (some a))
    · exact .root (List.count_pos_iff.1 h0)
    · obtain ⟨b, m, hb, hm⟩ := inner_pos (h := h) (v := .arr (some a)) (by omega)
      have h1 := size_elem (hr.den b m hb) hm
      simp only [dv_arr, JV.arr.sizeOf_spec] at h1
      have := hN b m hb
      omega
  | succ d ih =>
    intro a n hg hd
    have hp := hr.pos a n hg
    have hc := hr.cnt a n hg
    by_cases h0 : 0 < R.count (.arr (some a))
    · exact .root (List.count_pos_iff.1 h0)
    · obtain ⟨b, m, hb, hm⟩ := inner_pos (h := h) (v := .arr (some a)) (by omega)
      have h1 := size_elem (hr.den b m hb) hm
      simp only [dv_arr, JV.arr.sizeOf_spec] at h1
      have := hN b m hb
      exact .elem (ih b m hb (by omega)) hb hm

theorem live_iff_reach {h D R} (hr : Rep h D R) (a : Nat) :
    (∃ n, get h a = some n) ↔ Reach h R a := by
  constructor
  · rintro ⟨n, hg⟩
    have hN : ∃ N, ∀ b < h.length, sizeOf (D b) ≤ N := by
      generalize h.length = len
      induction len with
      | zero => exact ⟨0, by simp⟩
      | succ k ih =>
        obtain ⟨N, hN⟩ := ih
        refine ⟨max N (sizeOf (D k)), fun b hb => ?_⟩
        by_cases hbk : b = k
        · subst hbk; omega
        · have := hN b (by omega); omega
    obtain ⟨N, hN⟩ := hN
    exact reach_of_live hr N (fun b n hb => hN b (get_lt hb)) _ a n hg (Nat.le_refl _)
  · intro hre
    cases hre with
    | root hm => exact hr.live_root hm
    | elem _ hb hm => exact hr.live_elem hb hm

end Verif.JsonArr
