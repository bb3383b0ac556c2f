import Verif.JsonArr.Model
import Mathlib.Data.List.Count
import Mathlib.Algebra.BigOperators.Group.List.Basic

/-!
# What a memory of shared arrays stands for

`Rep h D R`: the blocks of the memory stand for the lists of values `D`, and every block is
counted as often as it is referenced from the roots `R` (variables and values under way) and
from the elements of blocks.
-/
namespace Verif.JsonArr

/-- The value of a `Json`, given the values of the blocks. -/
def dv (D : Nat → List JV) : Val → JV
  | .null => .null
  | .num i => .num i
  | .arr none => .arr []
  | .arr (some a) => .arr (D a)

theorem dv_arr (D : Nat → List JV) (a : Nat) : dv D (.arr (some a)) = .arr (D a) := rfl

/-- How often a block is referenced from the elements of a block. -/
def cntO (v : Val) : Option Node → Nat
  | none => 0
  | some n => n.elems.count v

/-- How often a block is referenced from the elements of blocks. -/
def inner (h : Heap) (v : Val) : Nat := (h.map (cntO v)).sum

structure Rep (h : Heap) (D : Nat → List JV) (R : List Val) : Prop where
  den : ∀ a n, get h a = some n → D a = n.elems.map (dv D)
  cnt : ∀ a n, get h a = some n → n.rc = R.count (.arr (some a)) + inner h (.arr (some a))
  dead : ∀ a, get h a = none → R.count (.arr (some a)) + inner h (.arr (some a)) = 0
  fits : ∀ a n, get h a = some n → n.elems.length ≤ n.cap
  pos : ∀ a n, get h a = some n → 1 ≤ n.rc

/-! ## Lists -/

theorem sum_set (f : Option Node → Nat) : ∀ (h : Heap) (a : Nat) (o o' : Option Node),
    h[a]? = some o → ((h.set a o').map f).sum + f o = (h.map f).sum + f o'
  | [], a, o, o', he => by simp at he
  | x :: h, 0, o, o', he => by simp at he; subst he; simp; omega
  | x :: h, a + 1, o, o', he => by
    have := sum_set f h a o o' (by simpa using he)
    simp only [List.set_cons_succ, List.map_cons, List.sum_cons]; omega

theorem get_some {h : Heap} {a : Nat} {n : Node} (hg : get h a = some n) :
    h[a]? = some (some n) := by
  unfold get at hg
  cases hh : h[a]? with
  | none => simp [hh] at hg
  | some o => cases o <;> simp_all

theorem get_lt {h : Heap} {a : Nat} {n : Node} (hg : get h a = some n) : a < h.length := by
  have := get_some hg
  exact (List.getElem?_eq_some_iff.1 this).1

theorem get_set {h : Heap} {a : Nat} {n : Node} (hg : get h a = some n) (o : Option Node)
    (c : Nat) : get (h.set a o) c = if c = a then o else get h c := by
  have hl := get_lt hg
  unfold get
  by_cases hc : c = a
  · subst hc; simp [hl]
  · rw [List.getElem?_set_ne (Ne.symm hc)]; simp [hc]

theorem get_append (h : Heap) (n : Node) (c : Nat) :
    get (h ++ [some n]) c = if c = h.length then some n else get h c := by
  unfold get
  by_cases hc : c = h.length
  · subst hc; simp
  · simp only [hc, if_false]
    by_cases hlt : c < h.length
    · rw [List.getElem?_append_left hlt]
    · rw [List.getElem?_eq_none (by simp; omega), List.getElem?_eq_none (by omega)]

theorem get_end (h : Heap) : get h h.length = none := by simp [get]

theorem inner_set {h : Heap} {a : Nat} {n : Node} (hg : get h a = some n) (o : Option Node)
    (v : Val) : inner (h.set a o) v + n.elems.count v = inner h v + cntO v o :=
  sum_set (cntO v) h a (some n) o (get_some hg)

theorem inner_append (h : Heap) (n : Node) (v : Val) :
    inner (h ++ [some n]) v = inner h v + n.elems.count v := by
  simp [inner, cntO]

theorem inner_ge {h : Heap} {a : Nat} {n : Node} (hg : get h a = some n) (v : Val) :
    n.elems.count v ≤ inner h v := by
  have := inner_set hg none v
  simp only [cntO] at this
  omega

theorem dv_congr {D D' : Nat → List JV} {v : Val}
    (hv : ∀ a, v = .arr (some a) → D' a = D a) : dv D' v = dv D v := by
  match v with
  | .null => rfl
  | .num _ => rfl
  | .arr none => rfl
  | .arr (some a) => simp [dv, hv a rfl]

theorem map_dv_congr {D D' : Nat → List JV} {l : List Val}
    (hv : ∀ a, Val.arr (some a) ∈ l → D' a = D a) : l.map (dv D') = l.map (dv D) := by
  apply List.map_congr_left
  intro v hm
  apply dv_congr
  intro a ha; exact hv a (ha ▸ hm)

theorem count_cons_ne {a c : Nat} (hne : c ≠ a) (R : List Val) :
    (Val.arr (some a) :: R).count (.arr (some c)) = R.count (.arr (some c)) := by
  rw [List.count_cons_of_ne]; simp; omega

theorem upd_ne (D : Nat → List JV) {a b : Nat} (x : List JV) (hne : b ≠ a) :
    Function.update D a x b = D b := Function.update_of_ne hne _ _

theorem Rep.perm {h D R R'} (hr : Rep h D R) (hp : R.Perm R') : Rep h D R' := by
  have hc : ∀ v, R'.count v = R.count v := fun v => (hp.count_eq v).symm
  refine ⟨hr.den, ?_, ?_, hr.fits, hr.pos⟩
  · intro a n hg; rw [hc]; exact hr.cnt a n hg
  · intro a hg; rw [hc]; exact hr.dead a hg

/-- Roots and elements point to blocks that were not released. -/
theorem Rep.live {h D R a} (hr : Rep h D R)
    (hm : 0 < R.count (.arr (some a)) + inner h (.arr (some a))) : ∃ n, get h a = some n := by
  cases hg : get h a with
  | some n => exact ⟨n, rfl⟩
  | none => have := hr.dead a hg; omega

theorem Rep.live_root {h D R a} (hr : Rep h D R) (hm : Val.arr (some a) ∈ R) :
    ∃ n, get h a = some n := by
  apply hr.live
  have := List.count_pos_iff.2 hm
  omega

theorem Rep.live_elem {h D R a b m} (hr : Rep h D R) (hb : get h b = some m)
    (hm : Val.arr (some a) ∈ m.elems) : ∃ n, get h a = some n := by
  apply hr.live
  have := List.count_pos_iff.2 hm
  have := inner_ge hb (.arr (some a))
  omega

/-! ## The four steps -/

/-- Another reference. -/
theorem Rep.addRef {h D R a n} (hr : Rep h D R) (hg : get h a = some n) :
    Rep (h.set a (some { n with rc := n.rc + 1 })) D (.arr (some a) :: R) := by
  have hin : ∀ v, inner (h.set a (some { n with rc := n.rc + 1 })) v = inner h v := by
    intro v
    have := inner_set hg (some { n with rc := n.rc + 1 }) v
    simp only [cntO] at this; omega
  refine ⟨?_, ?_, ?_, ?_, ?_⟩
  · intro c m; rw [get_set hg]; split
    · rintro ⟨⟩; subst c; exact hr.den a n hg
    · exact hr.den c m
  · intro c m; rw [get_set hg, hin, List.count_cons]; split
    · rintro ⟨⟩; subst c; have := hr.cnt a n hg; simp; omega
    · intro hc
      have := hr.cnt c m hc
      have hne : (Val.arr (some a) == Val.arr (some c)) = false := by simp; omega
      simp [hne]; omega
  · intro c; rw [get_set hg, hin, List.count_cons]; split
    · simp
    · intro hc
      have := hr.dead c hc
      have hne : (Val.arr (some a) == Val.arr (some c)) = false := by simp; omega
      simp [hne]; omega
  · intro c m; rw [get_set hg]; split
    · rintro ⟨⟩; exact hr.fits a n hg
    · exact hr.fits c m
  · intro c m; rw [get_set hg]; split
    · rintro ⟨⟩; simp
    · exact hr.pos c m

/-- One reference fewer, not the last. -/
theorem Rep.subRef {h D R a n} (hr : Rep h D (.arr (some a) :: R)) (hg : get h a = some n)
    (h1 : n.rc ≠ 1) : Rep (h.set a (some { n with rc := n.rc - 1 })) D R := by
  have hin : ∀ v, inner (h.set a (some { n with rc := n.rc - 1 })) v = inner h v := by
    intro v
    have := inner_set hg (some { n with rc := n.rc - 1 }) v
    simp only [cntO] at this; omega
  have hp := hr.pos a n hg
  refine ⟨?_, ?_, ?_, ?_, ?_⟩
  · intro c m; rw [get_set hg]; split
    · rintro ⟨⟩; subst c; exact hr.den a n hg
    · exact hr.den c m
  · intro c m; rw [get_set hg, hin]; split
    · rintro ⟨⟩; subst c; have := hr.cnt a n hg; simp at this ⊢; omega
    · intro hc
      have := hr.cnt c m hc
      have hne : (Val.arr (some a) == Val.arr (some c)) = false := by simp; omega
      rw [List.count_cons, hne] at this
      simp at this; omega
  · intro c; rw [get_set hg, hin]; split
    · simp
    · intro hc
      have := hr.dead c hc
      have hne : (Val.arr (some a) == Val.arr (some c)) = false := by simp; omega
      rw [List.count_cons, hne] at this
      simp at this ⊢; omega
  · intro c m; rw [get_set hg]; split
    · rintro ⟨⟩; exact hr.fits a n hg
    · exact hr.fits c m
  · intro c m; rw [get_set hg]; split
    · rintro ⟨⟩; simp; omega
    · exact hr.pos c m

/-- The only reference to a block is the root. -/
theorem Rep.only {h D R a n} (hr : Rep h D (.arr (some a) :: R)) (hg : get h a = some n)
    (h1 : n.rc = 1) : R.count (.arr (some a)) = 0 ∧ inner h (.arr (some a)) = 0 := by
  have := hr.cnt a n hg
  simp at this; omega

theorem Rep.only_elems {h D R a n} (hr : Rep h D (.arr (some a) :: R)) (hg : get h a = some n)
    (h1 : n.rc = 1) {c m} (hc : get h c = some m) : Val.arr (some a) ∉ m.elems := by
  have := (hr.only hg h1).2
  have := inner_ge hc (.arr (some a))
  intro hm
  have := List.count_pos_iff.2 hm
  omega

theorem Rep.only_root {h D R a n} (hr : Rep h D (.arr (some a) :: R)) (hg : get h a = some n)
    (h1 : n.rc = 1) : Val.arr (some a) ∉ R := by
  have := (hr.only hg h1).1
  intro hm
  have := List.count_pos_iff.2 hm
  omega

/-- Release of a block with one reference: its elements are roots. -/
theorem Rep.free {h D R a n} (hr : Rep h D (.arr (some a) :: R)) (hg : get h a = some n)
    (h1 : n.rc = 1) : Rep (h.set a none) D (n.elems ++ R) := by
  have hin : ∀ v, inner (h.set a none) v + n.elems.count v = inner h v := by
    intro v
    have := inner_set hg none v
    simp only [cntO] at this; omega
  refine ⟨?_, ?_, ?_, ?_, ?_⟩
  · intro c m; rw [get_set hg]; split
    · simp
    · exact hr.den c m
  · intro c m; rw [get_set hg, List.count_append]; split
    · simp
    · intro hc
      have h2 := hr.cnt c m hc
      have := hin (.arr (some c))
      rw [count_cons_ne ‹_›] at h2
      omega
  · intro c; rw [get_set hg, List.count_append]
    have := hin (.arr (some c))
    split
    · intro _; subst c
      have := hr.only hg h1
      omega
    · intro hc
      have := hr.dead c hc
      have hne : (Val.arr (some a) == Val.arr (some c)) = false := by simp; omega
      rw [List.count_cons, hne] at this
      simp only [Bool.false_eq_true, if_false] at this; omega
  · intro c m; rw [get_set hg]; split
    · simp
    · exact hr.fits c m
  · intro c m; rw [get_set hg]; split
    · simp
    · exact hr.pos c m

/-- A new block: the roots in front become its elements. -/
theorem Rep.alloc {h D R es c} (hr : Rep h D (es ++ R)) (hc : es.length ≤ c) :
    Rep (h ++ [some ⟨1, c, es⟩]) (Function.update D h.length (es.map (dv D)))
      (.arr (some h.length) :: R) := by
  have hend := hr.dead h.length (get_end h)
  rw [List.count_append] at hend
  have hne : ∀ b, Val.arr (some b) ∈ es ++ R → b ≠ h.length := by
    intro b hb hbe
    have := List.count_pos_iff.2 hb
    rw [List.count_append] at this
    subst hbe; omega
  have hni : ∀ a n, get h a = some n → ∀ b, Val.arr (some b) ∈ n.elems → b ≠ h.length := by
    intro a n hg b hb hbe
    have := List.count_pos_iff.2 hb
    have := inner_ge hg (.arr (some b))
    subst hbe; omega
  refine ⟨?_, ?_, ?_, ?_, ?_⟩
  · intro a n; rw [get_append]; split
    · rintro ⟨⟩; subst a
      simp only [Function.update_self]
      refine (map_dv_congr fun b hb => Function.update_of_ne (hne b ?_) _ _).symm
      simp [hb]
    · rename_i hne'
      intro hg
      rw [Function.update_of_ne hne', hr.den a n hg]
      exact (map_dv_congr fun b hb => Function.update_of_ne (hni a n hg b hb) _ _).symm
  · intro a n; rw [get_append, inner_append, List.count_cons]; split
    · rintro ⟨⟩; subst a; simp; omega
    · rename_i hne'
      intro hg
      have := hr.cnt a n hg
      have hf : (Val.arr (some h.length) == Val.arr (some a)) = false := by simp; omega
      rw [hf]; rw [List.count_append] at this; simp only [Bool.false_eq_true, if_false]; omega
  · intro a; rw [get_append, inner_append, List.count_cons]; split
    · simp
    · rename_i hne'
      intro hg
      have := hr.dead a hg
      have hf : (Val.arr (some h.length) == Val.arr (some a)) = false := by simp; omega
      rw [hf]; rw [List.count_append] at this; simp only [Bool.false_eq_true, if_false]; omega
  · intro a n; rw [get_append]; split
    · rintro ⟨⟩; exact hc
    · exact hr.fits a n
  · intro a n; rw [get_append]; split
    · rintro ⟨⟩; simp
    · exact hr.pos a n

/-- New elements for a block with one reference, exchanged with roots. -/
theorem Rep.write {h D R R' a n es} (hr : Rep h D (.arr (some a) :: R))
    (hg : get h a = some n) (h1 : n.rc = 1)
    (hcount : ∀ c, es.count (.arr (some c)) + R'.count (.arr (some c))
      = n.elems.count (.arr (some c)) + R.count (.arr (some c)))
    (hc : es.length ≤ n.cap) :
    Rep (h.set a (some { n with elems := es })) (Function.update D a (es.map (dv D)))
      (.arr (some a) :: R') := by
  have hin : ∀ v, inner (h.set a (some { n with elems := es })) v + n.elems.count v
      = inner h v + es.count v := by
    intro v
    have := inner_set hg (some { n with elems := es }) v
    simpa only [cntO] using this
  have h0 := hr.only hg h1
  have hae := List.count_eq_zero.2 (hr.only_elems hg h1 hg)
  have haes : Val.arr (some a) ∉ es := by
    intro hm
    have := List.count_pos_iff.2 hm
    have := hcount a
    omega
  refine ⟨?_, ?_, ?_, ?_, ?_⟩
  · intro b m; rw [get_set hg]; split
    · rintro ⟨⟩; subst b
      simp only [Function.update_self]
      refine (map_dv_congr fun b hb => upd_ne D _ ?_).symm
      rintro rfl; exact haes hb
    · rename_i hne'
      intro hb
      rw [Function.update_of_ne hne', hr.den b m hb]
      refine (map_dv_congr fun c hc' => upd_ne D _ ?_).symm
      rintro rfl; exact hr.only_elems hg h1 hb hc'
  · intro b m; rw [get_set hg]; split
    · rintro ⟨⟩; subst b
      have := hcount a
      have := hin (.arr (some a))
      simp; omega
    · intro hb
      have h2 := hr.cnt b m hb
      have := hcount b
      have := hin (.arr (some b))
      rw [count_cons_ne ‹_›] at h2 ⊢
      omega
  · intro b; rw [get_set hg]; split
    · simp
    · intro hb
      have h2 := hr.dead b hb
      have := hcount b
      have := hin (.arr (some b))
      rw [count_cons_ne ‹_›] at h2 ⊢
      omega
  · intro b m; rw [get_set hg]; split
    · rintro ⟨⟩; exact hc
    · exact hr.fits b m
  · intro b m; rw [get_set hg]; split
    · rintro ⟨⟩; exact hr.pos a n hg
    · exact hr.pos b m

end Verif.JsonArr
