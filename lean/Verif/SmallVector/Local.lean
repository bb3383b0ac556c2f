import Mathlib.Tactic.ByContra
import Mathlib.Algebra.Group.Nat.Even
import Mathlib.Tactic.Ring
import Verif.SmallVector.Model

/-!
# What the operations do to one vector
-/
namespace Verif.SmallVector

variable {T : Type}

def objs (l : List T) : List (Slot T) := l.map .obj
def raws (n : Nat) : List (Slot T) := List.replicate n .raw

@[simp] theorem objs_length (l : List T) : (objs l).length = l.length := by simp [objs]
@[simp] theorem raws_length (n : Nat) : (raws n : List (Slot T)).length = n := by simp [raws]
@[simp] theorem objs_nil : objs ([] : List T) = [] := rfl
@[simp] theorem objs_cons (v : T) (l : List T) : objs (v :: l) = .obj v :: objs l := rfl
@[simp] theorem objs_append (l l' : List T) : objs (l ++ l') = objs l ++ objs l' := by simp [objs]
@[simp] theorem raws_zero : (raws 0 : List (Slot T)) = [] := rfl
theorem raws_succ (n : Nat) : (raws (n + 1) : List (Slot T)) = .raw :: raws n := rfl
theorem raws_add (a b : Nat) : (raws (a + b) : List (Slot T)) = raws a ++ raws b := by simp [raws]

theorem put_put (m : Mem T) (b : Nat) (B B' : Option (Block T)) : (m.put b B).put b B' = m.put b B' := by
  simp [Mem.put]

theorem put_self (m : Mem T) (b : Nat) {B : Option (Block T)} (h : m.blocks b = B) : m.put b B = m := by
  subst h
  simp [Mem.put]

theorem put_comm (m : Mem T) {b b' : Nat} (h : b ≠ b') (B B' : Option (Block T)) :
    (m.put b B).put b' B' = (m.put b' B').put b B := by
  simp only [Mem.put]
  rw [Function.update_comm h]

theorem put_five (m : Mem T) (b b' : Nat) (A B C D E : Option (Block T)) :
    ((((m.put b A).put b' B).put b C).put b' D).put b E = (m.put b' D).put b E := by
  simp only [Mem.put, Mem.mk.injEq, and_true]
  funext x
  simp only [Function.update_apply]
  split
  · rfl
  · split <;> rfl

@[simp] theorem put_same (m : Mem T) (b : Nat) (B : Option (Block T)) : (m.put b B).blocks b = B := by
  simp [Mem.put]

theorem put_other (m : Mem T) {b b' : Nat} (h : b' ≠ b) (B : Option (Block T)) : (m.put b B).blocks b' = m.blocks b' := by
  simp [Mem.put, h]

@[simp] theorem put_next (m : Mem T) (b : Nat) (B : Option (Block T)) : (m.put b B).next = m.next := rfl

/-! ### One slot -/

variable {m : Mem T} {b : Nat} {o : Bool}

theorem read_at {p r : List (Slot T)} {v : T} {i : Nat} (h : m.blocks b = some ⟨o, p ++ .obj v :: r⟩) (hi : p.length = i) :
    m.read b i = some v := by
  subst hi
  simp [Mem.read, h]

theorem assign_at {p r : List (Slot T)} {v v' : T} {i : Nat} (h : m.blocks b = some ⟨o, p ++ .obj v :: r⟩)
    (hi : p.length = i) : m.assign b i v' = some (m.put b (some ⟨o, p ++ .obj v' :: r⟩)) := by
  subst hi
  simp [Mem.assign, h]

theorem construct_at {p r : List (Slot T)} {v : T} {i : Nat} (h : m.blocks b = some ⟨o, p ++ .raw :: r⟩)
    (hi : p.length = i) : m.construct b i v = some (m.put b (some ⟨o, p ++ .obj v :: r⟩)) := by
  subst hi
  simp [Mem.construct, h]

theorem destroy_at {p r : List (Slot T)} {v : T} {i : Nat} (h : m.blocks b = some ⟨o, p ++ .obj v :: r⟩)
    (hi : p.length = i) : m.destroy b i = some (m.put b (some ⟨o, p ++ .raw :: r⟩)) := by
  subst hi
  simp [Mem.destroy, h]

/-! ### Loops -/

theorem destroyAll_spec (l : List T) {p r : List (Slot T)} {i : Nat} (h : m.blocks b = some ⟨o, p ++ (objs l ++ r)⟩)
    (hi : p.length = i) : destroyAll b l.length i m = some (m.put b (some ⟨o, p ++ (raws l.length ++ r)⟩)) := by
  induction l generalizing m p i with
  | nil => simp only [List.length_nil, destroyAll]; rw [put_self]; simpa using h
  | cons v l ih =>
    simp only [objs_cons, List.cons_append] at h
    simp only [List.length_cons, destroyAll, destroy_at h hi, Option.bind_eq_bind, Option.bind_some]
    rw [ih (p := p ++ [.raw]) (by simp) (by simp [hi]), put_put]
    simp [raws_succ]

theorem fillAll_spec (v : T) (k : Nat) {p r : List (Slot T)} {i : Nat} (h : m.blocks b = some ⟨o, p ++ (raws k ++ r)⟩)
    (hi : p.length = i) : fillAll b v k i m = some (m.put b (some ⟨o, p ++ (objs (List.replicate k v) ++ r)⟩)) := by
  induction k generalizing m p i with
  | zero => simp only [fillAll]; rw [put_self]; simpa using h
  | succ k ih =>
    simp only [raws_succ, List.cons_append] at h
    simp only [fillAll, construct_at h hi, Option.bind_eq_bind, Option.bind_some]
    rw [ih (p := p ++ [.obj v]) (by simp) (by simp [hi]), put_put]
    simp [List.replicate_succ]

theorem copyAll_spec {b' : Nat} {o' : Bool} (hb : b ≠ b') (l : List T) {p r p' r' : List (Slot T)} {i : Nat}
    (h : m.blocks b = some ⟨o, p ++ (objs l ++ r)⟩) (h' : m.blocks b' = some ⟨o', p' ++ (raws l.length ++ r')⟩)
    (hi : p.length = i) (hi' : p'.length = i) :
    copyAll b b' l.length i m = some (m.put b' (some ⟨o', p' ++ (objs l ++ r')⟩)) := by
  induction l generalizing m p p' i with
  | nil => simp only [List.length_nil, copyAll]; rw [put_self]; simpa using h'
  | cons v l ih =>
    simp only [objs_cons, List.cons_append] at h
    simp only [List.length_cons, raws_succ, List.cons_append] at h'
    simp only [List.length_cons, copyAll, read_at h hi, construct_at h' hi', Option.bind_eq_bind, Option.bind_some]
    rw [ih (p := p ++ [.obj v]) (p' := p' ++ [.obj v]) (by rw [put_other _ hb, h]; simp) (by simp) (by simp [hi])
      (by simp [hi']), put_put]
    simp

variable (left : T → T)

theorem moveAll_spec {b' : Nat} {o' : Bool} (hb : b ≠ b') (l : List T) {p r p' r' : List (Slot T)} {i : Nat}
    (h : m.blocks b = some ⟨o, p ++ (objs l ++ r)⟩) (h' : m.blocks b' = some ⟨o', p' ++ (raws l.length ++ r')⟩)
    (hi : p.length = i) (hi' : p'.length = i) :
    moveAll left b b' l.length i m =
      some ((m.put b' (some ⟨o', p' ++ (objs l ++ r')⟩)).put b (some ⟨o, p ++ (raws l.length ++ r)⟩)) := by
  induction l generalizing m p p' i with
  | nil =>
    simp only [List.length_nil, moveAll]
    rw [put_self m b' (by simpa using h'), put_self m b (by simpa using h)]
  | cons v l ih =>
    simp only [objs_cons, List.cons_append] at h
    simp only [List.length_cons, raws_succ, List.cons_append] at h'
    have h1 : (m.put b (some ⟨o, p ++ .obj (left v) :: (objs l ++ r)⟩)).blocks b' = some ⟨o', p' ++ .raw :: (raws l.length ++ r')⟩ := by
      rw [put_other _ hb.symm, h']
    have h2 : ((m.put b (some ⟨o, p ++ .obj (left v) :: (objs l ++ r)⟩)).put b'
        (some ⟨o', p' ++ .obj v :: (raws l.length ++ r')⟩)).blocks b = some ⟨o, p ++ .obj (left v) :: (objs l ++ r)⟩ := by
      rw [put_other _ hb, put_same]
    simp only [List.length_cons, moveAll, read_at h hi, assign_at h hi, construct_at h1 hi', destroy_at h2 hi,
      Option.bind_eq_bind, Option.bind_some]
    rw [ih (p := p ++ [.raw]) (p' := p' ++ [.obj v]) (by simp)
      (by rw [put_other _ hb.symm, put_same]; simp) (by simp [hi]) (by simp [hi'])]
    rw [put_five]
    simp [raws_succ]

theorem shiftAll_spec (l g : List T) (hg : g ≠ []) {p r : List (Slot T)} {i j : Nat}
    (h : m.blocks b = some ⟨o, p ++ (objs g ++ (objs l ++ r))⟩) (hi : p.length = i) (hj : i + g.length = j) :
    ∃ g' : List T, g'.length = g.length ∧
      shiftAll left b l.length i j m = some (m.put b (some ⟨o, p ++ (objs l ++ (objs g' ++ r))⟩)) := by
  induction l generalizing m p g i j with
  | nil =>
    refine ⟨g, rfl, ?_⟩
    simp only [List.length_nil, shiftAll]
    rw [put_self]
    simpa using h
  | cons v l ih =>
    obtain ⟨u, g, rfl⟩ := List.exists_cons_of_ne_nil hg
    have h0 : m.blocks b = some ⟨o, (p ++ .obj u :: objs g) ++ .obj v :: (objs l ++ r)⟩ := by
      rw [h]; simp
    have hj' : (p ++ .obj u :: objs g).length = j := by simp [hi] at hj ⊢; omega
    have h1 : (m.put b (some ⟨o, (p ++ .obj u :: objs g) ++ .obj (left v) :: (objs l ++ r)⟩)).blocks b =
        some ⟨o, p ++ .obj u :: (objs g ++ .obj (left v) :: (objs l ++ r))⟩ := by
      rw [put_same]; simp
    simp only [List.length_cons, shiftAll, read_at h0 hj', assign_at h0 hj', assign_at h1 hi, Option.bind_eq_bind,
      Option.bind_some]
    obtain ⟨g', hl, e⟩ := ih (m := (m.put b (some ⟨o, (p ++ .obj u :: objs g) ++ .obj (left v) :: (objs l ++ r)⟩)).put b
        (some ⟨o, p ++ .obj v :: (objs g ++ .obj (left v) :: (objs l ++ r))⟩)) (g := g ++ [left v]) (by simp)
        (p := p ++ [.obj v]) (i := i + 1) (j := j + 1) (by rw [put_same]; simp) (by simp [hi]) (by simp at hj ⊢; omega)
    refine ⟨g', by simpa using hl, ?_⟩
    rw [e, put_put, put_put]
    simp

/-! ### What a vector is -/

/-- The vector has the elements `l`: they are the objects at the start of its memory, and the rest is raw. -/
structure Holds (N : Nat) (m : Mem T) (w : Vec) (l : List T) : Prop where
  last : w.last = l.length
  le : l.length ≤ w.cap
  mem : m.blocks w.first = some ⟨decide (w.first = w.lv), objs l ++ raws (w.cap - l.length)⟩
  lv : w.first ≠ w.lv → m.blocks w.lv = some ⟨true, raws N⟩
  small : w.first = w.lv → w.cap = N
  pow : ∃ k, w.cap = N * 2 ^ k
  lt : w.cap < 2 ^ 32

/-- What an operation on a vector leaves alone. -/
structure Frame (m : Mem T) (w : Vec) (m' : Mem T) (w' : Vec) : Prop where
  lv : w'.lv = w.lv
  next : m.next ≤ m'.next
  other : ∀ b, b ≠ w.first → b ≠ w.lv → b ≠ w'.first → m'.blocks b = m.blocks b
  first : w'.first = w.first ∨
    (m.next ≤ w'.first ∧ w'.first < m'.next ∧ (w.first ≠ w.lv → m'.blocks w.first = none))

theorem Holds.capacity {N : Nat} {w : Vec} {l : List T} (h : Holds N m w l) : w.capacity = w.cap :=
  Nat.mod_eq_of_lt h.lt

/-- A change of the elements within the memory. -/
theorem Holds.change {N : Nat} {w : Vec} {l l' : List T} {n : Nat} (h : Holds N m w l) (hl : l'.length ≤ w.cap) (hn : n = l'.length) :
    Holds N (m.put w.first (some ⟨decide (w.first = w.lv), objs l' ++ raws (w.cap - l'.length)⟩)) { w with last := n } l' where
  last := hn
  le := hl
  mem := by simp
  lv := by
    intro hne
    show (m.put w.first _).blocks w.lv = _
    rw [put_other _ (Ne.symm hne)]
    exact h.lv hne
  small := h.small
  pow := h.pow
  lt := h.lt

theorem frame_change (m : Mem T) (w : Vec) (B : Option (Block T)) (n : Nat) : Frame m w (m.put w.first B) { w with last := n } where
  lv := rfl
  next := Nat.le_refl _
  other b hb _ _ := put_other _ hb _
  first := Or.inl rfl

theorem widen_spec (c n : Nat) (hc : 0 < c) : ∃ k, widen c n = some (c * 2 ^ k) ∧ n ≤ c * 2 ^ k ∧ (k = 0 ∨ c * 2 ^ k < 2 * n) := by
  fun_induction widen c n with
  | case1 c => omega
  | case2 c h h0 ih =>
    obtain ⟨k, e, h1, h2⟩ := ih (by omega)
    refine ⟨k + 1, ?_, ?_, ?_⟩
    · rw [e, pow_succ']; congr 1; ring
    · rw [pow_succ']; calc n ≤ _ := h1
        _ = _ := by ring
    · right
      have e : c * 2 ^ (k + 1) = c * 2 * 2 ^ k := by ring
      rw [e]
      rcases h2 with rfl | h2
      · simp; omega
      · exact h2
  | case3 c h => exact ⟨0, by simp, by omega, Or.inl rfl⟩

/-! ### Growing -/

theorem dealloc_at [DecidableEq T] {n : Nat} (h : m.blocks b = some ⟨o, raws n⟩) : m.dealloc o b n = some (m.put b none) := by
  simp [Mem.dealloc, h, raws]

theorem newcap_spec {N c n : Nat} (hN : 0 < N) (hp : ∃ k, c = N * 2 ^ k) (hc : c < 2 ^ 31)
    (hn : n ≤ 2 ^ 31 ∨ ∃ k, n = N * 2 ^ k ∧ n < 2 ^ 32) :
    ∃ c', widen (c % 2 ^ 32 * 2 % 2 ^ 32) n = some c' ∧ n ≤ c' ∧ c < c' ∧ c' < 2 ^ 32 ∧ ∃ k, c' = N * 2 ^ k := by
  obtain ⟨j, rfl⟩ := hp
  have hpos : 0 < N * 2 ^ j := Nat.mul_pos hN (Nat.two_pow_pos j)
  rw [Nat.mod_eq_of_lt (by omega), Nat.mod_eq_of_lt (by omega)]
  obtain ⟨k, e, h1, h2⟩ := widen_spec (N * 2 ^ j * 2) n (by omega)
  have hk : 0 < 2 ^ k := Nat.two_pow_pos k
  have hle : N * 2 ^ j * 2 ≤ N * 2 ^ j * 2 * 2 ^ k := Nat.le_mul_of_pos_right _ hk
  have hp : N * 2 ^ j * 2 * 2 ^ k = N * 2 ^ (j + 1 + k) := by ring
  refine ⟨_, e, h1, by omega, ?_, j + 1 + k, hp⟩
  rcases h2 with rfl | h2
  · omega
  · rcases hn with hn | ⟨q, rfl, hn⟩
    · omega
    · rw [hp] at h2 ⊢
      have h3 : N * 2 ^ (j + 1 + k) < N * 2 ^ (q + 1) := by
        rw [pow_succ']; calc _ < _ := h2
          _ = _ := by ring
      have h4 : j + 1 + k < q + 1 := (Nat.pow_lt_pow_iff_right (by decide)).1 (Nat.lt_of_mul_lt_mul_left h3)
      have h5 : N * 2 ^ (j + 1 + k) ≤ N * 2 ^ q := Nat.mul_le_mul_left _ (Nat.pow_le_pow_right (by decide) (by omega))
      omega

/-- Growing keeps the elements. -/
theorem grow_spec [DecidableEq T] {N : Nat} (hN : 0 < N) {w : Vec} {l : List T} {n : Nat} (h : Holds N m w l)
    (hf : ∀ b, m.next ≤ b → m.blocks b = none) (hc : w.cap < 2 ^ 31) (hn : n ≤ 2 ^ 31 ∨ ∃ k, n = N * 2 ^ k ∧ n < 2 ^ 32) :
    ∃ m' w', grow left w n m = some (m', w') ∧ Holds N m' w' l ∧ Frame m w m' w' ∧ n ≤ w'.cap ∧ w.cap < w'.cap ∧
      (∀ b, m'.next ≤ b → m'.blocks b = none) ∧ w'.first = m.next ∧ m'.next = m.next + 1 ∧ (n = 0 → w'.cap = w.cap * 2) := by
  obtain ⟨c', e, h1, h2, h3, h4⟩ := newcap_spec hN h.pow hc hn
  have hdouble : n = 0 → c' = w.cap * 2 := by
    rintro rfl
    rw [widen, Nat.mod_eq_of_lt h.lt, Nat.mod_eq_of_lt (by omega)] at e
    simpa using e.symm
  have hfirst : w.first ≠ m.next := by
    intro heq
    have := h.mem
    rw [hf _ (by omega)] at this
    cases this
  have hlv : w.lv ≠ m.next := by
    intro heq
    by_cases hl : w.first = w.lv
    · exact hfirst (hl.trans heq)
    · have := h.lv hl
      rw [hf _ (by omega)] at this
      cases this
  generalize hm1 : (m.alloc false c').1 = m1
  have b1 : m1.blocks = Function.update m.blocks m.next (some ⟨false, raws c'⟩) := by subst hm1; rfl
  have n1 : m1.next = m.next + 1 := by subst hm1; rfl
  have a1 : m.alloc false c' = (m1, m.next) := by subst hm1; rfl
  have hle := h.le
  have mv := moveAll_spec (m := m1) (b := w.first) (b' := m.next) left hfirst l (p := []) (p' := [])
    (r := raws (w.cap - l.length)) (r' := raws (c' - l.length)) (i := 0) (o := decide (w.first = w.lv)) (o' := false)
    (by rw [b1, Function.update_of_ne hfirst, h.mem]; rfl)
    (by rw [b1, Function.update_self, List.nil_append, ← raws_add, Nat.add_sub_cancel' (by omega)]) rfl rfl
  simp only [List.nil_append] at mv
  rw [← raws_add, Nat.add_sub_cancel' hle] at mv
  generalize hm2 : (m1.put m.next (some ⟨false, objs l ++ raws (c' - l.length)⟩)).put w.first
    (some ⟨decide (w.first = w.lv), raws w.cap⟩) = m2 at mv
  have b2 : m2.blocks = Function.update (Function.update m.blocks m.next (some ⟨false, objs l ++ raws (c' - l.length)⟩)) w.first
      (some ⟨decide (w.first = w.lv), raws w.cap⟩) := by
    subst hm2
    simp [Mem.put, b1]
  have n2 : m2.next = m.next + 1 := by subst hm2; exact n1
  rw [← h.last] at mv
  have base : ∀ m3 : Mem T, (m3.blocks m.next = m2.blocks m.next) → (w.first ≠ w.lv → m3.blocks w.lv = m2.blocks w.lv) →
      (w.first = w.lv → m3.blocks w.lv = m2.blocks w.lv) →
      Holds N m3 { w with first := m.next, cap := c' } l := by
    intro m3 e1 e2 e3
    refine ⟨h.last, Nat.le_trans hle (Nat.le_of_lt h2), ?_, ?_, ?_, h4, h3⟩
    · show m3.blocks m.next = _
      rw [e1, b2, Function.update_of_ne (Ne.symm hfirst), Function.update_self]
      simp [Ne.symm hlv]
    · intro _
      show m3.blocks w.lv = _
      by_cases hl : w.first = w.lv
      · rw [e3 hl, b2, ← hl, Function.update_self, h.small hl]
        simp
      · rw [e2 hl, b2, Function.update_of_ne (Ne.symm hl), Function.update_of_ne hlv, h.lv hl]
    · intro hl
      exact absurd hl.symm hlv
  unfold grow
  simp only [Vec.capacity, e, a1, mv, Option.bind_eq_bind, Option.bind_some]
  rw [Nat.mod_eq_of_lt h.lt]
  by_cases hl : w.first = w.lv
  · rw [if_neg (by simp [hl])]
    refine ⟨m2, _, rfl, base m2 rfl (fun _ => rfl) (fun _ => rfl), ⟨rfl, by omega, ?_, ?_⟩, h1, h2, ?_⟩
    · intro b hb1 hb2 hb3
      rw [b2, Function.update_of_ne hb1, Function.update_of_ne hb3]
    · right
      refine ⟨Nat.le_refl _, by show m.next < m2.next; omega, fun hne => absurd hl hne⟩
    · refine ⟨?_, rfl, n2, hdouble⟩
      intro b hb
      rw [b2, Function.update_of_ne, Function.update_of_ne (by omega), hf _ (by omega)]
      intro heq
      have := h.mem
      rw [hf _ (by omega)] at this
      cases this
  · rw [if_pos hl]
    have b2f : m2.blocks w.first = some ⟨false, raws w.cap⟩ := by
      rw [b2, Function.update_self]; simp [hl]
    simp only [dealloc_at b2f, Option.bind_some]
    refine ⟨m2.put w.first none, _, rfl, base _ (put_other _ (Ne.symm hfirst) _) (fun _ => put_other _ (Ne.symm hl) _)
      (fun h' => absurd h' hl), ⟨rfl, by show m.next ≤ m2.next; omega, ?_, ?_⟩, h1, h2, ?_⟩
    · intro b hb1 hb2 hb3
      rw [put_other _ hb1, b2, Function.update_of_ne hb1, Function.update_of_ne hb3]
    · right
      refine ⟨Nat.le_refl _, by show m.next < m2.next; omega, fun _ => put_same _ _ _⟩
    · refine ⟨?_, rfl, n2, hdouble⟩
      intro b hb
      have hb' : m.next + 1 ≤ b := by simpa [n2] using hb
      by_cases hbf : b = w.first
      · rw [hbf]; exact put_same _ _ _
      · rw [put_other _ hbf, b2, Function.update_of_ne hbf, Function.update_of_ne (by omega), hf _ (by omega)]

end Verif.SmallVector
