import Verif.SmallVector.Step

/-!
# C69: small vectors are lists, and give back their memory
-/
namespace Verif.Props.C69
open Verif.SmallVector

variable {T : Type} [DecidableEq T] {N L : Nat} {left : T → T} {s s' : Sys T} {σ σ' : Nat → Option (List T)}

/-- What a program does to its vectors while their lists have up to 2^31 elements is defined, and does to them what it does to
lists.  The exception is a reference to an element of a vector that is full and is to get one more. -/
theorem runs (hN : 0 < N) (hN' : N < 2 ^ 32) (hL : L ≤ 2 ^ 31) (h : Reach left N L s σ) (o : Op T) (ha : o.Apart s) (ho : o.spec left σ = some σ')
    (hs : Small L σ') : ∃ s', o.run left N s = some s' ∧ Reach left N L s' σ' := by
  obtain ⟨s', e, -⟩ := step_spec left hN hN' (h.R left hN hN' hL) o ha ho (fun v l h => Nat.le_trans (hs v l h) hL)
  exact ⟨s', e, .step o h ha ho hs e⟩

/-- The vectors there are have the lists' sizes and elements, and no other objects are in their memory. -/
theorem contents (hN : 0 < N) (hN' : N < 2 ^ 32) (hL : L ≤ 2 ^ 31) (h : Reach left N L s σ) (hs : Small L σ) (v : Nat) :
    (s.vecs v = none ↔ σ v = none) ∧
    ∀ w, s.vecs v = some w → ∃ l, σ v = some l ∧ w.last % 2 ^ 32 = l.length ∧ (∀ i, s.mem.read w.first i = l[i]?) ∧
      (w.first ≠ w.lv → ∀ i, s.mem.read w.lv i = none) := by
  have r := h.R left hN hN' hL
  constructor
  · constructor
    · exact r.gone v
    · intro hv
      cases hw : s.vecs v with
      | none => rfl
      | some w => obtain ⟨l, e, -⟩ := r.holds v w hw; rw [hv] at e; cases e
  · intro w hw
    obtain ⟨l, hl, hh⟩ := r.holds v w hw
    refine ⟨l, hl, ?_, read_spec hh, ?_⟩
    · have := hs v l hl
      rw [hh.last, Nat.mod_eq_of_lt (by omega)]
    · intro hne i
      simp only [Mem.read, hh.lv hne, raws, List.getElem?_replicate]
      split <;> simp_all

/-- The memory is that of the vectors, each block that of one of them; capacities are `N` times a power of two. -/
theorem memory (hN : 0 < N) (hN' : N < 2 ^ 32) (hL : L ≤ 2 ^ 31) (h : Reach left N L s σ) :
    (∀ b, s.mem.blocks b ≠ none ↔ ∃ v w, s.vecs v = some w ∧ (b = w.first ∨ b = w.lv)) ∧
    (∀ b v v' w w', s.vecs v = some w → s.vecs v' = some w' → (b = w.first ∨ b = w.lv) → (b = w'.first ∨ b = w'.lv) → v = v') ∧
    ∀ v w, s.vecs v = some w → ∃ k, w.cap = N * 2 ^ k ∧ (w.first = w.lv → k = 0) := by
  have r := h.R left hN hN' hL
  refine ⟨fun b => ⟨r.owned b, ?_⟩, ?_, ?_⟩
  · rintro ⟨v, w, hw, hb⟩
    obtain ⟨l, -, hh⟩ := r.holds v w hw
    by_cases hf : w.first = w.lv
    · rcases hb with rfl | rfl
      · rw [hh.mem]; simp
      · rw [← hf, hh.mem]; simp
    · rcases hb with rfl | rfl
      · rw [hh.mem]; simp
      · rw [hh.lv hf]; simp
  · intro b v v' w w' hw hw' hb hb'
    by_contra hne
    obtain ⟨a1, a2, a3⟩ := r.apart v v' w w' hw hw' hne
    obtain ⟨c1, c2, c3⟩ := r.apart v' v w' w hw' hw (Ne.symm hne)
    rcases hb with rfl | rfl <;> rcases hb' with e | e
    · exact a1 e
    · exact a2 e
    · exact c2 e.symm
    · exact a3 e
  · intro v w hw
    obtain ⟨l, -, hh⟩ := r.holds v w hw
    by_cases hf : w.first = w.lv
    · exact ⟨0, by rw [hh.small hf]; simp, fun _ => rfl⟩
    · obtain ⟨k, hk⟩ := hh.pow
      exact ⟨k, hk, fun h' => absurd h' hf⟩

/-- When there are no vectors left, all memory has been given back. -/
theorem nothing_left (hN : 0 < N) (hN' : N < 2 ^ 32) (hL : L ≤ 2 ^ 31) (h : Reach left N L s fun _ => none) (b : Nat) : s.mem.blocks b = none := by
  by_contra hb
  obtain ⟨v, w, hw, -⟩ := ((memory hN hN' hL h).1 b).1 hb
  obtain ⟨l, e, -⟩ := (h.R left hN hN' hL).holds v w hw
  cases e

/-! ### Elements inside the vector -/

theorem grow_not {w : Vec} {m : Mem T} {n : Nat} {l : List T} (h : Holds N m w l) (hn : n ≤ w.cap) :
    reserve left w n m = some (m, w) := by
  unfold reserve
  rw [h.capacity, if_neg (by omega)]

theorem room_not {w : Vec} {m : Mem T} {l : List T} (h : Holds N m w l) (hn : l.length < w.cap) :
    room left w m = some (m, w) := by
  unfold room
  rw [h.last, if_neg (by omega)]

theorem push_first {w w' : Vec} {m m' : Mem T} {l : List T} {a : Arg T} (h : Holds N m w l) (hn : l.length < w.cap)
    (e : push left w a m = some (m', w')) : w' = { w with last := w.last + 1 } := by
  unfold push at e
  simp only [room_not h hn, Option.bind_eq_bind, Option.bind_some, Option.bind_eq_some_iff] at e
  obtain ⟨_, -, _, -, e⟩ := e
  cases e
  rfl

theorem pushMove_first {w w' : Vec} {m m' : Mem T} {l : List T} {a : Arg T} (h : Holds N m w l) (hn : l.length < w.cap)
    (e : pushMove left w a m = some (m', w')) : w' = { w with last := w.last + 1 } := by
  unfold pushMove at e
  simp only [room_not h hn, Option.bind_eq_bind, Option.bind_some, Option.bind_eq_some_iff] at e
  obtain ⟨_, -, _, -, _, -, e⟩ := e
  cases e
  rfl

theorem pushAll_first (hN : 0 < N) {v x : Nat} {wx : Vec} {lx : List T} (hx : s.vecs x = some wx) (hne : v ≠ x)
    (hlx : σ x = some lx) (hs : lx.length ≤ 2 ^ 31) (k : Nat) : ∀ (i : Nat) (w w' : Vec) (m m' : Mem T), i + k = lx.length →
    R N ⟨m, Function.update s.vecs v (some w)⟩ (Function.update σ v (some (lx.take i))) → lx.length ≤ w.cap →
    pushAll left wx.first k i w m = some (m', w') → w'.first = w.first ∧ w'.lv = w.lv := by
  induction k with
  | zero =>
    intro i w w' m m' _ _ _ e
    cases e
    exact ⟨rfl, rfl⟩
  | succ k ih =>
    intro i w w' m m' hi h hc e
    have hil : i < lx.length := by omega
    obtain ⟨m1, w1, e1, r1⟩ := push_spec left hN h (v := v) (w := w) (l := lx.take i) (a := .slot wx.first i) (t := lx[i])
      (by simp) (by simp) (by simp; omega) (by
        intro m' w' _ _ r' _
        obtain ⟨l', e', h'⟩ := r'.holds x wx (by simp [Function.update_of_ne (Ne.symm hne), hx])
        rw [Function.update_of_ne (Ne.symm hne), hlx] at e'
        cases e'
        rw [Arg.read, read_spec h']
        simp [hil])
    simp only [Function.update_idem] at r1
    have e2 : lx.take i ++ [lx[i]] = lx.take (i + 1) := by simp
    rw [e2] at r1
    obtain ⟨l0, el0, hh⟩ := h.holds v w (by simp)
    rw [Function.update_self] at el0
    cases el0
    have hw1 := push_first hh (by simp; omega) e1
    simp only [pushAll, e1, Option.bind_eq_bind, Option.bind_some] at e
    have := ih (i + 1) w1 w' m1 m' (by omega) r1 (by rw [hw1]; exact hc) e
    rw [hw1] at this
    exact this

/-- As long as the lists have up to `N` elements no memory is allocated: the elements are in the vectors themselves. -/
theorem inside (hN : 0 < N) (hN' : N ≤ 2 ^ 31) (h : Reach left N N s σ) {v : Nat} {w : Vec} (hw : s.vecs v = some w) :
    w.first = w.lv := by
  induction h generalizing v w with
  | init => cases hw
  | @step s s' σ σ' o hr ha ho hs e ih =>
    have r := hr.R left hN (by omega) hN'
    have hcap : ∀ u x, s.vecs u = some x → x.cap = N := by
      intro u x hx
      obtain ⟨l, -, hh⟩ := r.holds u x hx
      exact hh.small (ih hx)
    have onv : ∀ (u : Nat) (f : Vec → Mem T → Option (Mem T × Vec)), s.on u f = some s' →
        (∀ x m' x', s.vecs u = some x → f x s.mem = some (m', x') → x'.first = x.first ∧ x'.lv = x.lv) → w.first = w.lv := by
      intro u f hf hx
      simp only [Sys.on, Option.bind_eq_bind, Option.bind_eq_some_iff] at hf
      obtain ⟨x, h1, ⟨m', x'⟩, h2, h3⟩ := hf
      cases h3
      by_cases hv : v = u
      · subst hv
        simp only [Function.update_self] at hw
        cases hw
        obtain ⟨a1, a2⟩ := hx x m' _ h1 h2
        rw [a1, a2]
        exact ih h1
      · simp only [Function.update_of_ne hv] at hw
        exact ih hw
    have hlen : ∀ u l, σ u = some l → (∃ l', σ' u = some (l' : List T) ∧ l.length < l'.length) → l.length < N := by
      rintro u l - ⟨l', h1, h2⟩
      have := hs u l' h1
      omega
    cases o with
    | new u =>
      simp only [Op.run] at e
      split at e
      · cases e
        by_cases hv : v = u
        · subst hv
          simp only [Function.update_self] at hw
          cases hw
          rfl
        · simp only [Function.update_of_ne hv] at hw
          exact ih hw
      · cases e
    | copy u x =>
      simp only [Op.run] at e
      split at e
      · rename_i hu
        simp only [Option.bind_eq_bind, Option.bind_eq_some_iff] at e
        obtain ⟨wx, hx, ⟨m', w'⟩, h2, h3⟩ := e
        cases h3
        by_cases hv : v = u
        · subst hv
          simp only [Function.update_self] at hw
          cases hw
          obtain ⟨lx, hlx, hhx⟩ := r.holds x wx hx
          have hne : v ≠ x := by rintro rfl; rw [hu] at hx; cases hx
          have hle := hhx.le
          rw [hcap x wx hx] at hle
          have r0 := r.new (by omega) hu
          simp only [SmallVector.copy, hhx.last] at h2
          have := pushAll_first hN hx hne hlx (by omega) lx.length 0 _ _ _ _ (by omega) (by simpa using r0) hle h2
          rw [this.1, this.2]
          rfl
        · simp only [Function.update_of_ne hv] at hw
          exact ih hw
      · cases e
    | push u a =>
      simp only [Op.run, Option.bind_eq_bind, Option.bind_eq_some_iff] at e
      obtain ⟨a', -, e⟩ := e
      refine onv u _ e ?_
      intro x m' x' hx he
      obtain ⟨l, hl, hh⟩ := r.holds u x hx
      have := push_first hh (by
        rw [hcap u x hx]
        apply hlen u l hl
        cases a with
        | value t =>
          simp only [Op.spec, hl, Option.some.injEq] at ho
          exact ⟨l ++ [t], by rw [← ho, Function.update_self], by simp⟩
        | elem y i =>
          simp only [Op.spec, hl] at ho
          split at ho
          · rename_i l0 t e1 e2
            cases e1
            cases ho
            exact ⟨l ++ [t], by rw [Function.update_self], by simp⟩
          · cases ho) he
      rw [this]
      exact ⟨rfl, rfl⟩
    | pushMove u a =>
      simp only [Op.run, Option.bind_eq_bind, Option.bind_eq_some_iff] at e
      obtain ⟨a', -, e⟩ := e
      refine onv u _ e ?_
      intro x m' x' hx he
      obtain ⟨l, hl, hh⟩ := r.holds u x hx
      have := pushMove_first hh (by
        rw [hcap u x hx]
        apply hlen u l hl
        cases a with
        | value t =>
          simp only [Op.spec, hl, Option.some.injEq] at ho
          exact ⟨l ++ [t], by rw [← ho, Function.update_self], by simp⟩
        | elem y i =>
          simp only [Op.spec] at ho
          split at ho
          · cases ho
          · rename_i ly hly
            split at ho
            · cases ho
            · rename_i t ht
              split at ho
              · rename_i l' hl'
                cases ho
                refine ⟨l' ++ [t], by rw [Function.update_self], ?_⟩
                by_cases huy : u = y
                · subst huy
                  rw [Function.update_self] at hl'
                  rw [hl] at hly
                  cases hly
                  cases hl'
                  simp
                · rw [Function.update_of_ne huy, hl] at hl'
                  cases hl'
                  simp
              · cases ho) he
      rw [this]
      exact ⟨rfl, rfl⟩
    | pop u =>
      refine onv u _ e ?_
      intro x m' x' _ he
      unfold pop at he
      split at he
      · cases he
      · simp only [Option.bind_eq_bind, Option.bind_eq_some_iff] at he
        obtain ⟨_, -, he⟩ := he
        cases he
        exact ⟨rfl, rfl⟩
    | clear u =>
      refine onv u _ e ?_
      intro x m' x' _ he
      simp only [clear, Option.bind_eq_bind, Option.bind_eq_some_iff] at he
      obtain ⟨_, -, he⟩ := he
      cases he
      exact ⟨rfl, rfl⟩
    | resize u n t =>
      refine onv u _ e ?_
      intro x m' x' hx he
      obtain ⟨l, hl, hh⟩ := r.holds u x hx
      have hn : n ≤ x.cap := by
        rw [hcap u x hx]
        simp only [Op.spec, hl, Option.some.injEq] at ho
        have := hs u (l.take n ++ List.replicate (n - l.length) t) (by rw [← ho, Function.update_self])
        simp at this
        omega
      simp only [resize, grow_not hh hn, Option.bind_eq_bind, Option.bind_some, Option.bind_eq_some_iff] at he
      obtain ⟨_, -, _, -, he⟩ := he
      cases he
      exact ⟨rfl, rfl⟩
    | assign u y =>
      simp only [Op.run, Option.bind_eq_bind, Option.bind_eq_some_iff] at e
      obtain ⟨wy, hy, e⟩ := e
      split at e
      · cases e
        exact ih hw
      · refine onv u _ e ?_
        intro x m' x' hx he
        obtain ⟨l, hl, hh⟩ := r.holds u x hx
        obtain ⟨ly, hly, hhy⟩ := r.holds y wy hy
        obtain ⟨m1, w1, e1, h1, f1, fr1, c1⟩ := clear_spec hh r.fresh
        have hw1 : w1 = { x with last := 0 } := by
          simp only [clear, Option.bind_eq_bind, Option.bind_eq_some_iff] at e1
          obtain ⟨_, -, e1⟩ := e1
          cases e1
          rfl
        have hng := grow_not (left := left) (n := wy.capacity) h1 (by rw [c1, hcap u x hx, hhy.capacity, hcap y wy hy])
        simp only [assign, e1, hng, Option.bind_eq_bind, Option.bind_some, Option.bind_eq_some_iff] at he
        obtain ⟨_, -, he⟩ := he
        cases he
        rw [hw1]
        exact ⟨rfl, rfl⟩
    | erase u i j =>
      refine onv u _ e ?_
      intro x m' x' hx he
      unfold erase at he
      split at he
      · cases he
        exact ⟨rfl, rfl⟩
      · split at he
        · cases he
        · simp only [Option.bind_eq_bind, Option.bind_eq_some_iff] at he
          obtain ⟨_, -, he⟩ := he
          split at he
          · cases he
          · simp only [Option.bind_eq_some_iff] at he
            obtain ⟨_, -, he⟩ := he
            cases he
            exact ⟨rfl, rfl⟩
    | set u i t =>
      refine onv u _ e ?_
      intro x m' x' hx he
      simp only [SmallVector.set, Option.bind_eq_bind, Option.bind_eq_some_iff] at he
      obtain ⟨_, -, he⟩ := he
      cases he
      exact ⟨rfl, rfl⟩
    | finish u =>
      simp only [Op.run, Option.bind_eq_bind, Option.bind_eq_some_iff] at e
      obtain ⟨wu, hu, m', -, e⟩ := e
      cases e
      by_cases hv : v = u
      · subst hv
        simp at hw
      · simp only [Function.update_of_ne hv] at hw
        exact ih hw

/-! ### How often memory is allocated -/

omit [DecidableEq T] in
theorem construct_next {m m' : Mem T} {b i : Nat} {x : T} (h : m.construct b i x = some m') : m'.next = m.next := by
  unfold Mem.construct at h
  split at h
  · cases h
  · split at h
    · cases h
      rfl
    · cases h

theorem push_count (hN : 0 < N) (h : R N s σ) {v : Nat} {w w' : Vec} {l : List T} {m' : Mem T} {t : T} (hw : s.vecs v = some w)
    (hl : σ v = some l) (hs : l.length < 2 ^ 31) (e : push left w (.value t) s.mem = some (m', w')) :
    (l.length ≠ w.cap ∧ m'.next = s.mem.next ∧ w'.cap = w.cap) ∨
      (l.length = w.cap ∧ m'.next = s.mem.next + 1 ∧ w'.cap = w.cap * 2) := by
  obtain ⟨_, hw', hh⟩ := h.vec hl
  rw [hw] at hw'
  cases hw'
  have hle := hh.le
  unfold push at e
  by_cases hfull : l.length = w.cap
  · right
    obtain ⟨m1, w1, e1, -, -, -, -, -, -, h1, h2⟩ := grow_spec left hN hh h.fresh (n := 0) (by omega) (Or.inl (by omega))
    simp only [room, hh.last, hfull, if_true, e1, Option.bind_eq_bind, Option.bind_some, Option.bind_eq_some_iff] at e
    obtain ⟨_, -, m2, e2, e⟩ := e
    cases e
    exact ⟨hfull, by rw [construct_next e2, h1], h2 rfl⟩
  · left
    simp only [room_not (left := left) hh (by omega), Option.bind_eq_bind, Option.bind_some, Option.bind_eq_some_iff] at e
    obtain ⟨_, -, m2, e2, e⟩ := e
    cases e
    exact ⟨hfull, construct_next e2, rfl⟩

theorem growths_from (hN : 0 < N) (v : Nat) (l : List T) : ∀ (s : Sys T) (σ : Nat → Option (List T)) (w : Vec) (l0 : List T) (g : Nat),
    R N s σ → σ v = some l0 → s.vecs v = some w → l0.length + l.length ≤ 2 ^ 31 → s.mem.next = 1 + g → w.cap = N * 2 ^ g →
    (g = 0 ∨ w.cap < 2 * l0.length) →
    ∃ s' w' g', runAll left N s (l.map fun t => .push v (.value t)) = some s' ∧ s'.vecs v = some w' ∧
      s'.mem.next = 1 + g' ∧ w'.cap = N * 2 ^ g' ∧ (g' = 0 ∨ w'.cap < 2 * (l0.length + l.length)) ∧
      w'.last = l0.length + l.length := by
  induction l with
  | nil =>
    intro s σ w l0 g h hl hw hs h1 h2 h3
    obtain ⟨l1, e, hh⟩ := h.holds v w hw
    rw [hl] at e
    cases e
    exact ⟨s, w, g, rfl, hw, h1, h2, h3, hh.last⟩
  | cons t l ih =>
    intro s σ w l0 g h hl hw hs h1 h2 h3
    simp only [List.length_cons] at hs
    obtain ⟨m', w', e, r⟩ := push_spec left hN h hw hl (by omega) (a := .value t) (t := t) (fun _ _ _ _ _ _ => rfl)
    have hc := push_count hN h hw hl (by omega) e
    have hrun : (Op.push v (.value t)).run left N s = some ⟨m', Function.update s.vecs v (some w')⟩ := by
      simp [Op.run, Src.arg, Sys.on, hw, e]
    have key : ∃ g1, m'.next = 1 + g1 ∧ w'.cap = N * 2 ^ g1 ∧ (g1 = 0 ∨ w'.cap < 2 * (l0 ++ [t]).length) := by
      rcases hc with ⟨-, c1, c2⟩ | ⟨c0, c1, c2⟩
      · refine ⟨g, by omega, by rw [c2, h2], ?_⟩
        simp only [List.length_append, List.length_cons, List.length_nil]
        omega
      · refine ⟨g + 1, by omega, by rw [c2, h2]; ring, ?_⟩
        simp only [List.length_append, List.length_cons, List.length_nil]
        omega
    obtain ⟨g1, k1, k2, k3⟩ := key
    obtain ⟨s2, w2, g2, e2, q1, q2, q3, q4, q5⟩ := ih _ _ w' (l0 ++ [t]) g1 r (by simp) (by simp) (by simp; omega) k1 k2 k3
    refine ⟨s2, w2, g2, ?_, q1, q2, q3, ?_, ?_⟩
    · simp only [List.map_cons, runAll, hrun, Option.bind_eq_bind, Option.bind_some, e2]
    · simp only [List.length_append, List.length_cons, List.length_nil] at q4 ⊢
      omega
    · simp only [List.length_append, List.length_cons, List.length_nil] at q5 ⊢
      omega

/-- Pushing values onto a new vector allocates memory `g` times besides the vector itself, where `N * 2^g` is the capacity in the end,
which is less than twice their number if it is more than `N`. -/
theorem growths (hN : 0 < N) (hN' : N < 2 ^ 32) (v : Nat) (l : List T) (hl : l.length ≤ 2 ^ 31) :
    ∃ s w g, runAll left N Sys.init (.new v :: l.map fun t => .push v (.value t)) = some s ∧ s.vecs v = some w ∧
      s.mem.next = 1 + g ∧ w.cap = N * 2 ^ g ∧ (g = 0 ∨ w.cap < 2 * l.length) ∧ w.last = l.length := by
  have r := (init_R (N := N) (T := T)).new hN' (v := v) rfl
  obtain ⟨s', w', g, e, h⟩ := growths_from (left := left) hN v l _ _ (SmallVector.new N (Sys.init : Sys T).mem).2 [] 0 r (by simp)
    (by simp) (by simpa using hl) rfl
    (by simp [SmallVector.new]) (Or.inl rfl)
  simp only [List.length_nil, Nat.zero_add] at h
  refine ⟨s', w', g, ?_, h⟩
  simp only [runAll, Op.run, Option.bind_eq_bind]
  exact e

/-! ### The exceptions -/

/-- A full vector that gets a copy of one of its own elements reads it after it has gone. -/
theorem alias_undefined (hN : 0 < N) (hN' : N < 2 ^ 32) (hL : L ≤ 2 ^ 31) (h : Reach left N L s σ) {v : Nat} {w : Vec} (hw : s.vecs v = some w)
    (hfull : w.last = w.cap) (hc : w.cap < 2 ^ 31) (i : Nat) :
    (Op.push v (.elem v i)).run left N s = none ∧ (Op.pushMove v (.elem v i)).run left N s = none := by
  have r := h.R left hN hN' hL
  obtain ⟨l, hl, hh⟩ := r.holds v w hw
  obtain ⟨m', w', e, h1, f, h2, h3, h4, h5, h6, -⟩ := grow_spec left hN hh r.fresh (n := 0) hc (Or.inl (by omega))
  have b1 := hh.first_lt r.fresh
  have b2 := hh.lv_lt r.fresh
  have hr : m'.read w.first i = none := by
    by_cases hf : w.first = w.lv
    · have := h1.lv (by rw [f.lv]; omega)
      rw [f.lv, ← hf] at this
      simp only [Mem.read, this, raws, List.getElem?_replicate]
      split <;> simp_all
    · have : m'.blocks w.first = none := by
        rcases f.first with e' | ⟨-, -, e'⟩
        · omega
        · exact e' hf
      simp [Mem.read, this]
  have hroom : room left w s.mem = some (m', w') := by rw [room, if_pos hfull, e]
  constructor
  · simp [Op.run, Src.arg, hw, Sys.on, push, hroom, Arg.read, hr]
  · simp [Op.run, Src.arg, hw, Sys.on, pushMove, hroom, Arg.read, hr]

omit [DecidableEq T] in
theorem assign_other {m m' : Mem T} {b b' i : Nat} {x : T} (h : m.assign b i x = some m') (hb : b' ≠ b) :
    m'.blocks b' = m.blocks b' := by
  unfold Mem.assign at h
  split at h
  · cases h
  · split at h
    · cases h
      exact put_other _ hb _
    · cases h

/-- A vector of 2^31 elements that fill it cannot grow: twice the capacity is 0. -/
theorem limit_undefined (hN : 0 < N) (hN' : N < 2 ^ 32) (hL : L ≤ 2 ^ 31) (h : Reach left N L s σ) {v : Nat} {w : Vec} (hw : s.vecs v = some w)
    (hfull : w.last = w.cap) (hc : w.cap = 2 ^ 31) (a : T) : (Op.push v (.value a)).run left N s = none := by
  have r := h.R left hN hN' hL
  obtain ⟨l, hl, hh⟩ := r.holds v w hw
  have hg : grow left w 0 s.mem = none := by
    have e : widen (w.capacity * 2 % 2 ^ 32) 0 = some 0 := by
      rw [hh.capacity, hc, widen]
      simp
    unfold grow
    simp only [e, Option.bind_eq_bind, Option.bind_some, Mem.alloc, List.replicate_zero]
    rw [hfull, hc, show 2 ^ 31 = (2 ^ 31 - 1) + 1 by decide, moveAll]
    simp only [Option.bind_eq_bind]
    rw [Option.bind_eq_none_iff]
    intro m1 h1
    exfalso
    rw [Option.bind_eq_some_iff] at h1
    obtain ⟨x, -, h1⟩ := h1
    rw [Option.bind_eq_some_iff] at h1
    obtain ⟨m2, h2, h1⟩ := h1
    rw [Option.bind_eq_some_iff] at h1
    obtain ⟨m3, h3, h1⟩ := h1
    have hne := hh.first_lt r.fresh
    have hb : m2.blocks s.mem.next = some ⟨false, []⟩ := by
      rw [assign_other h2 (by omega)]
      simp
    simp [Mem.construct, hb] at h3
  have hroom : room left w s.mem = none := by rw [room, if_pos hfull, hg]
  simp [Op.run, Src.arg, hw, Sys.on, push, hroom]

/-- Such a vector is made by `resize` if `N` is a power of two. -/
theorem limit_reached (k : Nat) (hk : k ≤ 31) (a : T) (v : Nat) :
    ∃ s σ w, Reach left (2 ^ k) (2 ^ 31) (s : Sys T) σ ∧ s.vecs v = some w ∧ w.last = w.cap ∧ w.cap = 2 ^ 31 := by
  have hN : 0 < 2 ^ k := Nat.two_pow_pos k
  have hN' : 2 ^ k < 2 ^ 32 := Nat.pow_lt_pow_right (by decide) (by omega)
  obtain ⟨s1, -, r1⟩ := runs (left := left) hN hN' (Nat.le_refl _) .init (.new v) trivial
    (σ' := Function.update (fun _ => none) v (some [])) (by simp [Op.spec]) (by
      intro u l hu
      rw [Function.update_apply] at hu
      split at hu
      · cases hu; simp
      · cases hu)
  obtain ⟨s2, -, r2⟩ := runs hN hN' (Nat.le_refl _) r1 (.resize v (2 ^ 31) a) trivial
    (σ' := Function.update (fun _ => none) v (some (List.replicate (2 ^ 31) a))) (by
      simp only [Op.spec, Function.update_self, Function.update_idem, List.take_nil, List.nil_append, List.length_nil, Nat.sub_zero]) (by
      intro u l hu
      rw [Function.update_apply] at hu
      split at hu
      · cases hu
        rw [List.length_replicate]
      · cases hu)
  have r := r2.R left hN hN' (Nat.le_refl _)
  obtain ⟨w, hw, hh⟩ := r.vec (v := v) (l := List.replicate (2 ^ 31) a) (by rw [Function.update_self])
  have hlast := hh.last
  have hle := hh.le
  rw [List.length_replicate] at hlast hle
  obtain ⟨j, hj⟩ := hh.pow
  have hlt := hh.lt
  rw [← pow_add] at hj
  rw [hj] at hle hlt
  have h1 : 31 ≤ k + j := (Nat.pow_le_pow_iff_right (by decide)).1 hle
  have h2 : k + j < 32 := (Nat.pow_lt_pow_iff_right (by decide)).1 hlt
  have h3 : w.cap = 2 ^ 31 := by rw [hj, show k + j = 31 by omega]
  exact ⟨s2, _, w, r2, hw, by rw [h3, hlast], h3⟩

/-- Without room inside, the first element has no place, and `resize` never ends. -/
theorem zero_capacity (v : Nat) (a : T) (n : Nat) (hn : 0 < n) :
    runAll left 0 Sys.init [.new v, .push v (.value a)] = none ∧ runAll left 0 Sys.init [.new v, .resize v n a] = none := by
  constructor
  · simp [runAll, Op.run, Sys.init, SmallVector.new, Sys.on, Src.arg, push, room, grow, Vec.capacity, widen, moveAll, Mem.alloc,
      Arg.read, Mem.construct]
  · have : widen 0 n = none := by rw [widen]; simp [hn]
    simp [runAll, Op.run, Sys.init, SmallVector.new, Sys.on, resize, reserve, grow, Vec.capacity, this, hn]

/-! ### Examples -/

/-- Texts with room for two inside.  A text that was moved from is empty. -/
def program : List (Op String) :=
  [.new 0, .push 0 (.value "a"), .push 0 (.value "b"), .push 0 (.value "c"), .copy 1 0, .push 1 (.elem 1 0), .erase 1 1 3,
    .new 2, .pushMove 2 (.elem 0 1), .assign 0 1, .resize 2 4 "z", .pop 2, .set 2 1 "y", .clear 1]

/-- What the vectors 0, 1 and 2 have. -/
def seen (s : Sys String) : List (Option (List String)) :=
  (List.range 3).map fun v => (s.vecs v).bind fun w => (List.range w.last).mapM fun i => s.mem.read w.first i

/-- It runs, and the vectors are the lists. -/
example : (runAll (fun _ => "") 2 Sys.init program).map seen = some [some ["a", "a"], some [], some ["b", "y", "z"]] := by
  decide +kernel

/-- With the destructors, nothing is left of the blocks that were allocated. -/
example : (runAll (fun _ => "") 2 Sys.init (program ++ [.finish 1, .finish 0, .finish 2])).map
    (fun s => (s.mem.next, (List.range s.mem.next).all fun b => (s.mem.blocks b).isNone)) = some (6, true) := by
  decide +kernel

/-- A full vector and its own element. -/
example : runAll (fun _ => 0) 2 Sys.init [.new 0, .push 0 (.value 5), .push 0 (.value 6), .push 0 (.elem 0 1)] = none := by
  decide +kernel

end Verif.Props.C69
