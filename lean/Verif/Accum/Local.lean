import Verif.Accum.Model
import Mathlib.Data.List.Forall2
import Mathlib.Tactic.ByContra
/-
What each operation on one accumulator does to memory and to the text (see `Model.lean`).
-/
namespace Verif.Accum

/-- `w` is an instance of `v`: where `v` knows the byte, `w` has it. -/
def Sim (v w : Bytes) : Prop := List.Forall₂ (fun a c => a = none ∨ a = c) v w

theorem Sim.refl (v : Bytes) : Sim v v := by
  induction v with
  | nil => exact .nil
  | cons a v ih => exact .cons (.inr rfl) ih

theorem Sim.len {v w : Bytes} (h : Sim v w) : v.length = w.length := h.length_eq

theorem Sim.app {v w v' w' : Bytes} (h : Sim v w) (h' : Sim v' w') : Sim (v ++ v') (w ++ w') := by
  induction h with
  | nil => exact h'
  | cons a _ ih => exact .cons a ih

theorem Sim.take {v w : Bytes} (h : Sim v w) (n : Nat) : Sim (v.take n) (w.take n) := List.forall₂_take n h

theorem Sim.drop {v w : Bytes} (h : Sim v w) (n : Nat) : Sim (v.drop n) (w.drop n) := List.forall₂_drop n h

theorem Sim.unknown (w : Bytes) : Sim (List.replicate w.length none) w := by
  induction w with
  | nil => exact .nil
  | cons a w ih => exact .cons (.inl rfl) ih

/-- The record is well formed in memory and its text is an instance of `v`. -/
def Holds (m : Mem) (r : Rep) (v : Bytes) : Prop :=
  r.len = v.length ∧ r.len ≤ r.cap ∧
    ((r.blk = none ∧ r.cap = 0) ∨
      ∃ b B, r.blk = some b ∧ m.heap b = some B ∧ B.length = r.cap ∧ 0 < r.cap ∧ Sim v (B.take r.len))

/-- No block from `next` on exists. -/
def Fresh (m : Mem) : Prop := ∀ b, m.next ≤ b → m.heap b = none

/-- From `(m, r)` to `(m', r')`: nobody else's block is touched, the record's block is kept, or is freed and replaced by a new one,
and there is no other new block. -/
structure Upd (m : Mem) (r : Rep) (m' : Mem) (r' : Rep) : Prop where
  fresh : Fresh m'
  next : m.next ≤ m'.next
  frame : ∀ b, b < m.next → r.blk ≠ some b → m'.heap b = m.heap b
  mine : ∀ b, r'.blk = some b → r.blk = some b ∨ m.next ≤ b
  freed : ∀ b, r.blk = some b → r'.blk ≠ some b → m'.heap b = none
  leak : ∀ b, m.next ≤ b → (m'.heap b).isSome → r'.blk = some b

theorem Upd.refl {m : Mem} {r : Rep} (h : Fresh m) {r' : Rep} (hr : r'.blk = r.blk) : Upd m r m r' :=
  ⟨h, Nat.le_refl _, fun _ _ _ => rfl, fun b hb => .inl (hr ▸ hb), fun b hb hn => absurd (hr ▸ hb) hn,
    fun b hb hs => by rw [h b hb] at hs; simp at hs⟩

theorem Upd.blk {m m' : Mem} {r r' q q' : Rep} (h : Upd m r m' r') (hq : q.blk = r.blk) (hq' : q'.blk = r'.blk) :
    Upd m q m' q' := by
  obtain ⟨h1, h2, h3, h4, h5, h6⟩ := h
  exact ⟨h1, h2, by rw [hq]; exact h3, by rw [hq, hq']; exact h4, by rw [hq, hq']; exact h5, by rw [hq']; exact h6⟩

theorem Holds.lt {m : Mem} {r : Rep} {v : Bytes} (hf : Fresh m) (h : Holds m r v) {b : Nat} (hb : r.blk = some b) : b < m.next := by
  rcases h.2.2 with h | ⟨b', B, h1, h2, _⟩
  · rw [h.1] at hb; simp at hb
  · by_contra hc
    rw [h1] at hb; cases hb
    rw [hf b (by omega)] at h2; simp at h2

theorem Upd.trans {m m1 m2 : Mem} {r r1 r2 : Rep} (hl : ∀ b, r.blk = some b → b < m.next)
    (h : Upd m r m1 r1) (k : Upd m1 r1 m2 r2) : Upd m r m2 r2 := by
  refine ⟨k.fresh, Nat.le_trans h.next k.next, ?_, ?_, ?_, ?_⟩
  · intro b hb hn
    rw [k.frame b (by have := h.next; omega), h.frame b hb hn]
    intro he
    rcases h.mine b he with h' | h'
    · exact hn h'
    · omega
  · intro b hb
    rcases k.mine b hb with h' | h'
    · exact h.mine b h'
    · exact .inr (Nat.le_trans h.next h')
  · intro b hb hn
    by_cases h1 : r1.blk = some b
    · exact k.freed b h1 hn
    · rw [k.frame b (by have := hl b hb; have := h.next; omega) h1]
      exact h.freed b hb h1
  · intro b hb hs
    by_cases h1 : b < m1.next
    · by_cases h2 : r1.blk = some b
      · by_contra h3
        rw [k.freed b h2 h3] at hs; simp at hs
      · rw [k.frame b h1 h2] at hs
        exact absurd (h.leak b hb hs) h2
    · exact k.leak b (by omega) hs

/-- The greatest length that is always reached without overflow. -/
def lim : Nat := 2146959347

theorem newCap_spec {cap ncap : Nat} (hc : cap ≤ ncap) (hl : ncap ≤ lim) :
    ∃ n, newCap cap ncap = some n ∧ n + memoSpace ≤ intMax ∧ ncap ≤ n ∧ 0 < n ∧ (cap = ncap → ncap < n) := by
  unfold newCap
  unfold lim at hl
  unfold memoSpace intMax
  by_cases h1 : ncap < 128
  · rw [if_pos h1]; exact ⟨_, rfl, by omega, by omega, by omega, by omega⟩
  rw [if_neg h1]
  by_cases h2 : cap < 1048576 ∧ ncap < (cap + 12) * 2 - 12
  · rw [if_pos h2]; exact ⟨_, rfl, by omega, by omega, by omega, by omega⟩
  rw [if_neg h2]
  by_cases h3 : cap ≥ 1048576
  · rw [if_pos h3, if_pos (by omega)]
    by_cases h4 : ncap < cap + 524288
    · rw [if_pos h4]; exact ⟨_, rfl, by omega, by omega, by omega, by omega⟩
    · rw [if_neg h4]; exact ⟨_, rfl, by omega, by omega, by omega, by omega⟩
  · rw [if_neg h3]; exact ⟨_, rfl, by omega, by omega, by omega, by omega⟩

/-- What `read` gives. -/
theorem Holds.read {m : Mem} {r : Rep} {v : Bytes} (h : Holds m r v) {off n : Nat} (hn : off + n ≤ r.len) :
    ∃ l, read m r.blk off n = some l ∧ Sim ((v.drop off).take n) l := by
  obtain ⟨h1, h2, h3⟩ := h
  rcases h3 with ⟨h3, h4⟩ | ⟨b, B, h3, h4, h5, h6, h7⟩
  · rw [h3]
    refine ⟨[], by simp [Accum.read]; omega, ?_⟩
    have : n = 0 := by omega
    rw [this, List.take_zero]; exact .nil
  · rw [h3]
    refine ⟨(B.drop off).take n, by simp only [Accum.read, h4]; rw [if_pos (by omega)], ?_⟩
    have := (h7.drop off).take n
    rwa [List.drop_take, List.take_take, Nat.min_eq_left (by omega)] at this

/-- Writing `l` at the end of the text, when there is room, and counting `k` of its bytes. -/
theorem write_end {m : Mem} {r : Rep} {v : Bytes} (hf : Fresh m) (h : Holds m r v) {l : Bytes} (hl : r.len + l.length ≤ r.cap)
    {v' : Bytes} {k : Nat} (hs : Sim v' (l.take k)) (hk : k ≤ l.length) :
    ∃ m', write m r.blk r.len l = some m' ∧ Holds m' { r with len := r.len + k } (v ++ v') ∧
      Upd m r m' { r with len := r.len + k } := by
  have hlt := fun b hb => h.lt hf (b := b) hb
  obtain ⟨h1, h2, h3⟩ := h
  have hv' : v'.length = k := by rw [hs.len, List.length_take]; omega
  rcases h3 with ⟨h3, h4⟩ | ⟨b, B, h3, h4, h5, h6, h7⟩
  · have hl0 : l = [] := List.eq_nil_of_length_eq_zero (by omega)
    have hk0 : k = 0 := by rw [hl0] at hk; simpa using hk
    refine ⟨m, by rw [h3]; simp [Accum.write, hl0], ⟨by simp [h1, hv'], by simp; omega, .inl ⟨h3, h4⟩⟩,
      Upd.refl hf rfl⟩
  · refine ⟨{ m with heap := Function.update m.heap b (some (B.take r.len ++ l ++ B.drop (r.len + l.length))) }, ?_, ?_, ?_⟩
    · simp only [h3, Accum.write, h4]
      rw [if_pos (by omega)]
    · refine ⟨by simp [h1, hv'], by simp; omega, .inr ⟨b, _, h3, Function.update_self .., ?_, h6, ?_⟩⟩
      · simp; omega
      · have : (B.take r.len ++ l ++ B.drop (r.len + l.length)).take (r.len + k) = B.take r.len ++ l.take k := by
          rw [List.append_assoc, List.take_append, List.take_of_length_le (by simp; omega), List.length_take,
            Nat.min_eq_left (by omega), Nat.add_sub_cancel_left, List.take_append_of_le_length hk]
        rw [this]
        exact h7.app hs
    · refine ⟨fun b' hb' => ?_, Nat.le_refl _, fun b' _ hn => ?_, fun b' hb' => .inl hb', fun b' hb' hn => absurd hb' hn,
        fun b' hb' hs => ?_⟩
      · have := hlt b h3
        simp only [] at hb'
        simp only [Function.update_apply]
        rw [if_neg (by omega)]
        exact hf b' hb'
      · simp only [Function.update_apply]
        rw [if_neg]
        rintro rfl
        exact hn h3
      · have := hlt b h3
        simp only [Function.update_apply] at hs
        rw [if_neg (by omega), hf b' hb'] at hs
        simp at hs

theorem grow_spec {m : Mem} {r : Rep} {v : Bytes} (hf : Fresh m) (h : Holds m r v) {ncap : Nat} (hn : ncap ≤ lim) :
    ∃ m' r', grow m r ncap = some (m', r') ∧ Holds m' r' v ∧ Upd m r m' r' ∧ r'.len = r.len ∧ ncap ≤ r'.cap ∧
      (r.cap = ncap → ncap < r'.cap) ∧ r.cap ≤ r'.cap ∧ (∀ b, r.cap ≤ ncap → r'.blk = some b → r.blk ≠ some b) := by
  have hlt := fun b hb => h.lt hf (b := b) hb
  unfold grow
  rw [if_neg (by unfold lim at hn; unfold intMax; omega)]
  by_cases h1 : ncap < r.cap
  · rw [if_pos h1]
    exact ⟨m, r, rfl, h, Upd.refl hf rfl, rfl, by omega, by omega, by omega, by omega⟩
  rw [if_neg h1]
  obtain ⟨n, e1, e2, e3, e4, e5⟩ := newCap_spec (cap := r.cap) (ncap := ncap) (by omega) hn
  rw [e1]
  have ea : alloc m n = some ({ heap := Function.update m.heap m.next (some (List.replicate n none)), next := m.next + 1 }, m.next) := by
    unfold alloc
    rw [if_pos e2]
  simp only [Option.bind_eq_bind, Option.bind_some, ea]
  obtain ⟨g1, g2, g3⟩ := h
  rcases g3 with ⟨g3, g4⟩ | ⟨b, B, g3, g4, g5, g6, g7⟩
  · rw [if_neg (by omega)]
    refine ⟨_, _, rfl, ⟨g1, by simp; omega, .inr ⟨m.next, _, rfl, Function.update_self .., by simp, e4, ?_⟩⟩, ?_, rfl, e3, e5,
      by simp; omega, ?_⟩
    · have : v = [] := List.eq_nil_of_length_eq_zero (by omega)
      rw [this]
      have : r.len = 0 := by omega
      simp [this, Sim]
    · refine ⟨fun b' hb' => ?_, by simp, fun b' hb' _ => ?_, fun b' hb' => .inr (by simp at hb'; omega), fun b' hb' => by simp [g3] at hb',
        fun b' hb' hs => ?_⟩
      · simp only [] at hb'
        simp only [Function.update_apply]
        rw [if_neg (by omega)]
        exact hf b' (by omega)
      · simp only [Function.update_apply]
        rw [if_neg (by omega)]
      · simp only [Function.update_apply] at hs
        by_contra hc
        rw [if_neg (by rintro rfl; exact hc rfl), hf b' hb'] at hs
        simp at hs
    · intro b _ _; simp [g3]
  · have hb := hlt b g3
    have hbn : b ≠ m.next := by omega
    have hL : (B.take r.len).length = r.len := by rw [List.length_take]; omega
    have er : read { heap := Function.update m.heap m.next (some (List.replicate n none)), next := m.next + 1 } r.blk 0 r.len =
        some (B.take r.len) := by
      simp only [Accum.read, g3, Function.update_apply]
      rw [if_neg hbn, g4]
      simp only []
      rw [if_pos (by omega), List.drop_zero]
    rw [if_pos g6]
    simp only [er, Option.bind_some, Accum.write, Function.update_self, List.length_replicate, hL]
    rw [if_pos (by omega)]
    simp only [Option.bind_some, Accum.free, g3, Function.update_apply, if_neg hbn, g4]
    refine ⟨_, _, rfl, ⟨g1, by simp; omega, .inr ⟨m.next, List.take 0 (List.replicate n none) ++ B.take r.len ++
      (List.replicate n none).drop (0 + r.len), rfl, ?_, ?_, e4, ?_⟩⟩, ?_, rfl, e3, e5, by simp; omega, ?_⟩
    · simp only [Function.update_apply, if_neg hbn.symm, if_true]
    · simp; omega
    · simp only [List.take_zero, List.nil_append]
      rw [List.take_append_of_le_length (by omega), List.take_of_length_le (by omega)]
      exact g7
    · refine ⟨fun b' hb' => ?_, by simp, fun b' hb' hn' => ?_, fun b' hb' => .inr (by simp at hb'; omega), fun b' hb' _ => ?_,
        fun b' hb' hs => ?_⟩
      · simp only [] at hb'
        simp only [Function.update_apply]
        rw [if_neg (by omega), if_neg (by omega), if_neg (by omega)]
        exact hf b' (by omega)
      · simp only [Function.update_apply]
        rw [if_neg (by rintro rfl; exact hn' g3), if_neg (by omega), if_neg (by omega)]
      · rw [g3] at hb'
        cases hb'
        simp only [Function.update_apply, if_true]
      · simp only [Function.update_apply] at hs
        by_contra hc
        have : b' ≠ m.next := by rintro rfl; exact hc rfl
        rw [if_neg (by omega), if_neg this, if_neg this, hf b' hb'] at hs
        simp at hs
    · intro b' _ hb' he
      skip
      simp only [Option.some.injEq] at hb' he
      omega

theorem grow_cap {m m' : Mem} {r r' : Rep} {n : Nat} (h : grow m r n = some (m', r')) (hc : r.cap ≤ n) :
    newCap r.cap n = some r'.cap ∧ r'.len = r.len := by
  unfold grow at h
  by_cases h1 : n > intMax
  · rw [if_pos h1] at h; simp at h
  rw [if_neg h1, if_neg (by omega)] at h
  cases hn : newCap r.cap n with
  | none => rw [hn] at h; simp at h
  | some c =>
    rw [hn] at h
    simp only [Option.bind_eq_bind, Option.bind_some, Option.bind_eq_some_iff] at h
    obtain ⟨⟨m1, b⟩, _, h⟩ := h
    by_cases h2 : r.cap > 0
    · rw [if_pos h2] at h
      simp only [Option.bind_eq_some_iff] at h
      obtain ⟨l, _, m2, _, m3, _, h⟩ := h
      simp only [Option.some.injEq, Prod.mk.injEq] at h
      rw [← h.2]
      exact ⟨rfl, rfl⟩
    · rw [if_neg h2] at h
      simp only [Option.bind_some, Option.some.injEq, Prod.mk.injEq] at h
      rw [← h.2]
      exact ⟨rfl, rfl⟩

theorem Holds.frame {m m' : Mem} {r : Rep} {v : Bytes} (h : Holds m r v) (hm : ∀ b, r.blk = some b → m'.heap b = m.heap b) :
    Holds m' r v := by
  obtain ⟨h1, h2, h3⟩ := h
  refine ⟨h1, h2, ?_⟩
  rcases h3 with h3 | ⟨b, B, h3, h4, h5⟩
  · exact .inl h3
  · exact .inr ⟨b, B, h3, (hm b h3).trans h4, h5⟩

theorem Holds.more {m : Mem} {r : Rep} {v : Bytes} (h : Holds m r v) {k : Nat} (hk : r.len + k ≤ r.cap) :
    Holds m { r with len := r.len + k } (v ++ List.replicate k none) := by
  obtain ⟨h1, h2, h3⟩ := h
  refine ⟨by simp [h1], hk, ?_⟩
  rcases h3 with h3 | ⟨b, B, h3, h4, h5, h6, h7⟩
  · exact .inl h3
  · refine .inr ⟨b, B, h3, h4, h5, h6, ?_⟩
    have : B.take (r.len + k) = B.take r.len ++ (B.drop r.len).take k := by
      rw [List.take_add]
    simp only [this]
    refine h7.app ?_
    have := Sim.unknown ((B.drop r.len).take k)
    rwa [List.length_take, List.length_drop, Nat.min_eq_left (by omega)] at this

theorem Holds.less {m : Mem} {r : Rep} {v : Bytes} (h : Holds m r v) {k : Nat} (hk : k ≤ r.len) :
    Holds m { r with len := k } (v.take k) := by
  obtain ⟨h1, h2, h3⟩ := h
  refine ⟨by rw [List.length_take]; simp; omega, by simp; omega, ?_⟩
  rcases h3 with h3 | ⟨b, B, h3, h4, h5, h6, h7⟩
  · exact .inl h3
  · refine .inr ⟨b, B, h3, h4, h5, h6, ?_⟩
    have := h7.take k
    rwa [List.take_take, Nat.min_eq_left hk] at this

theorem Holds.empty (m : Mem) : Holds m Rep.empty [] := ⟨rfl, Nat.le_refl _, .inl ⟨rfl, rfl⟩⟩

/-- The operation succeeds, the text becomes an instance of `v'`, and memory is kept in order. -/
def Does (m : Mem) (r : Rep) (x : Option (Mem × Rep)) (v' : Bytes) : Prop :=
  ∃ m' r', x = some (m', r') ∧ Holds m' r' v' ∧ Upd m r m' r'

/-- `extend` makes room and then counts. -/
theorem extend_room {m : Mem} {r : Rep} {v : Bytes} (hf : Fresh m) (h : Holds m r v) {a b : Nat} (hn : r.len + a + b ≤ lim) :
    ∃ m1 r1, extend m r a b = some (m1, { r1 with len := r1.len + a }) ∧ Holds m1 r1 v ∧ Upd m r m1 r1 ∧ r1.len = r.len ∧
      r.len + a + b ≤ r1.cap := by
  unfold extend
  rw [if_neg (by unfold lim at hn; unfold intMax; omega)]
  by_cases h1 : r.len + a + b ≤ r.cap
  · rw [if_pos h1]
    exact ⟨m, r, rfl, h, Upd.refl hf rfl, rfl, h1⟩
  · rw [if_neg h1]
    obtain ⟨m1, r1, e1, e2, e3, e4, e5, _⟩ := grow_spec hf h hn
    rw [e1]
    exact ⟨m1, r1, by simp only [Option.bind_eq_bind, Option.bind_some, e4], e2, e3, e4, e5⟩

theorem extend_does {m : Mem} {r : Rep} {v : Bytes} (hf : Fresh m) (h : Holds m r v) {a b : Nat} (hn : r.len + a + b ≤ lim) :
    Does m r (extend m r a b) (v ++ List.replicate a none) := by
  obtain ⟨m1, r1, e1, e2, e3, e4, e5⟩ := extend_room hf h hn
  exact ⟨m1, _, e1, e2.more (by omega), e3.blk rfl rfl⟩

theorem reserve_room {m : Mem} {r : Rep} {v : Bytes} (hf : Fresh m) (h : Holds m r v) {n : Nat} (hn : r.len + n ≤ lim) :
    ∃ m1 r1, reserve m r n = some (m1, r1) ∧ Holds m1 r1 v ∧ Upd m r m1 r1 ∧ r1.len = r.len ∧ r.len + n ≤ r1.cap := by
  unfold reserve
  rw [if_neg (by unfold lim at hn; unfold intMax; omega)]
  by_cases h1 : r.len + n ≤ r.cap
  · rw [if_pos h1]
    exact ⟨m, r, rfl, h, Upd.refl hf rfl, rfl, h1⟩
  · rw [if_neg h1]
    obtain ⟨m1, r1, e1, e2, e3, e4, e5, _⟩ := grow_spec hf h hn
    exact ⟨m1, r1, e1, e2, e3, e4, e5⟩

/-- Room for one more byte. -/
theorem one_room {m : Mem} {r : Rep} {v : Bytes} (hf : Fresh m) (h : Holds m r v) (hn : r.len ≤ lim) :
    ∃ m1 r1, oneMore m r = some (m1, r1) ∧ Holds m1 r1 v ∧ Upd m r m1 r1 ∧
      r1.len = r.len ∧ r.len < r1.cap := by
  unfold oneMore
  by_cases h1 : r.len < r.cap
  · rw [if_pos h1]
    exact ⟨m, r, rfl, h, Upd.refl hf rfl, rfl, h1⟩
  · rw [if_neg h1]
    obtain ⟨m1, r1, e1, e2, e3, e4, e5, e6, _⟩ := grow_spec hf h hn
    exact ⟨m1, r1, e1, e2, e3, e4, e6 (by have := h.2.1; omega)⟩

theorem appendChar_does {m : Mem} {r : Rep} {v : Bytes} (hf : Fresh m) (h : Holds m r v) (hn : r.len ≤ lim) (c : Byte) :
    Does m r (appendChar m r c) (v ++ [some c]) := by
  obtain ⟨m1, r1, e1, e2, e3, e4, e5⟩ := one_room hf h hn
  obtain ⟨m2, g1, g2, g3⟩ := write_end e3.fresh e2 (l := [some c]) (v' := [some c]) (k := 1) (by simp; omega) (Sim.refl _) (by simp)
  refine ⟨m2, _, ?_, g2, e3.trans (fun b hb => h.lt hf hb) g3⟩
  unfold appendChar
  rw [e1]
  simp only [Option.bind_eq_bind, Option.bind_some, g1]

theorem cstr_does {m : Mem} {r : Rep} {v : Bytes} (hf : Fresh m) (h : Holds m r v) (hn : r.len ≤ lim) :
    Does m r (cstr m r) v := by
  obtain ⟨m1, r1, e1, e2, e3, e4, e5⟩ := one_room hf h hn
  obtain ⟨m2, g1, g2, g3⟩ := write_end e3.fresh e2 (l := [some 0]) (v' := []) (k := 0) (by simp; omega) (Sim.refl _) (by simp)
  refine ⟨m2, _, ?_, by simpa using g2, e3.trans (fun b hb => h.lt hf hb) g3⟩
  unfold cstr
  rw [e1]
  simp only [Option.bind_eq_bind, Option.bind_some, g1, Nat.add_zero]

theorem appendFill_does {m : Mem} {r : Rep} {v : Bytes} (hf : Fresh m) (h : Holds m r v) {n : Nat} (hn : r.len + n ≤ lim)
    (c : Byte) : Does m r (appendFill m r c n) (v ++ List.replicate n (some c)) := by
  obtain ⟨m1, r1, e1, e2, e3, e4, e5⟩ := extend_room hf h (a := n) (b := 0) hn
  obtain ⟨m2, g1, g2, g3⟩ := write_end e3.fresh e2 (l := List.replicate n (some c)) (v' := List.replicate n (some c)) (k := n)
    (by simp; omega) (by rw [List.take_of_length_le (by simp)]; exact Sim.refl _) (by simp)
  refine ⟨m2, _, ?_, g2, e3.trans (fun b hb => h.lt hf hb) g3⟩
  unfold appendFill
  rw [e1]
  rw [e4] at g1
  simp only [Option.bind_eq_bind, Option.bind_some, g1]

/-- Reserving and writing `out` and a NUL. -/
theorem text_does {m : Mem} {r : Rep} {v : Bytes} (hf : Fresh m) (h : Holds m r v) {n : Nat} (hn : r.len + n ≤ lim)
    {out : List Byte} (ho : out.length < n) : Does m r (appendNum m r n out) (v ++ out.map some) := by
  obtain ⟨m1, r1, e1, e2, e3, e4, e5⟩ := reserve_room hf h hn
  obtain ⟨m2, g1, g2, g3⟩ := write_end e3.fresh e2 (l := (out ++ [0]).map some) (v' := out.map some) (k := out.length)
    (by simp; omega) (by rw [List.map_append, List.take_left' (by simp)]; exact Sim.refl _) (by simp)
  refine ⟨m2, _, ?_, g2, e3.trans (fun b hb => h.lt hf hb) g3⟩
  unfold appendNum
  rw [e1]
  simp only [Option.bind_eq_bind, Option.bind_some, g1, adjust]
  rw [if_pos (by omega)]
  rfl

theorem vsnprintf_does {m : Mem} {r : Rep} {v : Bytes} (hf : Fresh m) (h : Holds m r v) {n : Nat} (hn : r.len + (n + 1) ≤ lim)
    {out : List Byte} (ho : out.length ≤ n) : Does m r (vsnprintf m r n out) (v ++ out.map some) := by
  have : vsnprintf m r n out = appendNum m r (n + 1) out := by
    unfold vsnprintf appendNum
    rw [List.take_of_length_le ho]
  rw [this]
  exact text_does hf h hn (by omega)

theorem resize_does {m : Mem} {r : Rep} {v : Bytes} (hf : Fresh m) (h : Holds m r v) {n : Nat} (hn : n ≤ lim) :
    Does m r (resize m r n) (v.take n ++ List.replicate (n - v.length) none) := by
  have key : ∀ m' r', Holds m' r' v → r'.len = r.len → n ≤ r'.cap →
      Holds m' { r' with len := n } (v.take n ++ List.replicate (n - v.length) none) := by
    intro m' r' hh hl hc
    have h1 := hh.1
    by_cases hk : n ≤ r'.len
    · have : n - v.length = 0 := by omega
      rw [this, List.replicate_zero, List.append_nil]
      exact hh.less hk
    · rw [List.take_of_length_le (by omega)]
      have := hh.more (k := n - v.length) (by omega)
      rwa [h1, Nat.add_sub_cancel' (by omega)] at this
  unfold resize
  by_cases h1 : n > r.cap
  · rw [if_pos h1]
    obtain ⟨m1, r1, e1, e2, e3, e4, e5, _⟩ := grow_spec hf h hn
    rw [e1]
    exact ⟨m1, _, rfl, key _ _ e2 e4 e5, e3.blk rfl rfl⟩
  · rw [if_neg h1]
    exact ⟨m, _, rfl, key _ _ h rfl (by omega), Upd.refl hf rfl⟩

theorem popBack_does {m : Mem} {r : Rep} {v : Bytes} (hf : Fresh m) (h : Holds m r v) {n : Nat} (hn : n ≤ v.length) :
    Does m r ((popBack r n).map fun r => (m, r)) (v.take (v.length - n)) := by
  have h1 := h.1
  unfold popBack
  rw [if_pos (by omega)]
  refine ⟨m, _, rfl, ?_, Upd.refl hf rfl⟩
  rw [← h1]
  exact h.less (by omega)

theorem clear_does {m : Mem} {r : Rep} {v : Bytes} (hf : Fresh m) (h : Holds m r v) : Does m r (some (m, clear r)) [] :=
  ⟨m, _, rfl, by simpa [clear] using h.less (k := 0) (by omega), Upd.refl hf rfl⟩

theorem newCap_does {m : Mem} (hf : Fresh m) {n : Nat} (hn : n ≤ lim) : Does m Rep.empty (grow m Rep.empty n) [] := by
  obtain ⟨m1, r1, e1, e2, e3, _⟩ := grow_spec hf (Holds.empty m) hn
  exact ⟨m1, r1, e1, e2, e3⟩

theorem destroy_does {m : Mem} {r : Rep} {v : Bytes} (hf : Fresh m) (h : Holds m r v) :
    ∃ m', destroy m r = some m' ∧ Upd m r m' Rep.empty := by
  have hlt := fun b hb => h.lt hf (b := b) hb
  unfold destroy
  rcases h.2.2 with ⟨h1, h2⟩ | ⟨b, B, h3, h4, h5, h6, h7⟩
  · rw [if_neg (by omega)]
    exact ⟨m, rfl, Upd.refl hf h1.symm⟩
  · rw [if_pos h6]
    simp only [free, h3, h4]
    refine ⟨_, rfl, fun b' hb' => ?_, Nat.le_refl _, fun b' hb' hn => ?_, fun b' hb' => by simp [Rep.empty] at hb', fun b' hb' _ => ?_,
      fun b' hb' hs => ?_⟩
    · simp only [] at hb'
      simp only [Function.update_apply]
      rw [hf b' hb']; simp
    · simp only [Function.update_apply]
      rw [if_neg (by rintro rfl; exact hn h3)]
    · rw [h3] at hb'; cases hb'
      simp
    · simp only [Function.update_apply] at hs
      rw [hf b' hb'] at hs
      simp at hs

/-- The bytes given to `append` are `u`: they are outside all blocks, or part of this accumulator's text, or part of another's. -/
def SrcOk (m : Mem) (r : Rep) (v : Bytes) (s : Src) (u : Bytes) : Prop :=
  match s with
  | .ext l => u = l.map some
  | .at b off n => ∃ x vx, Holds m x vx ∧ x.blk = b ∧ off + n ≤ x.len ∧ u = (vx.drop off).take n ∧
      ((x = r ∧ vx = v) ∨ ∀ b, x.blk = some b → r.blk ≠ some b)

theorem SrcOk.len {m : Mem} {r : Rep} {v : Bytes} {s : Src} {u : Bytes} (h : SrcOk m r v s u) : u.length = s.len := by
  cases s with
  | ext l => simp only [SrcOk] at h; simp [h, Src.len]
  | «at» b off n =>
    obtain ⟨x, vx, h1, h2, h3, h4, _⟩ := h
    have := h1.1
    simp only [h4, Src.len, List.length_take, List.length_drop]
    omega

theorem SrcOk.get {m : Mem} {r : Rep} {v : Bytes} {s : Src} {u : Bytes} (h : SrcOk m r v s u) : ∃ l, s.get m = some l ∧ Sim u l := by
  cases s with
  | ext l => exact ⟨_, rfl, by simp only [SrcOk] at h; rw [h]; exact Sim.refl _⟩
  | «at» b off n =>
    obtain ⟨x, vx, h1, rfl, h3, rfl, _⟩ := h
    exact h1.read h3

theorem append_does {m : Mem} {r : Rep} {v : Bytes} (hf : Fresh m) (h : Holds m r v) {s : Src} {u : Bytes} (hs : SrcOk m r v s u)
    (hn : r.len + s.len ≤ lim) : Does m r (append m r s) (v ++ u) := by
  have hlt := fun b hb => h.lt hf (b := b) hb
  unfold append
  rw [if_neg (by unfold lim at hn; unfold intMax; omega)]
  by_cases h1 : r.len + s.len ≤ r.cap
  · rw [if_pos h1]
    have ho : s.overlaps r = false := by
      cases s with
      | ext l => rfl
      | «at» b off n =>
        obtain ⟨x, vx, g1, g2, g3, g4, g5⟩ := hs
        rcases g5 with ⟨rfl, rfl⟩ | g5
        · simp only [Src.overlaps]
          have : ¬ x.len < off + n := by omega
          simp [this]
        · simp only [Src.overlaps]
          cases b with
          | none => simp
          | some b => simp [Ne.symm (g5 b g2)]
    rw [ho, if_neg (by simp)]
    obtain ⟨l, e1, e2⟩ := hs.get
    have hl : l.length = s.len := by rw [← e2.len, hs.len]
    obtain ⟨m2, g1, g2, g3⟩ := write_end hf h (l := l) (v' := u) (k := s.len) (by omega)
      (by rw [List.take_of_length_le (by omega)]; exact e2) (by omega)
    refine ⟨m2, _, ?_, g2, g3⟩
    simp only [Option.bind_eq_bind, Option.bind_some, e1, g1]
  rw [if_neg h1]
  by_cases h2 : s.own r = true
  · rw [if_pos h2]
    have hx : ∃ off n, s = .at r.blk off n ∧ off + n ≤ r.len ∧ u = (v.drop off).take n := by
      cases s with
      | ext l => simp [Src.own] at h2
      | «at» b off n =>
        simp only [Src.own, Bool.and_eq_true, beq_iff_eq] at h2
        obtain ⟨⟨h2, rfl⟩, _⟩ := h2
        obtain ⟨x, vx, g1, g2, g3, g4, g5⟩ := hs
        rcases g5 with ⟨rfl, rfl⟩ | g5
        · exact ⟨off, n, rfl, g3, g4⟩
        · obtain ⟨b, hb⟩ := Option.isSome_iff_exists.1 h2
          exact absurd hb (g5 b (g2.trans hb))
    obtain ⟨off, n, rfl, hx, rfl⟩ := hx
    simp only [Src.len] at hn h1 ⊢
    obtain ⟨b, hb⟩ : ∃ b, r.blk = some b := by
      simp only [Src.own, Bool.and_eq_true] at h2
      exact Option.isSome_iff_exists.1 h2.1.1
    have hbl := hlt b hb
    -- the new block
    obtain ⟨m1, r1, e1, e2, e3, e4, e5⟩ := extend_room hf (Holds.empty m) (a := r.len + n) (b := 0) (by simpa [Rep.empty] using hn)
    have e4 : r1.len = 0 := e4
    have e5 : r.len + n ≤ r1.cap := by simpa [Rep.empty] using e5
    have hr1 : ∀ b', r1.blk = some b' → m.next ≤ b' := fun b' hb' => by
      rcases e3.mine b' hb' with h' | h'
      · simp [Rep.empty] at h'
      · exact h'
    have f1 : ∀ b', b' < m.next → m1.heap b' = m.heap b' := fun b' hb' => e3.frame b' hb' (by simp [Rep.empty])
    have hm1 : Holds m1 r v := h.frame fun b' hb' => f1 b' (hlt b' hb')
    obtain ⟨old, o1, o2⟩ := hm1.read (off := 0) (n := r.len) (by omega)
    rw [List.drop_zero, List.take_of_length_le (by have := h.1; omega)] at o2
    have ol : old.length = r.len := by rw [← o2.len, h.1]
    obtain ⟨m2, g1, g2, g3⟩ := write_end e3.fresh e2 (l := old) (v' := v) (k := r.len) (by omega)
      (by rw [List.take_of_length_le (by omega)]; exact o2) (by omega)
    rw [e4] at g1
    simp only [e4, Nat.zero_add, List.nil_append] at g2 g3
    have f2 : ∀ b', b' < m.next → m2.heap b' = m1.heap b' := fun b' hb' =>
      g3.frame b' (by have := e3.next; omega) (fun hc => by have := hr1 b' hc; omega)
    have hm2 : Holds m2 r v := hm1.frame fun b' hb' => f2 b' (hlt b' hb')
    obtain ⟨l, l1, l2⟩ := hm2.read hx
    have ll : l.length = n := by rw [← l2.len, List.length_take, List.length_drop, ← h.1]; omega
    obtain ⟨m3, k1, k2, k3⟩ := write_end g3.fresh g2 (l := l) (v' := (v.drop off).take n) (k := n) (by simp only []; omega)
      (by rw [show l.take n = l from List.take_of_length_le (by omega)]; exact l2) (by omega)
    simp only [] at k1 k2 k3
    have f3 : ∀ b', b' < m.next → m3.heap b' = m2.heap b' := fun b' hb' =>
      k3.frame b' (by have := e3.next; have := g3.next; omega) (fun hc => by have := hr1 b' hc; omega)
    have hm3 : Holds m3 r v := hm2.frame fun b' hb' => f3 b' (hlt b' hb')
    obtain ⟨m4, d1, d2⟩ := destroy_does k3.fresh hm3
    have hcap : r.cap > 0 := by
      rcases hm3.2.2 with h' | ⟨_, _, _, _, _, h', _⟩
      · rw [h'.1] at hb; simp at hb
      · exact h'
    have d1 : free m3 r.blk = some m4 := by
      unfold destroy at d1
      rwa [if_pos hcap] at d1
    have big : Upd m Rep.empty m3 { r1 with len := r.len + n } :=
      (e3.trans (fun b' hb' => by simp [Rep.empty] at hb') g3).trans (fun b' hb' => by simp [Rep.empty] at hb') k3
    have f4 : ∀ b', m.next ≤ b' → m4.heap b' = m3.heap b' := by
      intro b' hb'
      by_cases hc : b' < m3.next
      · exact d2.frame b' hc (fun he => by have := hlt b' he; omega)
      · rw [k3.fresh b' (by omega)]
        cases he : m4.heap b' with
        | none => rfl
        | some B =>
          have := d2.leak b' (by omega) (by rw [he]; rfl)
          simp [Rep.empty] at this
    refine ⟨m4, { r1 with len := r.len + n }, ?_, ?_, ?_⟩
    · rw [e1]
      simp only [Option.bind_eq_bind, Option.bind_some, o1, g1, Src.get, l1, k1, d1, e4, Nat.zero_add]
    · exact k2.frame fun b' hb' => f4 b' (hr1 b' hb')
    · refine ⟨d2.fresh, ?_, ?_, ?_, ?_, ?_⟩
      · exact Nat.le_trans big.next d2.next
      · intro b' hb' hne
        rw [d2.frame b' (by have := big.next; omega) hne, f3 b' hb', f2 b' hb', f1 b' hb']
      · intro b' hb'
        exact .inr (hr1 b' hb')
      · intro b' hb' _
        exact d2.freed b' hb' (by simp [Rep.empty])
      · intro b' hb' hsome
        rw [f4 b' hb'] at hsome
        exact big.leak b' hb' hsome
  · rw [if_neg h2]
    obtain ⟨m1, r1, e1, e2, e3, e4, e5, _⟩ := grow_spec hf h hn
    have hs1 : ∃ l, s.get m1 = some l ∧ Sim u l := by
      cases s with
      | ext l => exact hs.get
      | «at» b off n =>
        obtain ⟨x, vx, g1, g2, g3, g4, g5⟩ := hs
        rcases g5 with ⟨rfl, rfl⟩ | g5
        · exfalso
          simp only [Src.len] at h1
          have hxl := g1.2.1
          cases b with
          | none =>
            rcases g1.2.2 with h' | ⟨b, _, h', _⟩
            · omega
            · rw [g2] at h'; simp at h'
          | some b =>
            apply h2
            simp only [Src.own, g2]
            simp
            omega
        · have : Holds m1 x vx := g1.frame fun b' hb' => e3.frame b' (g1.lt hf hb') (g5 b' hb')
          rw [g4, Src.get, ← g2]
          exact this.read g3
    obtain ⟨l, l1, l2⟩ := hs1
    have hl : l.length = s.len := by rw [← l2.len, hs.len]
    obtain ⟨m2, g1, g2, g3⟩ := write_end e3.fresh e2 (l := l) (v' := u) (k := s.len) (by omega)
      (by rw [List.take_of_length_le (by omega)]; exact l2) (by omega)
    refine ⟨m2, _, ?_, g2, e3.trans hlt g3⟩
    rw [e1]
    simp only [Option.bind_eq_bind, Option.bind_some, l1, g1]

end Verif.Accum
