import Verif.Pool.Steps
import Mathlib.Logic.Function.Iterate

/-!
# C49: the memory pools of threads hand out blocks that do not overlap, and lose none
-/
namespace Verif.Props.C49

open Verif.Pool

/-- States of runs that begin without blocks. -/
def Reachable (s : State) : Prop := ∃ s0 l, Init s0 ∧ Run s0 l s

theorem Reachable.inv {s : State} (h : Reachable s) : ∃ L, Inv s L := by
  obtain ⟨s0, l, h0, hr⟩ := h
  exact run_inv (init_inv h0) hr

/-- Two blocks in use, of `sz` and `sz'` bytes, have no byte in common, whichever threads got them. -/
theorem disjoint {s : State} (h : Reachable s) {p q sz sz' : Nat} (hp : s.live p = some sz) (hq : s.live q = some sz')
    (hpq : p ≠ q) (x : Nat) : ¬ ((p ≤ x ∧ x < p + sz) ∧ (q ≤ x ∧ x < q + sz')) := by
  obtain ⟨L, hL⟩ := h.inv
  have h1 := hL.disj p _ q _ (Or.inr ⟨sz, hp, rfl⟩) (Or.inr ⟨sz', hq, rfl⟩) hpq
  have h2 := lines_le sz
  have h3 := lines_le sz'
  omega

/-- A thread gets a block that is not in use, is not null, is within the memory got from the system, and has no byte in common
with any block in use.  With pools it begins at a cache line.  No other block is affected. -/
theorem allocate {s s' : State} (h : Reachable s) {t sz p : Nat} (hs : Step s (.alloc t sz p) s') :
    s.live p = none ∧ p ≠ 0 ∧ s'.live p = some sz ∧ (∀ q, q ≠ p → s'.live q = s.live q) ∧
    (∀ x, p ≤ x → x < p + sz → s'.owned x ∧ ∀ q sz', s.live q = some sz' → ¬ (q ≤ x ∧ x < q + sz')) ∧
    (s.pools = true → 64 ∣ p) := by
  obtain ⟨L, hL⟩ := h.inv
  obtain ⟨L', hL'⟩ := step_inv hL hs
  obtain ⟨h1, h2, h3, h4, -, h5⟩ := alloc_effect hL hs
  have hp : s'.live p = some sz := by rw [h2, Function.update_self]
  have hb : Blk s' L' p (lines sz) := Or.inr ⟨sz, hp, rfl⟩
  refine ⟨h1, by have := hL'.pos p _ hb; omega, hp, fun q hq => by rw [h2, Function.update_of_ne hq], ?_, ?_⟩
  · intro x hx hx'
    have := lines_le sz
    refine ⟨hL'.own p _ hb x hx (by omega), fun q sz' hq hc => ?_⟩
    have hqp : q ≠ p := by rintro rfl; rw [h1] at hq; cases hq
    have := lines_le sz'
    have := hL'.disj q (lines sz') p _ (Or.inr ⟨sz', by rw [h2, Function.update_of_ne hqp]; exact hq, rfl⟩) hb hqp
    omega
  · intro hu
    exact hL'.align (h5.trans hu) p _ hb

/-- The bytes of a block in use change only when someone writes to them: not when other blocks are handed out, freed or written
to, and not when pools are filled. -/
theorem contents {s s' : State} (h : Reachable s) {e : Ev} (hs : Step s e s') {q sz : Nat} (hq : s.live q = some sz)
    (hf : ∀ t, e ≠ .free t q) {x : Nat} (hx : q ≤ x) (hx' : x < q + sz) (hw : ∀ v, e ≠ .write x v) :
    s'.live q = some sz ∧ s'.mem x = s.mem x := by
  obtain ⟨L, hL⟩ := h.inv
  have hle := lines_le sz
  cases e with
  | alloc t sz' p =>
    obtain ⟨h1, h2, -, -, h3, -⟩ := alloc_effect hL hs
    have hqp : q ≠ p := by rintro rfl; rw [h1] at hq; cases hq
    exact ⟨by rw [h2, Function.update_of_ne hqp]; exact hq, h3 q sz hq x hx (by omega)⟩
  | free t p =>
    obtain ⟨h1, h2, h3, -⟩ := free_effect hs
    have hqp : q ≠ p := by rintro rfl; exact hf t rfl
    refine ⟨by rw [h2, Function.update_of_ne hqp]; exact hq, h3 x ?_⟩
    rintro rfl
    cases hx2 : s.live x with
    | none => exact h1 hx2
    | some sz2 =>
      have hb : Blk s L x (lines sz2) := Or.inr ⟨sz2, hx2, rfl⟩
      have := hL.disj q _ x (lines sz2) (Or.inr ⟨sz, hq, rfl⟩) hb hqp
      have hpos : 0 < lines sz2 * line := Nat.mul_pos (hL.pos x _ hb).1 (by decide)
      omega
  | write a v =>
    cases hs with
    | write p sz2 a v hl ha hb =>
      refine ⟨hq, Function.update_of_ne ?_ ..⟩
      rintro rfl; exact hw v rfl

/-- A block is in the free list of one thread only, once, and is not in use. -/
theorem one_list {s : State} (h : Reachable s) {t n t' n' p : Nat} (h1 : Reach s.mem (s.pool t n) p)
    (h2 : Reach s.mem (s.pool t' n') p) : t = t' ∧ n = n' ∧ s.live p = none ∧ ¬ Reach s.mem (s.mem p) p := by
  obtain ⟨L, hL⟩ := h.inv
  have h3 := ((hL.chain t n).reach p).1 h1
  have h4 := ((hL.chain t' n').reach p).1 h2
  obtain ⟨ht, hn⟩ := hL.one p t n t' n' h3 h4
  refine ⟨ht, hn, hL.free p t n h3, ?_⟩
  have key : ∀ (l : List Nat) (h : Nat), Chain s.mem h l → l.Nodup → p ∈ l → ¬ Reach s.mem (s.mem p) p := by
    intro l
    induction l with
    | nil => intro h _ _ hp; cases hp
    | cons q l ih =>
      rintro h ⟨rfl, h0, hc⟩ hnd hp
      rw [List.nodup_cons] at hnd
      rcases List.mem_cons.1 hp with rfl | hp
      · rw [hc.reach]; exact hnd.1
      · exact ih _ hc hnd.2 hp
  exact key _ _ (hL.chain t n) (hL.nodup t n) h3

/-- With pools no step loses a block: what is free or in use stays free or in use, with as many lines. -/
theorem no_leak {s s' : State} (h : Reachable s) {e : Ev} (hs : Step s e s') (hu : s.pools = true) {p n : Nat}
    (hp : Free s n p ∨ ∃ sz, s.live p = some sz ∧ lines sz = n) : Free s' n p ∨ ∃ sz, s'.live p = some sz ∧ lines sz = n := by
  obtain ⟨L, hL⟩ := h.inv
  rw [← hL.blk] at hp
  cases hs with
  | alloc t sz h0 hm h1 =>
    obtain ⟨l, hl⟩ := hL.nonempty h1
    exact ((inv_pop hL hl).blk p n).1 ((pop_blk hl rfl hL p n).2 hp)
  | allocRefill t sz a size hu h0 hm h1 hf h2 =>
    have h3 := inv_refill hL h1 (lines_pos h0) hf (Nat.le_trans (Nat.mul_le_mul_right _ hm) h2)
    obtain ⟨l, hl⟩ := h3.nonempty (t := t) (n := lines sz) (by
      show (if t = t ∧ lines sz = lines sz then a else _) ≠ 0
      rw [if_pos ⟨rfl, rfl⟩]; have := hf.pos; omega)
    refine ((inv_pop h3 hl).blk p n).1 ((pop_blk hl rfl h3 p n).2 ?_)
    refine hp.imp (fun ⟨t', ht⟩ => ⟨t', ?_⟩) id
    rw [setL_ne]
    · exact ht
    · rintro ⟨rfl, rfl⟩
      rw [hL.empty h1] at ht; cases ht
  | allocOne t sz a hu' => rw [hu] at hu'; cases hu'
  | free t q sz sz' hu hl hs =>
    rw [hs]
    obtain ⟨h1, h2⟩ := inv_push (t := t) hL hl
    exact (h1.blk p n).1 ((h2 p n).2 hp)
  | freeOne t q sz hu' => rw [hu] at hu'; cases hu'
  | freeRcu t q sz sz' tag hl hs hm ht =>
    rw [tag_lines ht hm, hs]
    obtain ⟨h1, h2⟩ := inv_push (t := t) hL hl
    exact (h1.blk p n).1 ((h2 p n).2 hp)
  | write q sz a v hl ha hb => exact ((inv_write hL hl ha hb).blk p n).1 hp

/-- A new area is cut into as many blocks as it has room for: they are the free blocks of the list that was empty. -/
theorem refill_all {s : State} {t n a size : Nat} (hn : 0 < n) (ha : 0 < a) (hs : n * 64 ≤ size) (p : Nat) :
    Reach (s.refill t n a size).mem ((s.refill t n a size).pool t n) p ↔ ∃ k, p = a + k * (n * 64) ∧ (k + 1) * (n * 64) ≤ size := by
  have hline : 0 < n * line := Nat.mul_pos hn (by decide)
  have h1 := (initPool_spec s.mem hline ha hs).2.reach p
  have h2 : (s.refill t n a size).pool t n = a := by
    show (if t = t ∧ n = n then a else _) = a
    exact if_pos ⟨rfl, rfl⟩
  rw [h2]
  refine h1.trans ((mem_cut hline 0).trans ?_)
  simp only [Nat.zero_add, Nat.succ_mul]
  exact Iff.rfl

/-- A freed block is the next that the thread that freed it gets for as many lines. -/
theorem free_then_alloc {s s1 s2 : State} {t p sz q : Nat} {sz0 : Nat} (hl : s.live p = some sz0) (hu : s.pools = true)
    (hf : Step s (.free t p) s1) (hs : lines sz = lines sz0) (h0 : p ≠ 0) (ha : Step s1 (.alloc t sz q) s2) : q = p := by
  have hp : s1.pool t (lines sz) = p := by
    cases hf with
    | free t p sz1 sz' _ hl' hs' =>
      rw [hl] at hl'; cases hl'
      rw [hs, hs']; exact if_pos ⟨rfl, rfl⟩
    | freeOne t p sz1 hu' => rw [hu] at hu'; cases hu'
    | freeRcu t p sz1 sz' tag hl' hs' hm ht =>
      rw [hl] at hl'; cases hl'
      rw [tag_lines ht hm, hs, hs']; exact if_pos ⟨rfl, rfl⟩
  cases ha with
  | alloc t sz _ _ _ => exact hp
  | allocRefill t sz a size _ _ _ h1 _ _ => exact absurd (hp.symm.trans h1) h0
  | allocOne t sz a _ _ _ h1 _ _ => exact absurd (hp.symm.trans h1) h0

/-- If a block could be freed twice, the thread would then get it twice. -/
theorem double_free (s : State) (t p sz : Nat) :
    let s2 := (s.push t (lines sz) p).push t (lines sz) p
    s2.pool t (lines sz) = p ∧ (s2.pop t sz).pool t (lines sz) = p := by
  simp [State.push, State.pop, State.setPool]

/-- Tags of leaves and internodes with numbers of lines are neither those of callbacks (-1) nor of blocks that are not of pools,
and give back the number. -/
theorem tags {tag n : Nat} (ht : tag = tagLeaf ∨ tag = tagInternode) (h0 : 0 < n) (hn : n ≤ maxLines) :
    tag + n &&& poolMask = n ∧ tag + n &&& poolMask ≠ 0 ∧ tag + n ≠ 2 ^ 32 - 1 := by
  have h1 : tag &&& poolMask = 0 := by rcases ht with rfl | rfl <;> decide
  rw [tag_lines h1 hn]
  refine ⟨rfl, by omega, ?_⟩
  unfold maxLines at hn
  rcases ht with rfl | rfl
  · unfold tagLeaf; omega
  · unfold tagInternode; omega

/-- A leaf is freed with the size that it was made with, whether its own bag of suffixes is in use or has been replaced, any
number of times.  The size is enough for the leaf and its suffixes, is of at most 19 lines if leaves without suffixes have at
most 17, and the difference fits into 8 bits. -/
theorem leaf_size (S k j : Nat) :
    leafAlloc S (leafDead^[j] (leafExtra S (leafSize S k))) = leafSize S k ∧
    S + min k 128 ≤ leafSize S k ∧ leafSize S k % 64 = 0 ∧
    (lines S ≤ 17 → lines (leafSize S k) ≤ 19) ∧
    -128 ≤ leafDead (leafExtra S (leafSize S k)) ∧ leafExtra S (leafSize S k) ≤ 127 := by
  have hc : ∀ x, ceil64 x = (x + 63) / 64 * 64 := by
    intro x; unfold ceil64; split <;> omega
  have hs : leafSize S k = (S + min k 128 + 63) / 64 * 64 := hc _
  have he : leafExtra S (leafSize S k) = (((S + min k 128 + 63) / 64 : Nat) : Int) - ((S + 63) / 64 : Nat) := by
    unfold leafExtra; rw [hs]; omega
  have hm : min k 128 ≤ 128 := Nat.min_le_right _ _
  generalize min k 128 = m at *
  have he0 : 0 ≤ leafExtra S (leafSize S k) ∧ leafExtra S (leafSize S k) ≤ 2 := by rw [he]; omega
  have hd : ∀ j, leafDead^[j] (leafExtra S (leafSize S k)) = leafExtra S (leafSize S k) ∨
      leafDead^[j] (leafExtra S (leafSize S k)) = -leafExtra S (leafSize S k) - 1 := by
    intro j
    induction j with
    | zero => exact Or.inl rfl
    | succ j ih =>
      rw [Function.iterate_succ_apply']
      unfold leafDead
      rcases ih with h1 | h1 <;> unfold leafDead at h1 <;> rw [h1] <;> right <;> split <;> omega
  have ha : leafAlloc S (leafExtra S (leafSize S k)) = leafSize S k := by
    unfold leafAlloc; rw [if_pos he0.1, he, hs]; omega
  refine ⟨?_, by rw [hs]; omega, by rw [hs]; omega, ?_, ?_, by omega⟩
  · rcases hd j with h1 | h1
    · rw [h1]; exact ha
    · rw [h1, ← ha]
      unfold leafAlloc
      rw [if_neg (by omega), if_pos he0.1]
      congr 3; omega
  · intro hl
    rw [hs]; unfold lines line at hl ⊢; omega
  · rcases hd 1 with h1 | h1 <;> rw [Function.iterate_one] at h1 <;> omega

/-! ## Examples -/

/-- Thread 0 gets 640 bytes from a new area of 1280 at 4096, then the other half; thread 1 frees the first and gets it again. -/
def s0 : State := ⟨true, fun _ => 7, fun _ _ => 0, fun _ => False, fun _ => none⟩
def s1 : State := (s0.refill 0 10 4096 1280).pop 0 640
def s2 : State := s1.pop 0 600
def s3 : State := s2.push 1 (lines 639) 4096
def s4 : State := s3.pop 1 640

theorem pool1 : s1.pool 0 10 = 4736 := by
  simp [s1, s0, State.pop, State.refill, State.setPool, lines, line, initPool, initLoop]

theorem run4 : Run s0 [.alloc 0 640 4096, .alloc 0 600 4736, .free 1 4096, .alloc 1 640 4096] s4 := by
  refine .cons (s1 := s1) (.allocRefill 0 640 4096 1280 rfl (by decide) (by decide) rfl ⟨by decide, by decide, fun _ _ _ h => h⟩
    (by decide)) ?_
  have h1 := Step.alloc (s := s1) 0 600 (by decide) (by decide) (by rw [show lines 600 = 10 from rfl, pool1]; decide)
  rw [show lines 600 = 10 from rfl, pool1] at h1
  refine .cons (s1 := s2) h1 ?_
  have hp : s1.pool 0 (lines 600) = 4736 := pool1
  have hl : s2.live 4096 = some 640 := by
    show Function.update s1.live (s1.pool 0 (lines 600)) (some 600) 4096 = _
    rw [hp]; rfl
  refine .cons (s1 := s3) (.free 1 4096 640 639 rfl hl rfl) ?_
  exact .cons (s1 := s4) (.alloc 1 640 (by decide) (by decide) (by decide)) .nil

/-- Both blocks are in use at the end. -/
theorem live4 : s4.live 4096 = some 640 ∧ s4.live 4736 = some 600 := by
  have hp : s1.pool 0 (lines 600) = 4736 := pool1
  refine ⟨rfl, ?_⟩
  show Function.update (Function.update (Function.update s1.live (s1.pool 0 (lines 600)) (some 600)) 4096 none) 4096 (some 640) 4736 = _
  rw [hp]; rfl

theorem reach4 : Reachable s4 := ⟨s0, _, ⟨fun _ _ => rfl, fun _ h => h, fun _ => rfl⟩, run4⟩

example : ¬ ((4096 ≤ 4700 ∧ 4700 < 4096 + 640) ∧ (4736 ≤ 4700 ∧ 4700 < 4736 + 600)) :=
  disjoint reach4 live4.1 live4.2 (by decide) 4700

/-- The next step frees the block at 4096 by way of limbo; the other block is not affected, and the freed one is not lost. -/
def s5 : State := s4.push 0 (tagLeaf + lines 640 &&& poolMask) 4096

theorem step5 : Step s4 (.free 0 4096) s5 := .freeRcu 0 4096 640 640 tagLeaf live4.1 rfl (by decide) rfl

example : s5.live 4736 = some 600 ∧ s5.mem 4800 = s4.mem 4800 :=
  contents reach4 step5 live4.2 (by intro t h; injection h with _ h; revert h; decide) (by decide) (by decide) (by intro v h; cases h)

example : Free s5 10 4096 ∨ ∃ sz, s5.live 4096 = some sz ∧ lines sz = 10 :=
  no_leak reach4 step5 rfl (Or.inr ⟨640, live4.1, rfl⟩)

example : Step s5 (.alloc 0 640 4096) (s5.pop 0 640) ∧ s4.live 4096 ≠ none :=
  ⟨.alloc 0 640 (by decide) (by decide) (by decide), by rw [live4.1]; exact Option.some_ne_none _⟩

/-- A leaf of 316 bytes with room for 100 bytes of suffixes has 7 lines. -/
example : leafSize 316 100 = 448 ∧ leafExtra 316 448 = 2 ∧ leafDead 2 = -3 ∧ leafAlloc 316 (-3) = 448 ∧ lines 316 ≤ 17 := by decide

end Verif.Props.C49
