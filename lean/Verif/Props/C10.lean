import Verif.NodeVersion.Lemmas
import Verif.NodeVersion.Concurrent
/-
C10: node locks are mutually exclusive and version words stay well formed.
-/
set_option linter.unusedSimpArgs false

namespace Verif.Props.C10
open Verif.NodeVersion

/-- The guard bit that separates the change counter from the flags is clear. -/
def WF (v : Ver) : Prop := bit v 28 = false

instance (v : Ver) : Decidable (WF v) := inferInstanceAs (Decidable (bit v 28 = false))

/-- A stable version: what `stable()` can return. -/
structure Quiet (v : Ver) : Prop where
  wf : WF v
  notLocked : locked v = false
  notDirty : isDirty v = false

theorem Quiet.b0 {v} (h : Quiet v) : bit v 0 = false := by rw [← locked_eq]; exact h.notLocked
theorem Quiet.b1 {v} (h : Quiet v) : bit v 1 = false := by
  have := h.notDirty; rw [isDirty_eq, Bool.or_eq_false_iff] at this; exact this.1
theorem Quiet.b2 {v} (h : Quiet v) : bit v 2 = false := by
  have := h.notDirty; rw [isDirty_eq, Bool.or_eq_false_iff] at this; exact this.2

theorem quiet_of {v} (h28 : bit v 28 = false) (h0 : bit v 0 = false) (h1 : bit v 1 = false)
    (h2 : bit v 2 = false) : Quiet v :=
  ⟨h28, by rw [locked_eq, h0], by rw [isDirty_eq, h1, h2]; rfl⟩

/-- What the lock holder did to the node between locking and unlocking. -/
abbrev Session := List Mark

def midSession (ms : Session) (v : Ver) : Ver := ms.foldl (fun w m => m.apply w) (lockWord v)
def session (ms : Session) (v : Ver) : Ver := unlockWord (midSession ms v)

/-- The session announced a structural change to readers. -/
def Session.changes (ms : Session) : Bool :=
  ms.any fun m => m = .insert || m = .split || m = .deleted
/-- The session announced a split or deletion. -/
def Session.splits (ms : Session) : Bool := ms.any fun m => m = .split || m = .deleted

/-! Effect of the marks on the fields. -/

theorem lockWord_bit (v : Ver) (i : Nat) : bit (lockWord v) i = (bit v i || decide (i = 0)) := by
  unfold lockWord
  rw [bit_or]
  congr 1
  unfold bit lockBit
  rw [show (1#32 : BitVec 32) = BitVec.twoPow 32 0 from rfl, BitVec.getLsbD_twoPow]
  by_cases h : i = 0
  · subst h; rfl
  · simp [h]; omega

theorem lockWord_counter (v : Ver) : counter (lockWord v) = counter v := counter_or (by decide) v

theorem mark_bit0 (m : Mark) (v : Ver) :
    bit (m.apply v) 0 = bit v 0 := by
  cases m <;> simp only [Mark.apply, markInsert, markSplit, markDeleted, markDeletedTree, markRoot,
    markNonroot, bit_or, bit_and, show bit insertingBit 0 = false by decide, show bit splittingBit 0 = false by decide, show bit deletedBit 0 = false by decide, show bit rootBit 0 = false by decide, show bit (~~~rootBit) 0 = true by decide,
    Bool.or_false, Bool.or_true, Bool.and_true, reduceCtorEq, decide_true, decide_false,
    or_false, or_true, false_or, or_self]

theorem mark_bit1 (m : Mark) (v : Ver) :
    bit (m.apply v) 1 = (bit v 1 || decide (m = .insert)) := by
  cases m <;> simp only [Mark.apply, markInsert, markSplit, markDeleted, markDeletedTree, markRoot,
    markNonroot, bit_or, bit_and, show bit insertingBit 1 = true by decide, show bit splittingBit 1 = false by decide, show bit deletedBit 1 = false by decide, show bit rootBit 1 = false by decide, show bit (~~~rootBit) 1 = true by decide,
    Bool.or_false, Bool.or_true, Bool.and_true, reduceCtorEq, decide_true, decide_false,
    or_false, or_true, false_or, or_self]

theorem mark_bit2 (m : Mark) (v : Ver) :
    bit (m.apply v) 2 = (bit v 2 || decide (m = .split ∨ m = .deleted)) := by
  cases m <;> simp only [Mark.apply, markInsert, markSplit, markDeleted, markDeletedTree, markRoot,
    markNonroot, bit_or, bit_and, show bit insertingBit 2 = false by decide, show bit splittingBit 2 = true by decide, show bit deletedBit 2 = false by decide, show bit rootBit 2 = false by decide, show bit (~~~rootBit) 2 = true by decide,
    Bool.or_false, Bool.or_true, Bool.and_true, reduceCtorEq, decide_true, decide_false,
    or_false, or_true, false_or, or_self]

theorem mark_bit28 (m : Mark) (v : Ver) :
    bit (m.apply v) 28 = bit v 28 := by
  cases m <;> simp only [Mark.apply, markInsert, markSplit, markDeleted, markDeletedTree, markRoot,
    markNonroot, bit_or, bit_and, show bit insertingBit 28 = false by decide, show bit splittingBit 28 = false by decide, show bit deletedBit 28 = false by decide, show bit rootBit 28 = false by decide, show bit (~~~rootBit) 28 = true by decide,
    Bool.or_false, Bool.or_true, Bool.and_true, reduceCtorEq, decide_true, decide_false,
    or_false, or_true, false_or, or_self]

theorem mark_bit29 (m : Mark) (v : Ver) :
    bit (m.apply v) 29 = (bit v 29 || decide (m = .deleted ∨ m = .deletedTree)) := by
  cases m <;> simp only [Mark.apply, markInsert, markSplit, markDeleted, markDeletedTree, markRoot,
    markNonroot, bit_or, bit_and, show bit insertingBit 29 = false by decide, show bit splittingBit 29 = false by decide, show bit deletedBit 29 = true by decide, show bit rootBit 29 = false by decide, show bit (~~~rootBit) 29 = true by decide,
    Bool.or_false, Bool.or_true, Bool.and_true, reduceCtorEq, decide_true, decide_false,
    or_false, or_true, false_or, or_self]

theorem mark_bit31 (m : Mark) (v : Ver) :
    bit (m.apply v) 31 = bit v 31 := by
  cases m <;> simp only [Mark.apply, markInsert, markSplit, markDeleted, markDeletedTree, markRoot,
    markNonroot, bit_or, bit_and, show bit insertingBit 31 = false by decide, show bit splittingBit 31 = false by decide, show bit deletedBit 31 = false by decide, show bit rootBit 31 = false by decide, show bit (~~~rootBit) 31 = true by decide,
    Bool.or_false, Bool.or_true, Bool.and_true, reduceCtorEq, decide_true, decide_false,
    or_false, or_true, false_or, or_self]

theorem mark_counter (m : Mark) (v : Ver) : counter (m.apply v) = counter v := by
  cases m <;> first
    | exact counter_or (by decide) v
    | exact counter_and_ones (by decide) v

theorem foldl_marks (ms : Session) (w : Ver) :
    let r := ms.foldl (fun w m => m.apply w) w
    bit r 0 = bit w 0 ∧
    bit r 1 = (bit w 1 || ms.any fun m => decide (m = .insert)) ∧
    bit r 2 = (bit w 2 || ms.any fun m => decide (m = .split ∨ m = .deleted)) ∧
    bit r 28 = bit w 28 ∧
    bit r 29 = (bit w 29 || ms.any fun m => decide (m = .deleted ∨ m = .deletedTree)) ∧
    bit r 31 = bit w 31 ∧ counter r = counter w := by
  induction ms generalizing w with
  | nil => simp
  | cons m ms ih =>
    have := ih (m.apply w)
    simp only [List.foldl_cons, List.any_cons] at this ⊢
    obtain ⟨h0, h1, h2, h28, h29, h31, hc⟩ := this
    refine ⟨by rw [h0, mark_bit0], by rw [h1, mark_bit1, Bool.or_assoc],
      by rw [h2, mark_bit2, Bool.or_assoc], by rw [h28, mark_bit28],
      by rw [h29, mark_bit29, Bool.or_assoc], by rw [h31, mark_bit31], by rw [hc, mark_counter]⟩

/-! Effect of unlock. -/

theorem unlock_low (x : Ver) (i : Nat) (hi : i < 3) : bit (unlockWord x) i = false := by
  have key : ∀ i : Fin 3, bit splitUnlockMask i = false ∧ bit unlockMask i = false := by decide
  have := key ⟨i, hi⟩
  unfold unlockWord
  split <;> rw [bit_and]
  · rw [this.1, Bool.and_false]
  · rw [this.2, Bool.and_false]

theorem unlock_28 (x : Ver) : bit (unlockWord x) 28 = false := by
  unfold unlockWord
  split <;> rw [bit_and]
  · rw [show bit splitUnlockMask 28 = false by decide, Bool.and_false]
  · rw [show bit unlockMask 28 = false by decide, Bool.and_false]

theorem insert_inc (x : Ver) :
    ((x &&& insertingBit) <<< 2).toNat = 8 * (if bit x 1 then 1 else 0) := by
  have h := inserting_eq x
  unfold inserting at h
  cases hb : bit x 1
  · rw [hb] at h
    have : x &&& insertingBit = 0#32 := by simpa using h
    rw [this]; decide
  · have : x &&& insertingBit = insertingBit := by
      apply BitVec.eq_of_getLsbD_eq
      intro i _
      rw [BitVec.getLsbD_and]
      unfold insertingBit
      rw [show (2#32 : BitVec 32) = BitVec.twoPow 32 1 from rfl, BitVec.getLsbD_twoPow]
      by_cases h : 1 = i
      · subst h; unfold bit at hb; simp [hb]
      · simp [h]
    rw [this]; decide

theorem unlock_high (x : Ver) (hw : WF x) (i : Nat) (hi : i = 29 ∨ i = 31) :
    bit (unlockWord x) i = bit x i := by
  have h1 : bit splitUnlockMask i = true ∧ bit unlockMask i = true := by
    rcases hi with h | h <;> subst h <;> decide
  unfold unlockWord
  split <;> rw [bit_and]
  · rw [h1.1, Bool.and_true, bit_add_high _ _ hw (by decide) i (by omega) (by omega)]
  · rw [h1.2, Bool.and_true, bit_add_high _ _ hw ?_ i (by omega) (by omega)]
    rw [insert_inc]; split <;> omega

theorem unlock_root (x : Ver) (hw : WF x) :
    bit (unlockWord x) 30 = (bit x 30 && !bit x 2) := by
  unfold unlockWord
  rw [splitting_eq]
  split
  · next h => rw [bit_and, show bit splitUnlockMask 30 = false by decide, h]; simp
  · next h =>
    rw [bit_and, show bit unlockMask 30 = true by decide,
      bit_add_high _ _ hw ?_ 30 (by omega) (by omega)]
    · simp only [Bool.not_eq_true] at h; rw [h]; simp
    · rw [insert_inc]; split <;> omega

theorem unlock_counter (x : Ver) :
    counter (unlockWord x) =
      if bit x 2 then (counter x / 64 + 1) * 64 % 2 ^ 25
      else if bit x 1 then (counter x + 1) % 2 ^ 25 else counter x := by
  unfold unlockWord
  rw [splitting_eq]
  cases h2 : bit x 2
  · simp only [Bool.false_eq_true, if_false]
    rw [counter_and_ones (by decide), counter_add x _ _ (insert_inc x)]
    have := counter_lt x
    split <;> omega
  · simp only [if_true]
    rw [counter_and_high (by decide), counter_add x vsplitLowbit 64 (by decide)]
    have := counter_lt x
    omega

/-! ### Properties of one lock session -/

/-- Releasing the lock always leaves a stable word: unlocked, not dirty, guard bit clear. -/
theorem session_quiet (ms : Session) (v : Ver) : Quiet (session ms v) :=
  quiet_of (unlock_28 _) (unlock_low _ 0 (by omega)) (unlock_low _ 1 (by omega))
    (unlock_low _ 2 (by omega))

theorem mid_facts (ms : Session) {v : Ver} (hq : Quiet v) :
    let x := midSession ms v
    bit x 0 = true ∧ bit x 1 = (ms.any fun m => decide (m = .insert)) ∧
    bit x 2 = ms.splits ∧ bit x 28 = false ∧
    bit x 29 = (bit v 29 || ms.any fun m => decide (m = .deleted ∨ m = .deletedTree)) ∧
    bit x 31 = bit v 31 ∧ counter x = counter v := by
  obtain ⟨h0, h1, h2, h28, h29, h31, hc⟩ := foldl_marks ms (lockWord v)
  refine ⟨?_, ?_, ?_, ?_, ?_, ?_, ?_⟩
  · show bit (ms.foldl _ _) 0 = true
    rw [h0, lockWord_bit]; simp
  · show bit (ms.foldl _ _) 1 = _
    rw [h1, lockWord_bit, hq.b1]; simp
  · show bit (ms.foldl _ _) 2 = _
    rw [h2, lockWord_bit, hq.b2]
    simp [Session.splits]
  · show bit (ms.foldl _ _) 28 = _
    rw [h28, lockWord_bit, show bit v 28 = false from hq.wf]; simp
  · show bit (ms.foldl _ _) 29 = _
    rw [h29, lockWord_bit]; simp
  · show bit (ms.foldl _ _) 31 = _
    rw [h31, lockWord_bit]; simp
  · show counter (ms.foldl _ _) = _
    rw [hc, lockWord_counter]

/-- Locking and unlocking without marking a change restores the very same word. -/
theorem lock_unlock_id {v : Ver} (hq : Quiet v) : session [] v = v := by
  have hx : midSession [] v = lockWord v := rfl
  have hb : ∀ i, i ≠ 0 → bit (lockWord v) i = bit v i := by
    intro i hi; rw [lockWord_bit]; simp [hi]
  have hw : WF (lockWord v) := by unfold WF; rw [hb 28 (by decide)]; exact hq.wf
  unfold session; rw [hx]
  apply ver_ext
  · rw [unlock_low _ 0 (by omega), hq.b0]
  · rw [unlock_low _ 1 (by omega), hq.b1]
  · rw [unlock_low _ 2 (by omega), hq.b2]
  · rw [unlock_counter, hb 2 (by decide), hb 1 (by decide), hq.b1, hq.b2, lockWord_counter]; rfl
  · rw [unlock_28]; exact hq.wf.symm
  · rw [unlock_high _ hw 29 (Or.inl rfl), hb 29 (by decide)]
  · rw [unlock_root _ hw, hb 30 (by decide), hb 2 (by decide), hq.b2]; simp
  · rw [unlock_high _ hw 31 (Or.inr rfl), hb 31 (by decide)]

/-- The leaf flag never changes. -/
theorem session_isleaf (ms : Session) {v : Ver} (hq : Quiet v) :
    isleaf (session ms v) = isleaf v := by
  obtain ⟨_, _, _, h28, _, h31, _⟩ := mid_facts ms hq
  rw [isleaf_eq, isleaf_eq]; unfold session
  rw [unlock_high _ h28 31 (Or.inr rfl), h31]

/-- The deleted flag is set exactly by a deletion mark and is never cleared. -/
theorem session_deleted (ms : Session) {v : Ver} (hq : Quiet v) :
    deleted (session ms v) = true ↔
      deleted v = true ∨ Mark.deleted ∈ ms ∨ Mark.deletedTree ∈ ms := by
  obtain ⟨_, _, _, h28, h29, _, _⟩ := mid_facts ms hq
  rw [deleted_eq, deleted_eq]; unfold session
  rw [unlock_high _ h28 29 (Or.inl rfl), h29, Bool.or_eq_true, List.any_eq_true]
  constructor
  · rintro (h | ⟨m, hm, he⟩)
    · exact Or.inl h
    · rcases of_decide_eq_true he with h | h <;> subst h
      · exact Or.inr (Or.inl hm)
      · exact Or.inr (Or.inr hm)
  · rintro (h | h | h)
    · exact Or.inl h
    · exact Or.inr ⟨_, h, by decide⟩
    · exact Or.inr ⟨_, h, by decide⟩

/-- How far one session advances the change counter. -/
theorem session_counter (ms : Session) {v : Ver} (hq : Quiet v) :
    counter (session ms v) =
      if ms.splits then (counter v / 64 + 1) * 64 % 2 ^ 25
      else if ms.changes then (counter v + 1) % 2 ^ 25 else counter v := by
  obtain ⟨_, h1, h2, _, _, _, hc⟩ := mid_facts ms hq
  unfold session
  rw [unlock_counter, h1, h2, hc]
  cases hs : ms.splits
  · simp only [Bool.false_eq_true, if_false]
    have : (ms.any fun m => decide (m = .insert)) = ms.changes := by
      unfold Session.splits at hs
      unfold Session.changes
      rw [List.any_eq_false] at hs
      rw [Bool.eq_iff_iff, List.any_eq_true, List.any_eq_true]
      constructor
      · rintro ⟨m, hm, he⟩; exact ⟨m, hm, by simp at he ⊢; exact Or.inl (Or.inl he)⟩
      · rintro ⟨m, hm, he⟩
        refine ⟨m, hm, ?_⟩
        have := hs m hm
        simp at he this ⊢
        rcases he with (h | h) | h
        · exact h
        · exact absurd h this.1
        · exact absurd h this.2
    rw [this]
  · simp

/-! ### What readers see -/

theorem hasChanged_iff (v x : Ver) :
    hasChanged v x = true ↔ ∃ i, 1 ≤ i ∧ i < 32 ∧ bit v i ≠ bit x i := by
  unfold hasChanged
  rw [decide_eq_true_eq, show lockBit.toNat = 1 by decide]
  have hb : ∀ i, (x ^^^ v).toNat.testBit i = (bit x i ^^ bit v i) := by
    intro i; exact BitVec.getLsbD_xor
  constructor
  · intro h
    apply Classical.byContradiction
    intro hn
    have hz : (x ^^^ v).toNat < 2 ^ 1 := by
      apply Nat.lt_pow_two_of_testBit
      intro i hi
      rw [hb]
      by_cases hi32 : i < 32
      · have : bit v i = bit x i := Classical.byContradiction fun hne => hn ⟨i, hi, hi32, hne⟩
        rw [this]; simp
      · unfold bit; rw [BitVec.getLsbD_of_ge x i (by omega), BitVec.getLsbD_of_ge v i (by omega)]; rfl
    omega
  · rintro ⟨i, h1, h32, hne⟩
    have ht : (x ^^^ v).toNat.testBit i = true := by
      rw [hb]; cases h1 : bit x i <;> cases h2 : bit v i <;> simp_all
    have hge := Nat.ge_two_pow_of_testBit ht
    have : 2 ^ 1 ≤ 2 ^ i := Nat.pow_le_pow_right (by omega) h1
    omega

theorem hasSplit_of_counter {v x : Ver} (h : counter v / 64 ≠ counter x / 64) :
    hasSplit v x = true := by
  unfold hasSplit
  rw [decide_eq_true_eq, show vsplitLowbit.toNat = 512 by decide]
  apply Classical.byContradiction
  intro hlt
  apply h
  have hb : ∀ i, 9 ≤ i → bit v i = bit x i := by
    intro i hi
    have : (x ^^^ v).toNat.testBit i = false := by
      apply Nat.testBit_lt_two_pow
      have : 2 ^ 9 ≤ 2 ^ i := Nat.pow_le_pow_right (by omega) hi
      omega
    have e : (x ^^^ v).toNat.testBit i = (bit x i ^^ bit v i) := BitVec.getLsbD_xor
    rw [e] at this
    cases h1 : bit x i <;> cases h2 : bit v i <;> simp_all
  have e : ∀ w : Ver, counter w / 64 = counter (w &&& 0xfffffe00#32) / 64 := by
    intro w; rw [counter_and_high (by decide)]; omega
  rw [e v, e x]
  congr 1
  apply counter_eq_of_bits
  intro i _ _
  rw [bit_and, bit_and]
  by_cases h9 : 9 ≤ i
  · rw [hb i h9]
  · have key : ∀ i : Fin 9, bit 0xfffffe00#32 i = false := by decide
    rw [key ⟨i, by omega⟩]; simp

theorem hasChanged_of_counter {v x : Ver} (h : counter v ≠ counter x) : hasChanged v x = true := by
  rw [hasChanged_iff]
  apply Classical.byContradiction
  intro hn
  apply h
  apply counter_eq_of_bits
  intro i h1 h2
  exact Classical.byContradiction fun hne => hn ⟨i, by omega, by omega, hne⟩

/-- Merely locking is invisible to readers. -/
theorem lock_invisible (v : Ver) : hasChanged (lockWord v) v = false := by
  rw [← Bool.not_eq_true, hasChanged_iff]
  rintro ⟨i, h1, _, hne⟩
  apply hne; rw [lockWord_bit]; simp; omega

/-- While a change is marked, no reader can obtain a stable version. -/
theorem marked_is_dirty (ms : Session) {v : Ver} (hq : Quiet v) (h : ms.changes = true) :
    isDirty (midSession ms v) = true := by
  obtain ⟨_, h1, h2, _, _, _, _⟩ := mid_facts ms hq
  rw [isDirty_eq, h1, h2]
  unfold Session.changes at h
  rw [List.any_eq_true] at h
  obtain ⟨m, hm, he⟩ := h
  simp at he
  rw [Bool.or_eq_true]
  rcases he with (h | h) | h
  · exact Or.inl (List.any_eq_true.mpr ⟨m, hm, by simp [h]⟩)
  · exact Or.inr (List.any_eq_true.mpr ⟨m, hm, by simp [h]⟩)
  · exact Or.inr (List.any_eq_true.mpr ⟨m, hm, by simp [h]⟩)

/-- A whole history of lock sessions on one node. -/
def history (hs : List Session) (v : Ver) : Ver := hs.foldl (fun w ms => session ms w) v

theorem history_quiet (hs : List Session) {v : Ver} (hq : Quiet v) : Quiet (history hs v) := by
  induction hs generalizing v with
  | nil => exact hq
  | cons ms hs ih => exact ih (session_quiet ms v)

/-- Total advance of the (unbounded) change counter over a history. -/
theorem history_counter (hs : List Session) {v : Ver} (hq : Quiet v) :
    ∃ d, counter (history hs v) = (counter v + d) % 2 ^ 25 ∧ d ≤ 64 * hs.length ∧
      (hs.any Session.changes = true → 0 < d) := by
  induction hs generalizing v with
  | nil => exact ⟨0, by simp [history, Nat.mod_eq_of_lt (counter_lt v)], by simp, by simp⟩
  | cons ms hs ih =>
    obtain ⟨d, h1, h2, h3⟩ := ih (session_quiet ms v)
    have hc := session_counter ms hq
    have hlt := counter_lt v
    have hsc : ms.splits = true → ms.changes = true := by
      intro h
      unfold Session.splits at h; unfold Session.changes
      rw [List.any_eq_true] at h ⊢
      obtain ⟨m, hm, he⟩ := h
      exact ⟨m, hm, by simp at he ⊢; rcases he with h | h <;> simp [h]⟩
    have : ∃ e, counter (session ms v) = (counter v + e) % 2 ^ 25 ∧ e ≤ 64 ∧
        (ms.changes = true → 0 < e) := by
      rw [hc]
      cases hs : ms.splits
      · cases hch : ms.changes
        · exact ⟨0, by simp; omega, by omega, by simp⟩
        · exact ⟨1, by simp, by omega, by simp⟩
      · refine ⟨64 - counter v % 64, ?_, by omega, fun _ => by omega⟩
        simp only [if_true]
        congr 1; omega
    obtain ⟨e, he1, he2, he3⟩ := this
    refine ⟨e + d, ?_, ?_, ?_⟩
    · show counter (history hs (session ms v)) = _
      rw [h1, he1]; omega
    · simp only [List.length_cons]; omega
    · intro h
      rw [List.any_cons, Bool.or_eq_true] at h
      rcases h with h | h
      · have := he3 h; omega
      · have := h3 h; omega

/-- Readers holding an older stable version notice: after any history of fewer than `2^19`
lock sessions of which at least one marked an insert, split or deletion, the version word
compares as changed. -/
theorem change_detected (hs : List Session) {v : Ver} (hq : Quiet v)
    (hch : hs.any Session.changes = true) (hlen : hs.length < 2 ^ 19) :
    hasChanged (history hs v) v = true := by
  obtain ⟨d, h1, h2, h3⟩ := history_counter hs hq
  apply hasChanged_of_counter
  rw [h1]
  have := h3 hch
  have := counter_lt v
  omega

/-- One session that marked a split is moreover reported as a split. -/
theorem split_detected (ms : Session) {v : Ver} (hq : Quiet v) (h : ms.splits = true) :
    hasSplit (session ms v) v = true := by
  apply hasSplit_of_counter
  rw [session_counter ms hq, h]
  have := counter_lt v
  simp only [if_true]
  omega

/-- A session that marked an insert alone is reported as a change, but not as a split, as long as the six bits that count inserts
do not overflow. -/
theorem insert_no_split (ms : Session) {v : Ver} (hq : Quiet v) (h : ∀ m ∈ ms, m = .insert) (hne : ms ≠ [])
    (hc : counter v % 64 < 63) : hasSplit (session ms v) v = false ∧ hasChanged (session ms v) v = true := by
  have hs : ms.splits = false := by
    unfold Session.splits
    rw [List.any_eq_false]
    intro m hm
    rw [h m hm]; decide
  have hch : ms.changes = true := by
    obtain ⟨m, hm⟩ := List.exists_mem_of_ne_nil ms hne
    unfold Session.changes
    rw [List.any_eq_true]
    exact ⟨m, hm, by rw [h m hm]; decide⟩
  have hcount := session_counter ms hq
  rw [hs, hch] at hcount
  simp only [Bool.false_eq_true, if_false, if_true] at hcount
  have hlt := counter_lt v
  refine ⟨?_, hasChanged_of_counter (by omega)⟩
  obtain ⟨_, _, h2, h28, h29, h31, _⟩ := mid_facts ms hq
  have hroot : ∀ (ms : Session) (w : Ver), (∀ m ∈ ms, m = .insert) → bit (ms.foldl (fun w m => m.apply w) w) 30 = bit w 30 := by
    intro ms
    induction ms with
    | nil => intro w _; rfl
    | cons m ms ih =>
      intro w h
      rw [List.foldl_cons, ih _ fun m hm => h m (List.mem_cons_of_mem _ hm), h m List.mem_cons_self]
      show bit (w ||| insertingBit) 30 = _
      rw [bit_or, show bit insertingBit 30 = false by decide, Bool.or_false]
  have e : ∀ w : Ver, counter (w &&& 0xfffffe00#32) = counter w / 64 * 64 := by
    intro w; rw [counter_and_high (by decide)]
  have hd : counter (session ms v &&& 0xfffffe00#32) = counter (v &&& 0xfffffe00#32) := by
    rw [e, e]; omega
  have hbits : ∀ i, 9 ≤ i → i < 32 → bit (session ms v) i = bit v i := by
    intro i h9 h32
    by_cases h27 : i < 28
    · have := bits_of_counter_eq hd i (by omega) h27
      have key : ∀ i : Fin 28, 9 ≤ i.val → bit 0xfffffe00#32 i = true := by decide
      rwa [bit_and, bit_and, key ⟨i, h27⟩ h9, Bool.and_true, Bool.and_true] at this
    · have h5 : i = 28 ∨ i = 29 ∨ i = 30 ∨ i = 31 := by omega
      have hw : WF (midSession ms v) := h28
      rcases h5 with rfl | rfl | rfl | rfl
      · exact (unlock_28 _).trans hq.wf.symm
      · unfold session
        rw [unlock_high _ hw 29 (Or.inl rfl), h29]
        have : (ms.any fun m => decide (m = .deleted) || decide (m = .deletedTree)) = false := by
          rw [List.any_eq_false]; intro m hm; rw [h m hm]; decide
        simp_all
      · unfold session
        rw [unlock_root _ hw, h2, hs]
        unfold midSession
        rw [hroot ms _ h, lockWord_bit]
        simp
      · unfold session
        rw [unlock_high _ hw 31 (Or.inr rfl), h31]
  unfold hasSplit
  rw [decide_eq_false_iff_not, show vsplitLowbit.toNat = 2 ^ 9 by decide, Nat.not_le]
  apply Nat.lt_pow_two_of_testBit
  intro i hi
  have e : (v ^^^ session ms v).toNat.testBit i = (bit v i ^^ bit (session ms v) i) := BitVec.getLsbD_xor
  rw [e]
  by_cases h32 : i < 32
  · rw [hbits i hi h32]; simp
  · have : ∀ w : Ver, bit w i = false := fun w => BitVec.getLsbD_of_ge _ _ (by omega)
    rw [this, this]; rfl

example : hasSplit (session [.insert, .insert] (make true)) (make true) = false ∧
    hasChanged (session [.insert, .insert] (make true)) (make true) = true :=
  insert_no_split _ ⟨by decide, by decide, by decide⟩ (by decide) (by decide) (by decide)

/-- With 63 inserts counted, the next one is reported as a split. -/
theorem insert_overflow_splits : ∃ v, Quiet v ∧ counter v = 63 ∧ hasSplit (session [.insert] v) v = true :=
  ⟨0x1f8#32, ⟨by decide, by decide, by decide⟩, by decide, by decide⟩

/-- A new node is stable, is of the kind asked for, is alive and no root, and its counters are zero. -/
theorem fresh (b : Bool) : Quiet (make b) ∧ isleaf (make b) = b ∧ deleted (make b) = false ∧ isRoot (make b) = false ∧
    counter (make b) = 0 := by
  cases b <;> exact ⟨⟨by decide, by decide, by decide⟩, by decide, by decide, by decide, by decide⟩

/-- `mark_change` is `mark_split` for splits and `mark_insert` otherwise: readers see the session as a split exactly then. -/
theorem marks_apart (v : Ver) (b : Bool) : splitting (markChange v b) = (splitting v || b) ∧
    inserting (markChange v b) = (inserting v || !b) := by
  rw [splitting_eq, splitting_eq, inserting_eq, inserting_eq]
  unfold markChange
  rw [bit_or, bit_or]
  cases b <;> exact ⟨congrArg _ (by decide), congrArg _ (by decide)⟩

example : splitting (markChange 1#32 true) = true ∧ inserting (markChange 1#32 true) = false := by
  rw [(marks_apart _ _).1, (marks_apart _ _).2]; decide

theorem nth_split_counter (n : Nat) {v : Ver} (hq : Quiet v) :
    counter (history (List.replicate (n + 1) [.split]) v) =
      (counter v / 64 + (n + 1)) * 64 % 2 ^ 25 := by
  induction n generalizing v with
  | zero =>
    show counter (session [.split] v) = _
    rw [session_counter _ hq]; rfl
  | succ n ih =>
    rw [List.replicate_succ]
    show counter (history (List.replicate (n + 1) [.split]) (session [.split] v)) = _
    rw [ih (session_quiet _ _), session_counter _ hq]
    have : Session.splits [.split] = true := by decide
    rw [this]
    simp only [if_true]
    omega

/-- The bound in `change_detected` is sharp: after exactly `2^19` splits the word can come
back, so a reader stalled across that many splits would be fooled.  (The start word has a
zero insert count.) -/
theorem change_detected_sharp :
    hasChanged (history (List.replicate (2 ^ 19) [.split]) (make true)) (make true) = false := by
  have hq : Quiet (make true) := ⟨by decide, by decide, by decide⟩
  have hfin := history_quiet (List.replicate (2 ^ 19) [Mark.split]) hq
  have hc := nth_split_counter (2 ^ 19 - 1) hq
  rw [show 2 ^ 19 - 1 + 1 = 2 ^ 19 by decide, show counter (make true) = 0 by decide] at hc
  have hkeep : ∀ n (v : Ver), Quiet v →
      bit (history (List.replicate n [Mark.split]) v) 29 = bit v 29 ∧
      bit (history (List.replicate n [Mark.split]) v) 31 = bit v 31 ∧
      (bit v 30 = false → bit (history (List.replicate n [Mark.split]) v) 30 = false) := by
    intro n
    induction n with
    | zero => intro v _; exact ⟨rfl, rfl, fun h => h⟩
    | succ n ih =>
      intro v hv
      rw [List.replicate_succ]
      obtain ⟨a, b, c⟩ := ih (session [.split] v) (session_quiet _ _)
      obtain ⟨_, _, h2, h28, h29, h31, _⟩ := mid_facts [.split] hv
      refine ⟨?_, ?_, ?_⟩
      · show bit (history _ (session [.split] v)) 29 = _
        rw [a]; unfold session; rw [unlock_high _ h28 29 (Or.inl rfl), h29]; simp
      · show bit (history _ (session [.split] v)) 31 = _
        rw [b]; unfold session; rw [unlock_high _ h28 31 (Or.inr rfl), h31]
      · intro h
        apply c
        unfold session
        rw [unlock_root _ h28, h2]; simp [Session.splits]
  obtain ⟨k29, k31, k30⟩ := hkeep (2 ^ 19) (make true) hq
  have : history (List.replicate (2 ^ 19) [.split]) (make true) = make true := by
    apply ver_ext
    · rw [hfin.b0, hq.b0]
    · rw [hfin.b1, hq.b1]
    · rw [hfin.b2, hq.b2]
    · rw [hc, show counter (make true) = 0 by decide]
    · rw [show bit _ 28 = false from hfin.wf]; exact hq.wf.symm
    · exact k29
    · rw [k30 (by decide)]; rfl
    · exact k31
  rw [this, ← Bool.not_eq_true, hasChanged_iff]
  rintro ⟨i, _, _, h⟩
  exact h rfl

/-! ### Mutual exclusion over all interleavings -/

open Concurrent

structure Inv (isleaf : Bool) (s : State) : Prop where
  excl : ∀ t u, (s.pc t).holds → (s.pc u).holds → t = u
  lockedIff : bit s.v 0 = true ↔ ∃ t, (s.pc t).holds
  marking : ∀ t x m, s.pc t = .marking x m → x = s.v
  unlocking : ∀ t x, s.pc t = .unlocking x → x = s.v
  wf : WF s.v
  leaf : bit s.v 31 = isleaf
  quiet : bit s.v 0 = false → Quiet s.v

theorem set_pc_self (s : State) (t : Nat) (p : PC) : (s.set t p).pc t = p := by
  simp [State.set]
theorem set_pc_ne (s : State) {t u : Nat} (p : PC) (h : u ≠ t) : (s.set t p).pc u = s.pc u := by
  simp [State.set, h]

/-- Changing one thread's position between two non-holding (or two holding) positions keeps
the set of holders. -/
theorem holds_set_iff {s : State} {t : Nat} {p : PC} (h : p.holds ↔ (s.pc t).holds) (u : Nat) :
    ((s.set t p).pc u).holds ↔ (s.pc u).holds := by
  by_cases hu : u = t
  · subst hu; rw [set_pc_self]; exact h
  · rw [set_pc_ne s p hu]

theorem inv_step {b : Bool} {s s' : State} (hi : Inv b s) (hs : Step s s') : Inv b s' := by
  have notHolds : ∀ {t e}, s.pc t = .trying e → ¬ (s.pc t).holds := by
    intro t e h hh; rw [h] at hh; exact hh
  -- steps that do not touch the word and do not change who holds the lock
  have quietStep : ∀ (t : Nat) (p : PC), (p.holds ↔ (s.pc t).holds) →
      (∀ x m, p = .marking x m → x = s.v) → (∀ x, p = .unlocking x → x = s.v) →
      Inv b (s.set t p) := by
    intro t p hp hm hu
    refine ⟨?_, ?_, ?_, ?_, hi.wf, hi.leaf, hi.quiet⟩
    · intro a c ha hc
      exact hi.excl a c ((holds_set_iff hp a).mp ha) ((holds_set_iff hp c).mp hc)
    · show bit s.v 0 = true ↔ _
      rw [hi.lockedIff]
      exact ⟨fun ⟨a, ha⟩ => ⟨a, (holds_set_iff hp a).mpr ha⟩,
        fun ⟨a, ha⟩ => ⟨a, (holds_set_iff hp a).mp ha⟩⟩
    · intro a x m ha
      show x = s.v
      by_cases h : a = t
      · subst h; rw [set_pc_self] at ha; exact hm x m ha
      · rw [set_pc_ne s p h] at ha; exact hi.marking a x m ha
    · intro a x ha
      show x = s.v
      by_cases h : a = t
      · subst h; rw [set_pc_self] at ha; exact hu x ha
      · rw [set_pc_ne s p h] at ha; exact hi.unlocking a x ha
  cases hs with
  | begin t e h =>
    exact quietStep t _ (by rw [h]; exact Iff.rfl) (by simp) (by simp)
  | retry t e h _ =>
    exact quietStep t _ (by rw [h]; exact Iff.rfl) (by simp) (by simp)
  | giveUp t e h _ =>
    exact quietStep t _ (by rw [h]; exact Iff.rfl) (by simp) (by simp)
  | readMark t m h =>
    exact quietStep t _ (by rw [h]; exact Iff.rfl) (by rintro x m' ⟨⟩; rfl) (by simp)
  | readUnlock t h =>
    exact quietStep t _ (by rw [h]; exact Iff.rfl) (by simp) (by rintro x ⟨⟩; rfl)
  | cas t e h hl hv =>
    subst hv
    rw [locked_eq] at hl
    have none : ∀ u, ¬ (s.pc u).holds := by
      intro u hu
      have := hi.lockedIff.mpr ⟨u, hu⟩
      rw [hl] at this; exact Bool.noConfusion this
    have hq := hi.quiet hl
    have only : ∀ u, (((s.set t .holding).pc u).holds) → u = t := by
      intro u hu
      apply Classical.byContradiction
      intro hne
      rw [set_pc_ne s _ hne] at hu
      exact none u hu
    have nomark : ∀ u, u ≠ t → ¬ (s.pc u).holds := fun u _ => none u
    refine ⟨?_, ?_, ?_, ?_, ?_, ?_, ?_⟩
    · intro a c ha hc; rw [only a ha, only c hc]
    · show bit (lockWord s.v) 0 = true ↔ _
      rw [lockWord_bit]
      simp only [decide_true, Bool.or_true, true_iff]
      exact ⟨t, by show ((s.set t .holding).pc t).holds; rw [set_pc_self]; trivial⟩
    · intro a x m ha
      have ha : (s.set t .holding).pc a = .marking x m := ha
      by_cases hat : a = t
      · subst hat; rw [set_pc_self] at ha; cases ha
      · rw [set_pc_ne s _ hat] at ha; exact absurd (by rw [ha]; trivial) (none a)
    · intro a x ha
      have ha : (s.set t .holding).pc a = .unlocking x := ha
      by_cases hat : a = t
      · subst hat; rw [set_pc_self] at ha; cases ha
      · rw [set_pc_ne s _ hat] at ha; exact absurd (by rw [ha]; trivial) (none a)
    · show WF (lockWord s.v)
      unfold WF; rw [lockWord_bit, show bit s.v 28 = false from hi.wf]; rfl
    · show bit (lockWord s.v) 31 = b
      rw [lockWord_bit, hi.leaf]; simp
    · intro h0
      have h0 : bit (lockWord s.v) 0 = false := h0
      rw [lockWord_bit] at h0; simp at h0
  | writeMark t x m h =>
    have hx := hi.marking t x m h
    subst hx
    have ht : (s.pc t).holds := by rw [h]; trivial
    have hp : (PC.holding).holds ↔ (s.pc t).holds := ⟨fun _ => ht, fun _ => trivial⟩
    have hlk : bit s.v 0 = true := hi.lockedIff.mpr ⟨t, ht⟩
    refine ⟨?_, ?_, ?_, ?_, ?_, ?_, ?_⟩
    · intro a c ha hc
      exact hi.excl a c ((holds_set_iff hp a).mp ha) ((holds_set_iff hp c).mp hc)
    · show bit (m.apply s.v) 0 = true ↔ _
      rw [mark_bit0, hlk]
      simp only [true_iff]
      exact ⟨t, (holds_set_iff hp t).mpr ht⟩
    · intro a x' m' ha
      have ha : (s.set t .holding).pc a = .marking x' m' := ha
      by_cases hat : a = t
      · subst hat; rw [set_pc_self] at ha; cases ha
      · rw [set_pc_ne s _ hat] at ha
        exact absurd (hi.excl a t (by rw [ha]; trivial) ht) hat
    · intro a x' ha
      have ha : (s.set t .holding).pc a = .unlocking x' := ha
      by_cases hat : a = t
      · subst hat; rw [set_pc_self] at ha; cases ha
      · rw [set_pc_ne s _ hat] at ha
        exact absurd (hi.excl a t (by rw [ha]; trivial) ht) hat
    · show WF (m.apply s.v)
      unfold WF; rw [mark_bit28]; exact hi.wf
    · show bit (m.apply s.v) 31 = b
      rw [mark_bit31]; exact hi.leaf
    · intro h0
      have h0 : bit (m.apply s.v) 0 = false := h0
      rw [mark_bit0, hlk] at h0; exact Bool.noConfusion h0
  | writeUnlock t x h =>
    have hx := hi.unlocking t x h
    subst hx
    have ht : (s.pc t).holds := by rw [h]; trivial
    have none : ∀ u, ¬ (((s.set t .idle).pc u).holds) := by
      intro u hu
      by_cases hut : u = t
      · subst hut; rw [set_pc_self] at hu; exact hu
      · rw [set_pc_ne s _ hut] at hu; exact hut (hi.excl u t hu ht)
    refine ⟨?_, ?_, ?_, ?_, ?_, ?_, ?_⟩
    · intro a c ha hc; exact absurd ha (none a)
    · show bit (unlockWord s.v) 0 = true ↔ _
      rw [unlock_low _ 0 (by omega)]
      simp only [Bool.false_eq_true, false_iff]
      rintro ⟨a, ha⟩; exact none a ha
    · intro a x' m' ha
      have ha : (s.set t .idle).pc a = .marking x' m' := ha
      exact absurd (by rw [ha]; trivial) (none a)
    · intro a x' ha
      have ha : (s.set t .idle).pc a = .unlocking x' := ha
      exact absurd (by rw [ha]; trivial) (none a)
    · exact unlock_28 s.v
    · show bit (unlockWord s.v) 31 = b
      rw [unlock_high _ hi.wf 31 (Or.inr rfl)]; exact hi.leaf
    · intro _
      exact quiet_of (unlock_28 _) (unlock_low _ 0 (by omega)) (unlock_low _ 1 (by omega))
        (unlock_low _ 2 (by omega))

theorem inv_reachable {b : Bool} {s : State} (h : Reachable b s) : Inv b s := by
  induction h with
  | init =>
    refine ⟨?_, ?_, ?_, ?_, ?_, ?_, ?_⟩
    · intro t u ht; exact absurd ht id
    · constructor
      · intro h; cases b <;> exact absurd h (by decide)
      · rintro ⟨t, ht⟩; exact absurd ht id
    · intro t x m h; cases h
    · intro t x h; cases h
    · cases b <;> decide
    · cases b <;> decide
    · intro _; cases b <;> exact ⟨by decide, by decide, by decide⟩
  | step _ hs ih => exact inv_step ih hs

/-- Mutual exclusion: in every interleaving of any number of threads, two threads never hold
the same node's lock. -/
theorem mutual_exclusion {b : Bool} {s : State} (h : Reachable b s) (t u : Nat)
    (ht : (s.pc t).holds) (hu : (s.pc u).holds) : t = u :=
  (inv_reachable h).excl t u ht hu

/-- The lock bit tells the truth in every reachable state, the leaf flag is intact, and an
unlocked word is always stable. -/
theorem word_wellformed {b : Bool} {s : State} (h : Reachable b s) :
    (locked s.v = true ↔ ∃ t, (s.pc t).holds) ∧ isleaf s.v = b ∧
      (locked s.v = false → Quiet s.v) := by
  have hi := inv_reachable h
  rw [locked_eq, isleaf_eq]
  exact ⟨hi.lockedIff, hi.leaf, hi.quiet⟩

/-- The plain, non-atomic read-modify-writes of the holder are never lost: whenever a thread
is about to write a marked or unlocked word, the word it read is still the current one. -/
theorem holder_writes_current {b : Bool} {s : State} (h : Reachable b s) (t : Nat) :
    (∀ x m, s.pc t = .marking x m → x = s.v) ∧ (∀ x, s.pc t = .unlocking x → x = s.v) :=
  ⟨(inv_reachable h).marking t, (inv_reachable h).unlocking t⟩

theorem bit29_step {b : Bool} {s s' : State} (hi : Inv b s) (hs : Step s s')
    (h : bit s.v 29 = true) : bit s'.v 29 = true := by
  cases hs with
  | begin | retry | giveUp | readMark | readUnlock => exact h
  | cas t e _ _ hv => subst hv; show bit (lockWord s.v) 29 = true; rw [lockWord_bit, h]; rfl
  | writeMark t x m hp =>
    have := hi.marking t x m hp; subst this
    show bit (m.apply s.v) 29 = true
    rw [mark_bit29, h]; rfl
  | writeUnlock t x hp =>
    have := hi.unlocking t x hp; subst this
    show bit (unlockWord s.v) 29 = true
    rw [unlock_high _ hi.wf 29 (Or.inl rfl), h]

/-- Once a node is marked deleted it stays so in every continuation. -/
theorem deleted_forever {b : Bool} {s s' : State} (hr : Reachable b s) (hs : Step s s')
    (h : deleted s.v = true) : deleted s'.v = true := by
  rw [deleted_eq] at h ⊢
  exact bit29_step (inv_reachable hr) hs h

/-! Non-trivial instances. -/

/-- A stable word with a nearly full insert count, a split count and all flags. -/
example : Quiet 0xe0000bf8#32 := ⟨by decide, by decide, by decide⟩
example : hasChanged (session [.insert] 0xe0000bf8#32) 0xe0000bf8#32 = true :=
  change_detected [[.insert]] ⟨by decide, by decide, by decide⟩ (by decide) (by decide)

/-- A run in which thread 7 holds the lock while thread 3 has failed to take it. -/
example : ∃ s, Reachable true s ∧ s.pc 7 = .holding ∧ ∃ e, s.pc 3 = .trying e ∧ s.v ≠ e := by
  refine ⟨_, .step (.step (.step .init (.begin _ 3 (make true) rfl))
    (.begin _ 7 (make true) rfl)) (.cas _ 7 (make true) rfl (by decide) rfl), rfl,
    make true, rfl, ?_⟩
  show lockWord (make true) ≠ make true
  decide

end Verif.Props.C10
