import Verif.Phases.Model
import Mathlib.Algebra.BigOperators.Group.Finset.Basic
import Mathlib.Algebra.Order.BigOperators.Group.Finset
import Mathlib.Order.Interval.Finset.Nat
import Mathlib.Tactic.Linarith

/-!
# C80: The phases of recovery are barriers, and recovery ends
-/
namespace Verif.Props.C80
open Verif.Phases

/-- Thread `i` has work to do in phase `p`: checkpoint threads in phase 1, loggers in 2, 3 and 4. -/
def Takes (nck i p : Nat) : Prop := if i < nck then p = 1 else 2 ≤ p ∧ p ≤ 4

/-- Thread `i` has finished its work of phase `p`. -/
def Finished : W → Nat → Prop
  | .wait q _, p => p < q
  | .work q, p => p < q
  | .through, _ => True

/-- The thread has not finished the current phase. -/
def owes (phase : Nat) : W → Bool
  | .wait p _ => p == phase
  | .work _ => true
  | .through => false

/-- What holds of one thread. -/
def Good (nck phase i : Nat) : W → Prop
  | .wait p a => Takes nck i p ∧ phase ≤ p ∧ (2 < p → p ≤ phase + 1) ∧ (a = true → p ≠ phase)
  | .work p => Takes nck i p ∧ p = phase
  | .through => if i < nck then 1 ≤ phase else 4 ≤ phase

def owing (n : Nat) (s : S) : Finset Nat := (Finset.range n).filter fun i => owes s.phase (s.w i) = true

structure Inv (nck nlog : Nat) (s : S) : Prop where
  good : ∀ i < nck + nlog, Good nck s.phase i (s.w i)
  count : s.nactive = (owing (nck + nlog) s).card
  main : s.mainAsleep = true → s.nactive ≠ 0
  le : s.phase ≤ 5

theorem good_woken {nck phase i : Nat} {x : W} (h : Good nck phase i x) : Good nck phase i (woken x) := by
  cases x with
  | wait p a => exact ⟨h.1, h.2.1, h.2.2.1, by simp⟩
  | work p => exact h
  | through => exact h

theorem owes_woken (phase : Nat) (x : W) : owes phase (woken x) = owes phase x := by cases x <;> rfl

theorem mem_owing {n : Nat} {s : S} {i : Nat} : i ∈ owing n s ↔ i < n ∧ owes s.phase (s.w i) = true := by
  simp [owing]

theorem owing_set {n : Nat} {s : S} {i : Nat} {x : W} (h : owes s.phase x = owes s.phase (s.w i)) :
    owing n (setW s i x) = owing n s := by
  ext j
  rw [mem_owing, mem_owing]
  show j < n ∧ owes s.phase (if j = i then x else s.w j) = true ↔ _
  by_cases hj : j = i
  · subst hj; simp [h]
  · simp [hj]

/-- When nobody owes the current phase, those who owe the next are those who take part in it. -/
theorem next_owes {nck phase i : Nat} {x : W} (h : Good nck phase i x) (h0 : owes phase x = false) (h5 : phase < 5) :
    Good nck (phase + 1) i (woken x) ∧ (owes (phase + 1) x = true ↔ Takes nck i (phase + 1)) := by
  cases x with
  | wait p a =>
    simp only [Good, owes, woken, Takes] at *
    have hp : p ≠ phase := by simpa using h0
    by_cases hi : i < nck
    · simp only [hi, if_true] at *
      simp
      omega
    · simp only [hi, if_false] at *
      simp
      omega
  | work p => simp [owes] at h0
  | through =>
    simp only [Good, owes, woken, Takes] at *
    by_cases hi : i < nck
    · simp only [hi, if_true] at *
      simp
      omega
    · simp only [hi, if_false] at *
      simp
      omega

theorem takes_card (nck nlog p : Nat) (h1 : 1 ≤ p) :
    ((Finset.range (nck + nlog)).filter fun i => i < nck ∧ p = 1 ∨ nck ≤ i ∧ 2 ≤ p ∧ p ≤ 4).card = announced nck nlog p := by
  unfold announced
  by_cases hp : p = 1
  · rw [if_pos hp]
    have : ((Finset.range (nck + nlog)).filter fun i => i < nck ∧ p = 1 ∨ nck ≤ i ∧ 2 ≤ p ∧ p ≤ 4) = Finset.range nck := by
      ext i; simp; omega
    rw [this, Finset.card_range]
  · rw [if_neg hp]
    by_cases h4 : p ≤ 4
    · rw [if_pos h4]
      have : ((Finset.range (nck + nlog)).filter fun i => i < nck ∧ p = 1 ∨ nck ≤ i ∧ 2 ≤ p ∧ p ≤ 4) =
          Finset.Ico nck (nck + nlog) := by
        ext i; simp; omega
      rw [this, Nat.card_Ico]; omega
    · rw [if_neg h4, Finset.card_eq_zero]
      ext i; simp; omega

theorem takes_iff (nck i p : Nat) : Takes nck i p ↔ i < nck ∧ p = 1 ∨ nck ≤ i ∧ 2 ≤ p ∧ p ≤ 4 := by
  unfold Takes
  split <;> omega

theorem start_inv (nck nlog : Nat) : Inv nck nlog (start nck) := by
  refine ⟨?_, ?_, by simp [start], by simp [start]⟩
  · intro i _
    by_cases hi : i < nck <;> simp [start, first, Good, Takes, hi]
  · have : owing (nck + nlog) (start nck) = ∅ := by
      ext i
      rw [mem_owing]
      by_cases hi : i < nck <;> simp [start, first, owes, hi]
    rw [this]; rfl

theorem step_inv {nck nlog : Nat} {b : Bool} {s t : S} (h : Inv nck nlog s) (hs : Step nck nlog b s t) : Inv nck nlog t := by
  cases hs with
  | mainSleeps _ h0 => exact ⟨h.good, h.count, fun _ => h0, h.le⟩
  | mainWakes _ => exact ⟨h.good, h.count, fun h' => absurd h' (by simp), h.le⟩
  | advance _ h0 h5 =>
    have hno : ∀ i < nck + nlog, owes s.phase (s.w i) = false := by
      intro i hi
      have hc := h.count
      rw [h0] at hc
      have : (owing (nck + nlog) s) = ∅ := Finset.card_eq_zero.mp (by omega)
      by_contra hn
      have hm : i ∈ owing (nck + nlog) s := mem_owing.mpr ⟨hi, by simpa using hn⟩
      rw [this] at hm
      exact absurd hm (Finset.notMem_empty i)
    refine ⟨fun i hi => (next_owes (h.good i hi) (hno i hi) h5).1, ?_, by simp, by simp only; omega⟩
    show ((announced nck nlog (s.phase + 1) : Nat) : Int) = _
    rw [← takes_card nck nlog (s.phase + 1) (by omega)]
    congr 2
    ext i
    rw [mem_owing]
    simp only [Finset.mem_filter, Finset.mem_range, owes_woken]
    constructor
    · rintro ⟨h1, h2⟩
      exact ⟨h1, (next_owes (h.good i h1) (hno i h1) h5).2.mpr ((takes_iff ..).mpr h2)⟩
    · rintro ⟨h1, h2⟩
      exact ⟨h1, (takes_iff ..).mp ((next_owes (h.good i h1) (hno i h1) h5).2.mp h2)⟩
  | @sleeps _ i p hi hw hp =>
    have hg := h.good i hi
    refine ⟨?_, ?_, h.main, h.le⟩
    · intro j hj
      show Good nck s.phase j (if j = i then _ else _)
      by_cases e : j = i
      · subst e
        rw [if_pos rfl]
        rw [hw] at hg
        simp only [Good] at hg ⊢
        exact ⟨hg.1, hg.2.1, hg.2.2.1, fun _ => Ne.symm hp⟩
      · rw [if_neg e]; exact h.good j hj
    · rw [owing_set (by rw [hw]; rfl)]; exact h.count
  | @starts _ i p hi hw hp =>
    have hg := h.good i hi
    refine ⟨?_, ?_, h.main, h.le⟩
    · intro j hj
      show Good nck s.phase j (if j = i then _ else _)
      by_cases e : j = i
      · subst e
        rw [if_pos rfl]
        rw [hw] at hg
        exact ⟨hg.1, hp.symm⟩
      · rw [if_neg e]; exact h.good j hj
    · rw [owing_set (by rw [hw]; simp [owes, hp])]; exact h.count
  | @wakes _ i p hi hw =>
    have hg := h.good i hi
    refine ⟨?_, ?_, h.main, h.le⟩
    · intro j hj
      show Good nck s.phase j (if j = i then _ else _)
      by_cases e : j = i
      · subst e
        rw [if_pos rfl]
        rw [hw] at hg
        exact ⟨hg.1, hg.2.1, hg.2.2.1, by simp⟩
      · rw [if_neg e]; exact h.good j hj
    · rw [owing_set (by rw [hw]; rfl)]; exact h.count
  | @finishes _ i p hi hw =>
    have hg := h.good i hi
    rw [hw] at hg
    obtain ⟨ht, hp⟩ := hg
    have ho : owes s.phase (after nck i p) = false := by
      unfold after
      split
      · rfl
      · split
        · simp only [owes, beq_eq_false_iff_ne]; omega
        · rfl
    have hm : i ∈ owing (nck + nlog) s := mem_owing.mpr ⟨hi, by rw [hw]; rfl⟩
    refine ⟨?_, ?_, by simp, h.le⟩
    · intro j hj
      show Good nck s.phase j (if j = i then _ else _)
      by_cases e : j = i
      · subst e
        rw [if_pos rfl]
        unfold after
        unfold Takes at ht
        split
        · next hk => rw [if_pos hk] at ht; simp only [Good, if_pos hk]; omega
        · next hk =>
          rw [if_neg hk] at ht
          split
          · simp only [Good, Takes, if_neg hk]; simp; omega
          · simp only [Good, if_neg hk]; omega
      · rw [if_neg e]; exact good_woken (h.good j hj)
    · have e : owing (nck + nlog) ⟨s.phase, s.nactive - 1, false, fun j => if j = i then after nck i p else woken (s.w j)⟩ =
          (owing (nck + nlog) s).erase i := by
        ext j
        rw [mem_owing, Finset.mem_erase, mem_owing]
        simp only
        by_cases e : j = i
        · subst e; simp [ho]
        · simp [e, owes_woken]
      rw [e, Finset.card_erase_of_mem hm]
      have hc := h.count
      have hpos := Finset.card_pos.mpr ⟨i, hm⟩
      simp only
      omega

theorem reach_inv {nck nlog : Nat} {s : S} (h : Reach nck nlog s) : Inv nck nlog s := by
  induction h with
  | start => exact start_inv nck nlog
  | step _ hs ih => exact step_inv ih hs

/-! ## Barriers -/

/-- A thread works only in a phase it takes part in, while that is the phase; all threads have then
finished all earlier phases they take part in. -/
theorem barrier {nck nlog : Nat} {s : S} (h : Reach nck nlog s) {i p : Nat} (hi : i < nck + nlog) (hw : s.w i = .work p) :
    Takes nck i p ∧ s.phase = p ∧ ∀ j < nck + nlog, ∀ q < p, Takes nck j q → Finished (s.w j) q := by
  have hg := (reach_inv h).good i hi
  rw [hw] at hg
  refine ⟨hg.1, hg.2.symm, ?_⟩
  intro j hj q hq _
  have hg' := (reach_inv h).good j hj
  cases hx : s.w j with
  | wait r a => rw [hx] at hg'; simp only [Good] at hg'; have := hg.2; simp only [Finished]; omega
  | work r => rw [hx] at hg'; simp only [Good] at hg'; have := hg.2; simp only [Finished]; omega
  | through => trivial

/-- When `recphase` returns (`rec_nactive` is 0), all threads have finished all phases up to this one
that they take part in, and no thread works. -/
theorem returns {nck nlog : Nat} {s : S} (h : Reach nck nlog s) (h0 : s.nactive = 0) {i : Nat} (hi : i < nck + nlog) :
    (∀ q ≤ s.phase, Takes nck i q → Finished (s.w i) q) ∧ ∀ p, s.w i ≠ .work p := by
  have hI := reach_inv h
  have hc := hI.count
  rw [h0] at hc
  have he : (owing (nck + nlog) s) = ∅ := Finset.card_eq_zero.mp (by omega)
  have hn : owes s.phase (s.w i) = false := by
    by_contra hn
    have hm : i ∈ owing (nck + nlog) s := mem_owing.mpr ⟨hi, by simpa using hn⟩
    rw [he] at hm
    exact absurd hm (Finset.notMem_empty i)
  have hg := hI.good i hi
  cases hx : s.w i with
  | wait r a =>
    rw [hx] at hg hn
    simp only [Good] at hg
    have : r ≠ s.phase := by simpa [owes] using hn
    exact ⟨fun q hq _ => by simp only [Finished]; omega, by simp⟩
  | work r => rw [hx] at hn; simp [owes] at hn
  | through => exact ⟨fun _ _ _ => trivial, by simp⟩

/-- The number of active threads is never negative and never more than announced. -/
theorem active_range {nck nlog : Nat} {s : S} (h : Reach nck nlog s) : 0 ≤ s.nactive ∧ s.nactive ≤ (nck + nlog : Nat) := by
  rw [(reach_inv h).count]
  have := Finset.card_filter_le (Finset.range (nck + nlog)) fun i => owes s.phase (s.w i) = true
  rw [Finset.card_range] at this
  unfold owing
  omega

/-- A thread never waits for a phase that is over. -/
theorem not_missed {nck nlog : Nat} {s : S} (h : Reach nck nlog s) {i p : Nat} {a : Bool} (hi : i < nck + nlog)
    (hw : s.w i = .wait p a) : s.phase ≤ p ∧ (a = true → s.phase ≠ p) := by
  have hg := (reach_inv h).good i hi
  rw [hw] at hg
  exact ⟨hg.2.1, fun ha e => hg.2.2.2 ha e.symm⟩

/-! ## Recovery ends -/

/-- All is over: the last phase has come and all threads are through. -/
def Over (nck nlog : Nat) (s : S) : Prop := s.phase = 5 ∧ s.nactive = 0 ∧ ∀ i < nck + nlog, s.w i = .through

/-- As long as not all is over there is a step that is no waking up without reason: no wake-up is lost
and no thread blocks another. -/
theorem progress {nck nlog : Nat} {s : S} (h : Reach nck nlog s) (ho : ¬ Over nck nlog s) :
    ∃ t, Step nck nlog false s t := by
  have hI := reach_inv h
  by_cases h0 : s.nactive = 0
  · have hm : s.mainAsleep = false := by
      cases hb : s.mainAsleep with
      | false => rfl
      | true => exact absurd h0 (hI.main hb)
    rcases Nat.lt_or_ge s.phase 5 with h5 | h5
    · exact ⟨_, .advance hm h0 h5⟩
    · exfalso
      refine ho ⟨by have := hI.le; omega, h0, ?_⟩
      intro i hi
      have hg := hI.good i hi
      have hr := (returns h h0 hi).2
      cases hx : s.w i with
      | wait r a =>
        rw [hx] at hg
        simp only [Good, Takes] at hg
        split at hg <;> omega
      | work r => exact absurd hx (hr r)
      | through => rfl
  · have : (owing (nck + nlog) s).Nonempty := by
      rw [Finset.nonempty_iff_ne_empty]
      intro he
      have hc := hI.count
      rw [he] at hc
      exact h0 (by simpa using hc)
    obtain ⟨i, hi⟩ := this
    obtain ⟨hi, hw⟩ := mem_owing.mp hi
    have hg := hI.good i hi
    cases hx : s.w i with
    | wait r a =>
      rw [hx] at hg hw
      have hr : r = s.phase := by simpa [owes] using hw
      cases a with
      | false => exact ⟨_, .starts hi hx hr.symm⟩
      | true => exact absurd hr (hg.2.2.2 rfl)
    | work r => exact ⟨_, .finishes hi hx⟩
    | through => rw [hx] at hw; simp [owes] at hw

/-- What a thread has still to do. -/
def todo (nck i : Nat) : W → Nat
  | .wait p _ => if i < nck then 2 else 2 * (5 - p)
  | .work p => if i < nck then 1 else 2 * (5 - p) - 1
  | .through => 0

def awake : W → Nat
  | .wait _ false => 1
  | _ => 0

/-- 1 for awake. -/
def one : Bool → Nat
  | true => 0
  | false => 1

/-- What is still to do, weighted so that falling asleep counts least. -/
def measure (nck nlog : Nat) (s : S) : Nat :=
  (nck + nlog + 2) * ((5 - s.phase) + ∑ i ∈ Finset.range (nck + nlog), todo nck i (s.w i)) +
  (one s.mainAsleep + ∑ i ∈ Finset.range (nck + nlog), awake (s.w i))

theorem todo_woken (nck i : Nat) (x : W) : todo nck i (woken x) = todo nck i x := by cases x <;> rfl

theorem awake_le (x : W) : awake x ≤ 1 := by unfold awake; split <;> omega

theorem sum_awake_le (n : Nat) (w : Nat → W) : ∑ i ∈ Finset.range n, awake (w i) ≤ n := by
  calc ∑ i ∈ Finset.range n, awake (w i) ≤ ∑ _i ∈ Finset.range n, 1 := Finset.sum_le_sum fun i _ => awake_le _
    _ = n := by simp

theorem sum_change {n i : Nat} (hi : i < n) (f g : Nat → Nat) (h : ∀ j < n, j ≠ i → f j = g j) :
    ∑ j ∈ Finset.range n, f j + g i = ∑ j ∈ Finset.range n, g j + f i := by
  have hi' : i ∈ Finset.range n := Finset.mem_range.mpr hi
  rw [← Finset.add_sum_erase _ f hi', ← Finset.add_sum_erase _ g hi']
  have : ∑ j ∈ (Finset.range n).erase i, f j = ∑ j ∈ (Finset.range n).erase i, g j :=
    Finset.sum_congr rfl fun j hj => h j (Finset.mem_range.mp (Finset.mem_erase.mp hj).2) (Finset.mem_erase.mp hj).1
  omega

theorem smaller {K a a' b b' : Nat} (h1 : a' + 1 ≤ a) (h2 : b' < b + K) : K * a' + b' < K * a + b := by
  have := Nat.mul_le_mul_left K h1
  rw [Nat.mul_add] at this
  omega

/-- Every step but waking up without reason brings the end nearer, so it comes if there are only
finitely many of those. -/
theorem ends {nck nlog : Nat} {s t : S} (h : Reach nck nlog s) (hs : Step nck nlog false s t) :
    measure nck nlog t < measure nck nlog s := by
  have hI := reach_inv h
  unfold measure
  cases hs with
  | mainSleeps h1 _ =>
    simp only [h1, one]
    omega
  | advance h1 _ h5 =>
    simp only [todo_woken, h1]
    have := sum_awake_le (nck + nlog) fun i => woken (s.w i)
    exact smaller (by omega) (by simp only [one]; omega)
  | @sleeps _ i p hi hw hp =>
    have e1 := sum_change hi (fun j => todo nck j ((setW s i (.wait p true)).w j)) (fun j => todo nck j (s.w j))
      (fun j _ hj => by simp [setW, hj])
    have e2 := sum_change hi (fun j => awake ((setW s i (.wait p true)).w j)) (fun j => awake (s.w j))
      (fun j _ hj => by simp [setW, hj])
    simp only [hw, setW, if_true] at e1 e2
    simp only [setW]
    have t1 : todo nck i (.wait p true) = todo nck i (.wait p false) := rfl
    have t2 : awake (.wait p true) = 0 := rfl
    have t3 : awake (.wait p false) = 1 := rfl
    have e1' : ∑ j ∈ Finset.range (nck + nlog), todo nck j (if j = i then W.wait p true else s.w j) =
      ∑ j ∈ Finset.range (nck + nlog), todo nck j (s.w j) := by omega
    rw [e1']
    omega
  | @starts _ i p hi hw hp =>
    have e1 := sum_change hi (fun j => todo nck j ((setW s i (.work p)).w j)) (fun j => todo nck j (s.w j))
      (fun j _ hj => by simp [setW, hj])
    have e2 := sum_change hi (fun j => awake ((setW s i (.work p)).w j)) (fun j => awake (s.w j))
      (fun j _ hj => by simp [setW, hj])
    have hg := hI.good i hi
    rw [hw] at hg
    have ht := hg.1
    simp only [hw, setW, if_true] at e1 e2
    simp only [setW]
    have t2 : awake (.work p) = 0 := rfl
    have t3 : awake (.wait p false) = 1 := rfl
    have t1 : todo nck i (.work p) + 1 = todo nck i (.wait p false) := by
      unfold Takes at ht
      simp only [todo]
      split
      · rfl
      · next hk => rw [if_neg hk] at ht; omega
    exact smaller (by omega) (by omega)
  | @finishes _ i p hi hw =>
    have hg := hI.good i hi
    rw [hw] at hg
    have ht := hg.1
    have e1 := sum_change hi (fun j => todo nck j (if j = i then after nck i p else woken (s.w j)))
      (fun j => todo nck j (s.w j)) (fun j _ hj => by simp [hj, todo_woken])
    have := sum_awake_le (nck + nlog) fun j => if j = i then after nck i p else woken (s.w j)
    have hlt : todo nck i (after nck i p) < todo nck i (.work p) := by
      unfold Takes at ht
      unfold after
      by_cases hk : i < nck
      · simp [hk, todo]
      · rw [if_neg hk] at ht ⊢
        split
        · simp only [todo, if_neg hk]; omega
        · simp only [todo, if_neg hk]; omega
    simp only [hw, if_true] at e1
    exact smaller (by simp only; omega) (by simp only [one]; omega)

/-- Runs of steps. -/
inductive Run (nck nlog : Nat) : Nat → S → S → Prop
  | nil (s : S) : Run nck nlog 0 s s
  | cons {k : Nat} {s t u : S} : Step nck nlog false s t → Run nck nlog k t u → Run nck nlog (k + 1) s u

/-- Runs without waking up without reason are no longer than the measure of their beginning, ... -/
theorem run_short {nck nlog k : Nat} {s t : S} (h : Reach nck nlog s) (hr : Run nck nlog k s t) :
    k + measure nck nlog t ≤ measure nck nlog s := by
  induction hr with
  | nil => omega
  | cons hs _ ih =>
    have := ends h hs
    have := ih (.step h hs)
    omega

/-- ... and from every state that can come about there is one to the end; by `progress` and `run_short`
every run that is continued as long as possible gets there. -/
theorem run_over {nck nlog : Nat} {s : S} (h : Reach nck nlog s) : ∃ k t, Run nck nlog k s t ∧ Reach nck nlog t ∧ Over nck nlog t := by
  generalize hm : measure nck nlog s = m
  induction m using Nat.strongRecOn generalizing s with
  | _ m ih =>
    by_cases ho : Over nck nlog s
    · exact ⟨0, s, .nil s, h, ho⟩
    · obtain ⟨t, hs⟩ := progress h ho
      obtain ⟨k, u, hr, hu, ho⟩ := ih _ (hm ▸ ends h hs) (.step h hs) rfl
      exact ⟨k + 1, u, .cons hs hr, hu, ho⟩

/-- A checkpoint thread works while a logger sleeps and `recover` sleeps. -/
example : ∃ s, Reach 1 1 s ∧ s.w 0 = .work 1 ∧ s.w 1 = .wait 2 true ∧ s.phase = 1 ∧ s.nactive = 1 ∧ s.mainAsleep = true := by
  have h1 : Reach 1 1 _ := .step .start (.advance rfl rfl (by decide))
  have h2 := Reach.step h1 (.starts (i := 0) (p := 1) (by decide) (by decide) rfl)
  have h3 := Reach.step h2 (.sleeps (i := 1) (p := 2) (by decide) (by decide) (by decide))
  have h4 := Reach.step h3 (.mainSleeps rfl (by decide))
  exact ⟨_, h4, by decide, by decide, rfl, rfl, rfl⟩

end Verif.Props.C80
