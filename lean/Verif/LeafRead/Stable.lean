import Verif.LeafRead.Model
import Verif.Seqlock
import Verif.Props.C10

/-!
# The version word along a run of a leaf

If the version is clean at `a` and `has_changed` says no at `b`, with fewer than 2^19 releases of the lock in between, the
version was clean all the time in between.
-/
namespace Verif.LeafRead

open Verif.NodeVersion Verif.Props

variable {V : Type}

theorem Init.step {s s' : State V} (h : Init s) (hs : Step s s') : Init s' := by
  have dirty_mark : ∀ (m : Mark) (v : Ver), isDirty v = true → isDirty (m.apply v) = true := by
    intro m v hd
    rw [isDirty_eq] at hd ⊢
    rw [C10.mark_bit1, C10.mark_bit2]
    rcases Bool.or_eq_true_iff.mp hd with h | h <;> simp [h]
  obtain ⟨h1, h2, h3⟩ := h
  cases hs with
  | lock hw hl => exact ⟨by simp, by simp, h3⟩
  | mark m hw => exact ⟨h1, fun p hp => (h2 p hp).imp id (dirty_mark m _), h3⟩
  | mode r hw hd => exact ⟨h1, fun p hp => Or.inr hd, h3⟩
  | begin p hw hm hp =>
    refine ⟨fun q hq => ?_, fun q _ => Or.inl hm, h3⟩
    cases hq; exact hp
  | ikey p x hw => exact ⟨h1, h2, h3⟩
  | lenx p x hw => exact ⟨h1, h2, h3⟩
  | fill p x hw => exact ⟨h1, h2, h3⟩
  | suffix p b hw => exact ⟨h1, h2, h3⟩
  | container p b new hw hn => exact ⟨h1, h2, Nat.lt_succ_self _⟩
  | publish p i hw => exact ⟨by simp, by simp, h3⟩
  | abandon p hw => exact ⟨by simp, by simp, h3⟩
  | replace p x hw hp => exact ⟨h1, h2, h3⟩
  | remove p hw hm => exact ⟨by simp [hw], by simp [hw], h3⟩
  | wild m w n hw hd hf hp hn => exact ⟨hp, fun p _ => Or.inr hd, hn⟩
  | unlock hw => exact ⟨by simp, by simp, h3⟩

theorem Run.init_at (r : Run V) (t : Nat) : Init (r.at_ t) := by
  induction t with
  | zero => exact r.init
  | succ t ih =>
    rcases r.step t with h | h
    · rw [h]; exact ih
    · exact ih.step h

/-- What a step does to the version word. -/
theorem step_version {s s' : State V} (hs : Step s s') :
    (counter s'.v = counter s.v ∧ s'.sessions = s.sessions ∧ (isDirty s.v = true → isDirty s'.v = true)) ∨
    (s'.v = unlockWord s.v ∧ s'.sessions = s.sessions + 1) := by
  cases hs with
  | lock hw hl =>
    refine Or.inl ⟨C10.lockWord_counter _, rfl, fun hd => ?_⟩
    rw [isDirty_eq] at hd ⊢
    rw [C10.lockWord_bit, C10.lockWord_bit]; simpa using hd
  | mark m hw =>
    refine Or.inl ⟨C10.mark_counter m _, rfl, fun hd => ?_⟩
    rw [isDirty_eq] at hd ⊢
    rw [C10.mark_bit1, C10.mark_bit2]
    rcases Bool.or_eq_true_iff.mp hd with h | h <;> simp [h]
  | unlock hw => exact Or.inr ⟨rfl, rfl⟩
  | _ => exact Or.inl ⟨rfl, rfl, id⟩

theorem sessions_step {s s' : State V} (hs : Step s s') : s.sessions ≤ s'.sessions := by
  rcases step_version hs with ⟨-, h, -⟩ | ⟨-, h⟩ <;> omega

theorem unlock_clean (x : Ver) : isDirty (unlockWord x) = false := by
  rw [isDirty_eq, C10.unlock_low _ 1 (by omega), C10.unlock_low _ 2 (by omega)]; rfl

theorem Run.sessions_mono (r : Run V) {a b : Nat} (h : a ≤ b) : (r.at_ a).sessions ≤ (r.at_ b).sessions := by
  induction b with
  | zero => obtain rfl : a = 0 := by omega
            exact Nat.le_refl _
  | succ b ih =>
    rcases Nat.lt_or_ge a (b + 1) with h' | h'
    · refine Nat.le_trans (ih (by omega)) ?_
      rcases r.step b with h | h
      · rw [h]; exact Nat.le_refl _
      · exact sessions_step h
    · obtain rfl : a = b + 1 := by omega
      exact Nat.le_refl _

/-- The number of times the mark was cleared before time `t`. -/
def Run.done (r : Run V) : Nat → Nat
  | 0 => 0
  | t + 1 => r.done t + if isDirty (r.at_ t).v = true ∧ isDirty (r.at_ (t + 1)).v = false then 1 else 0

def Run.seqlock (r : Run V) : Seqlock.Run Unit where
  dirty t := isDirty (r.at_ t).v = true
  done := r.done
  mem _ := ()
  clean t ht := ⟨rfl, by simp only [Run.done]; rw [if_neg (fun h => ht h.1)]; rfl⟩
  clear t ht ht' := by
    simp only [Run.done]; rw [if_pos ⟨ht, by simpa using ht'⟩]
  keep t ht ht' := by
    simp only [Run.done]; rw [if_neg (fun h => by rw [ht'] at h; exact absurd h.2 (by simp))]; rfl

/-- The change counter of the version word advances by at most 64 for each release of the lock, and by at least one if the
mark was cleared. -/
theorem Run.advance (r : Run V) (a : Nat) : ∀ n, ∃ d,
    counter (r.at_ (a + n)).v = (counter (r.at_ a).v + d) % 2 ^ 25 ∧
    d ≤ 64 * ((r.at_ (a + n)).sessions - (r.at_ a).sessions) ∧ r.done (a + n) - r.done a ≤ d := by
  intro n
  induction n with
  | zero =>
    refine ⟨0, ?_, by simp, by simp⟩
    have := counter_lt (r.at_ a).v
    simp only [Nat.add_zero]; omega
  | succ n ih =>
    obtain ⟨d, h1, h2, h3⟩ := ih
    have hm := r.sessions_mono (show a ≤ a + n by omega)
    have hdm := r.seqlock.mono (show a ≤ a + n by omega)
    change r.done a ≤ r.done (a + n) at hdm
    have hd : r.done (a + (n + 1)) = r.done (a + n) +
      if isDirty (r.at_ (a + n)).v = true ∧ isDirty (r.at_ (a + (n + 1))).v = false then 1 else 0 := rfl
    rcases r.step (a + n) with h | h
    · have h' : r.at_ (a + (n + 1)) = r.at_ (a + n) := h
      refine ⟨d, by rw [h']; exact h1, by rw [h']; exact h2, ?_⟩
      rw [hd, h', if_neg (fun x => by rw [x.1] at x; exact absurd x.2 (by simp))]
      omega
    · change Step (r.at_ (a + n)) (r.at_ (a + (n + 1))) at h
      rcases step_version h with ⟨hc, hs, hx⟩ | ⟨hv, hs⟩
      · refine ⟨d, by rw [hc]; exact h1, by rw [hs]; exact h2, ?_⟩
        rw [hd, if_neg (fun x => by rw [hx x.1] at x; exact absurd x.2 (by simp))]
        omega
      · have hu := C10.unlock_counter (r.at_ (a + n)).v
        rw [← hv] at hu
        have hdx := isDirty_eq (r.at_ (a + n)).v
        have hcl := counter_lt (r.at_ (a + n)).v
        rw [h1] at hu hcl
        rw [hd, hs]
        by_cases hb2 : bit (r.at_ (a + n)).v 2 = true
        · rw [if_pos hb2] at hu
          rw [hu]
          refine ⟨d + (64 - (counter (r.at_ a).v + d) % 2 ^ 25 % 64), ?_, ?_, ?_⟩
          · omega
          · omega
          · split <;> omega
        · rw [if_neg hb2] at hu
          by_cases hb1 : bit (r.at_ (a + n)).v 1 = true
          · rw [if_pos hb1] at hu
            rw [hu]
            refine ⟨d + 1, by omega, by omega, ?_⟩
            split <;> omega
          · rw [if_neg hb1] at hu
            rw [hu]
            refine ⟨d, rfl, by omega, ?_⟩
            rw [if_neg]
            · omega
            · rintro ⟨x, -⟩
              rw [hdx] at x
              simp only [Bool.not_eq_true] at hb1 hb2
              rw [hb1, hb2] at x
              exact absurd x (by simp)

/-- The version was clean all the time between a stable read and a check that found it unchanged. -/
theorem Run.clean_between (r : Run V) {a b : Nat} (hab : a ≤ b) (ha : isDirty (r.at_ a).v = false)
    (hb : hasChanged (r.at_ b).v (r.at_ a).v = false)
    (hn : (r.at_ b).sessions < (r.at_ a).sessions + 2 ^ 19) :
    ∀ t, a ≤ t → t ≤ b → isDirty (r.at_ t).v = false := by
  have hbit : ∀ i, 1 ≤ i → i < 32 → bit (r.at_ b).v i = bit (r.at_ a).v i := by
    intro i h1 h2
    apply Classical.byContradiction
    intro hne
    have := (C10.hasChanged_iff _ _).mpr ⟨i, h1, h2, hne⟩
    rw [hb] at this; cases this
  have hbd : isDirty (r.at_ b).v = false := by
    rw [isDirty_eq] at ha ⊢
    rw [hbit 1 (by omega) (by omega), hbit 2 (by omega) (by omega)]; exact ha
  have hc : counter (r.at_ b).v = counter (r.at_ a).v :=
    counter_eq_of_bits fun i h1 h2 => hbit i (by omega) (by omega)
  obtain ⟨d, h1, h2, h3⟩ := r.advance a (b - a)
  rw [show a + (b - a) = b by omega] at h1 h2 h3
  have hm := r.sessions_mono hab
  have hcl := counter_lt (r.at_ a).v
  have hd : d = 0 := by omega
  have hdm := r.seqlock.mono hab
  change r.done a ≤ r.done b at hdm
  intro t h4 h5
  have := (r.seqlock.stable (a := a) (b := b) (by show ¬ (isDirty _ = true); simp [ha])
    (by show ¬ (isDirty _ = true); simp [hbd]) (by show r.done a = r.done b; omega) h4 h5).1
  change ¬ (isDirty _ = true) at this
  simpa using this

end Verif.LeafRead
