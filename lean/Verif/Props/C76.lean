import Verif.Misc.Model

/-!
# C76: Time stamps order and subtract like times
-/
namespace Verif.Props.C76
open Verif.Misc

/-- A reading of a clock that has not passed 2^32 seconds. -/
def Ok (t : Time) : Prop := t.sec < 2 ^ 32 ∧ t.usec < 1000000

/-- Microseconds since the beginning. -/
def micros (t : Time) : Nat := t.sec * 1000000 + t.usec

theorem timestamp_eq {t : Time} (h : Ok t) : timestamp t = t.sec * 2 ^ 32 + t.usec := by
  obtain ⟨h1, h2⟩ := h
  unfold timestamp
  rw [Nat.shiftLeft_eq, Nat.mod_eq_of_lt (a := t.sec * 2 ^ 32) (by omega),
    Nat.mod_eq_of_lt (a := t.usec) (by omega), Nat.mul_comm, ← Nat.two_pow_add_eq_or_of_lt (by omega)]

/-- The parts of a time stamp are the seconds and microseconds. -/
theorem parts {t : Time} (h : Ok t) :
    highPart (timestamp t) = t.sec ∧ lowPart (timestamp t) = t.usec ∧ timestamp t < 2 ^ 64 := by
  rw [timestamp_eq h]
  obtain ⟨h1, h2⟩ := h
  unfold highPart lowPart
  rw [Nat.shiftRight_eq_div_pow]
  omega

/-- The parts of any word make up the word. -/
theorem parts_any (t : Nat) : highPart t * 2 ^ 32 + lowPart t = t ∧ lowPart t < 2 ^ 32 := by
  unfold highPart lowPart
  rw [Nat.shiftRight_eq_div_pow]
  omega

example : highPart 30064771079 = 7 ∧ lowPart 30064771079 = 7 := by decide +kernel

/-- Time stamps are ordered like the times. -/
theorem order {t u : Time} (ht : Ok t) (hu : Ok u) : timestamp t < timestamp u ↔ micros t < micros u := by
  rw [timestamp_eq ht, timestamp_eq hu]
  obtain ⟨h1, h2⟩ := ht
  obtain ⟨h3, h4⟩ := hu
  unfold micros
  omega

/-- The difference of time stamps is the time stamp of the time between, if the first is not
earlier. -/
theorem difference {t u : Time} (ht : Ok t) (hu : Ok u) (h : micros u ≤ micros t) :
    ∃ d, Ok d ∧ micros d + micros u = micros t ∧ timestampSub (timestamp t) (timestamp u) = timestamp d := by
  have hd : Ok ⟨(micros t - micros u) / 1000000, (micros t - micros u) % 1000000⟩ := by
    obtain ⟨h1, h2⟩ := ht
    unfold micros Ok at *
    simp only
    omega
  refine ⟨_, hd, ?_, ?_⟩
  · unfold micros at *; simp only; omega
  · rw [timestamp_eq hd, timestamp_eq ht, timestamp_eq hu]
    obtain ⟨h1, h2⟩ := ht
    obtain ⟨h3, h4⟩ := hu
    unfold micros at *
    simp only
    unfold timestampSub sub64 lowPart
    simp only
    split <;> omega

example : Ok ⟨5, 100⟩ ∧ Ok ⟨3, 999999⟩ ∧
    timestampSub (timestamp ⟨5, 100⟩) (timestamp ⟨3, 999999⟩) = timestamp ⟨1, 101⟩ := by
  exact ⟨⟨by decide, by decide⟩, ⟨by decide, by decide⟩, by decide +kernel⟩

/-- The other way round the seconds are those of the difference modulo 2^32, that is, huge. -/
theorem difference_backwards : timestampSub (timestamp ⟨3, 0⟩) (timestamp ⟨5, 0⟩) =
    timestamp ⟨2 ^ 32 - 2, 0⟩ := by decide +kernel

/-- Epochs made from time stamps never go back as long as the clock does not, and go on within
65.536 milliseconds. -/
theorem epochs {t u : Time} (ht : Ok t) (hu : Ok u) :
    (micros t ≤ micros u → epochOf (timestamp t) ≤ epochOf (timestamp u)) ∧
    (micros t + 65536 ≤ micros u → epochOf (timestamp t) < epochOf (timestamp u)) := by
  rw [timestamp_eq ht, timestamp_eq hu]
  obtain ⟨h1, h2⟩ := ht
  obtain ⟨h3, h4⟩ := hu
  unfold micros epochOf
  rw [Nat.shiftRight_eq_div_pow, Nat.shiftRight_eq_div_pow]
  constructor <;> intro h <;> omega

/-- But they may stay the same for as long. -/
theorem epochs_coarse : epochOf (timestamp ⟨7, 0⟩) = epochOf (timestamp ⟨7, 65535⟩) := by decide +kernel

end Verif.Props.C76
