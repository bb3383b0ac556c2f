/-!
# Version-validated reads

The argument shared by the node version word (/repo/nodeversion.hh) and the row version
(/repo/value_versioned_array.hh:21-63): memory changes only while the version is marked
dirty, and clearing the mark advances a counter.
-/
namespace Verif.Seqlock

/-- A run of a versioned object: `dirty`, `done` (the number of completed changes) and `mem` at
each time. -/
structure Run (M : Type) where
  dirty : Nat → Prop
  done : Nat → Nat
  mem : Nat → M
  /-- a step that does not begin in a dirty state changes nothing but the mark -/
  clean : ∀ n, ¬ dirty n → mem (n + 1) = mem n ∧ done (n + 1) = done n
  /-- clearing the mark counts one change -/
  clear : ∀ n, dirty n → ¬ dirty (n + 1) → done (n + 1) = done n + 1
  /-- the count does not change otherwise -/
  keep : ∀ n, dirty n → dirty (n + 1) → done (n + 1) = done n

variable {M : Type} (r : Run M)

theorem Run.mono_step (n : Nat) : r.done n ≤ r.done (n + 1) := by
  by_cases h : r.dirty n
  · by_cases h' : r.dirty (n + 1)
    · exact Nat.le_of_eq (r.keep n h h').symm
    · have := r.clear n h h'; omega
  · exact Nat.le_of_eq (r.clean n h).2.symm

theorem Run.mono {a b : Nat} (h : a ≤ b) : r.done a ≤ r.done b := by
  induction b with
  | zero => have : a = 0 := by omega
            subst this; exact Nat.le_refl _
  | succ b ih =>
    rcases Nat.lt_or_ge a (b + 1) with h' | h'
    · exact Nat.le_trans (ih (by omega)) (r.mono_step b)
    · have : a = b + 1 := by omega
      subst this; exact Nat.le_refl _

/-- A dirty state before a clean one has its change counted in between. -/
theorem Run.counted {t : Nat} (ht : r.dirty t) : ∀ {b : Nat}, t ≤ b → ¬ r.dirty b → r.done t < r.done b := by
  intro b
  induction b with
  | zero => intro h hb
            have : t = 0 := by omega
            subst this; exact absurd ht hb
  | succ b ih =>
    intro h hb
    rcases Nat.lt_or_ge t (b + 1) with h' | h'
    · by_cases hd : r.dirty b
      · have h1 := r.clear b hd hb
        have h2 := r.mono (show t ≤ b by omega)
        omega
      · exact Nat.lt_of_lt_of_le (ih (by omega) hd) (r.mono_step b)
    · have : t = b + 1 := by omega
      subst this; exact absurd ht hb

/-- If the state is clean at `a` and at `b` and no change completed in between, memory did not
change at all in between. -/
theorem Run.stable {a b : Nat} (ha : ¬ r.dirty a) (hb : ¬ r.dirty b) (hd : r.done a = r.done b) :
    ∀ {t : Nat}, a ≤ t → t ≤ b → ¬ r.dirty t ∧ r.mem t = r.mem a := by
  intro t
  induction t with
  | zero => intro h1 h2
            have : a = 0 := by omega
            subst this; exact ⟨ha, rfl⟩
  | succ t ih =>
    intro h1 h2
    rcases Nat.lt_or_ge a (t + 1) with h' | h'
    · obtain ⟨i1, i2⟩ := ih (by omega) (by omega)
      refine ⟨fun hdt => ?_, ?_⟩
      · have h3 := r.counted hdt h2 hb
        have h4 := r.mono (show a ≤ t + 1 by omega)
        omega
      · rw [(r.clean t i1).1, i2]
    · have : a = t + 1 := by omega
      subst this; exact ⟨ha, rfl⟩

end Verif.Seqlock
