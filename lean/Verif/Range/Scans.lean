import Verif.Range.Reverse

/-!
# What scans visit
-/
namespace Verif.Range

variable {V : Type}

/-- Position `p` comes before `q` in the direction of the scan. -/
def Before (fwd : Bool) (p q : Nat) : Prop := if fwd then p < q else q < p

section
variable {h : Hist V} {fwd : Bool} {b : Nat} {want : V → Bool} {a t : Nat} {s : St V}

theorem Hist.Sound.visits (hl : h.Sound) (hx : Scan h fwd b want a t s) : Visits h fwd b want a t s.ka s.out := by
  cases fwd with
  | true => exact (Fwd.scan hl hx).1
  | false => exact (Rev.scan hl hx).1

/-- The entries are visited in order, and none twice. -/
theorem Hist.Sound.ordered (hl : h.Sound) (hx : Scan h fwd b want a t s) : (s.out.reverse.map Prod.fst).Pairwise (Before fwd) := by
  rw [List.map_reverse, List.pairwise_reverse]
  refine (hl.visits hx).ord.imp fun {p q} hpq => ?_
  unfold Before
  cases fwd <;> simpa using hpq

/-- What is visited is at the place where the scan starts, and to be visited, or after that. -/
theorem Hist.Sound.from_start (hl : h.Sound) (hx : Scan h fwd b want a t s) {p : Nat} {v : V} (hp : (p, v) ∈ s.out) :
    Before fwd b p ∨ p = b ∧ want v = true := by
  rcases ((hl.visits hx).val p v hp).1 with h1 | h1
  · left; unfold Before; cases fwd <;> simpa using h1
  · exact Or.inr h1

/-- Every entry that is visited was in the layer, with that value, at some time during the scan. -/
theorem Hist.Sound.genuine (hl : h.Sound) (hx : Scan h fwd b want a t s) {p : Nat} {v : V} (hp : (p, v) ∈ s.out) :
    ∃ u, a ≤ u ∧ u ≤ t ∧ entry (h.m u) p = some v := ((hl.visits hx).val p v hp).2

theorem before_iff (p q : Nat) (v : V) : Wanted fwd b want p v ↔ Before fwd b p ∨ p = b ∧ want v = true := by
  unfold Wanted Before
  cases fwd <;> simp

/-- An entry that is in the layer at all times of a scan that has ended, and is to be visited, is visited.  For each entry
that is not, there was a time at which it was not there. -/
theorem Hist.Sound.complete (hl : h.Sound) (hx : Scan h fwd b want a t s) (hf : s.pc = .fin) {p : Nat} (hp : p < 16 * 2 ^ 64)
    (hw : ∀ u, a ≤ u → u ≤ t → ∃ v, entry (h.m u) p = some v ∧ (Before fwd b p ∨ p = b ∧ want v = true)) :
    ∃ v, (p, v) ∈ s.out := by
  have hc : Cov h fwd b want a t s.out p := by
    cases fwd with
    | true =>
      have := (Fwd.scan hl hx).2.2.2
      rw [hf] at this
      exact this.2 p hp
    | false =>
      have := (Rev.scan hl hx).2.2.2.2
      rw [hf] at this
      exact this p
  rcases hc with h1 | ⟨u, h1, h2, h3⟩
  · exact h1
  · obtain ⟨v, h4, h5⟩ := hw u h1 h2
    exact absurd ((before_iff p p v).2 h5) (h3 v h4)

/-- If the scan is stopped, that is true of what comes before the entry visited last. -/
theorem Hist.Sound.stopped (hl : h.Sound) (hx : Scan h fwd b want a t s) {p q : Nat} {v : V} (hq : (q, v) ∈ s.out) (hp : Before fwd p q)
    (hw : ∀ u, a ≤ u → u ≤ t → ∃ v, entry (h.m u) p = some v ∧ (Before fwd b p ∨ p = b ∧ want v = true)) :
    ∃ v, (p, v) ∈ s.out := by
  have hka := (hl.visits hx).ka q v hq
  have hc : Cov h fwd b want a t s.out p := by
    obtain ⟨pc, ka, ub, out⟩ := s
    cases fwd with
    | true =>
      simp only [Before, if_true] at hp hka
      have hlow := (Fwd.scan hl hx).2.2.2
      have hpk : p ≤ ka := by omega
      cases pc with
      | walk first =>
        cases first with
        | true => obtain ⟨_, h2⟩ := hlow; dsimp only at h2 hq; rw [h2] at hq; cases hq
        | false => exact hlow p hpk
      | node first n vi vs =>
        cases first with
        | true => obtain ⟨_, h2, _⟩ := hlow; dsimp only at h2 hq; rw [h2] at hq; cases hq
        | false => exact hlow.1 p hpk
      | init n vi vs u K => obtain ⟨_, h2, _⟩ := hlow; dsimp only at h2 hq; rw [h2] at hq; cases hq
      | check n vi vs d => exact hlow.elim
      | _ => exact hlow.1 p hpk
    | false =>
      simp only [Before, Bool.false_eq_true, if_false] at hp hka
      obtain ⟨_, _, _, hub, hlow⟩ := Rev.scan hl hx
      dsimp only at hub hka hq
      have hfrom : ∀ c, From h b want a t ⟨pc, ka, ub, out⟩ c → Cov h false b want a t out p := by
        intro c hc
        rcases hc.2 with h1 | h1
        · exact hc.1 p (by dsimp only at h1; omega)
        · rw [(hub h1.1).1] at hq; cases hq
      cases pc with
      | walk first =>
        cases first with
        | true => obtain ⟨_, h2, _⟩ := hlow; dsimp only at h2; rw [h2] at hq; cases hq
        | false => obtain ⟨c, hc⟩ := hlow; exact hfrom c hc
      | node first n vi vs =>
        cases first with
        | true => obtain ⟨_, h2, _⟩ := hlow; dsimp only at h2; rw [h2] at hq; cases hq
        | false => obtain ⟨c, hc, _⟩ := hlow; exact hfrom c hc
      | init n vi vs u K => obtain ⟨_, h2, _⟩ := hlow; dsimp only at h2; rw [h2] at hq; cases hq
      | scan n vi vs u K ki => obtain ⟨c, hc, _⟩ := hlow; exact hfrom c hc
      | next n => exact hlow.2.2 p (by have := hlow.2.1; dsimp only at this; omega)
      | move n => obtain ⟨c, hc, _⟩ := hlow; exact hfrom c hc
      | check n vi vs d => obtain ⟨c, hc, _⟩ := hlow; exact hfrom c hc
      | fin => exact hlow p
  rcases hc with h1 | ⟨u, h1, h2, h3⟩
  · exact h1
  · obtain ⟨v, h4, h5⟩ := hw u h1 h2
    exact absurd ((before_iff p p v).2 h5) (h3 v h4)

end

end Verif.Range
