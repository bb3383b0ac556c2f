import Verif.Json.Loop

/-!
# The parser on a text in chunks
-/
namespace Verif.Json

theorem bad_finish {p : P} (h : Bad p) : (finish p).st ≠ .final := by
  intro hf
  unfold finish at hf
  cases hp : p.part with
  | no => rw [hp] at hf; exact h [] hf
  | str n => rw [hp] at hf; exact h [] hf
  | prim n => rw [hp] at hf; exact h [] hf
  | num n =>
    rw [hp] at hf
    dsimp only at hf
    by_cases ho : p.st.over = true
    · rw [if_pos ho] at hf; exact h [] hf
    · rw [if_neg ho] at hf
      refine h [32] ?_
      have hn : numStep n 32 = none := by
        unfold numStep
        rw [if_neg (by decide), if_neg (by decide), if_neg (by decide), if_neg (by decide)]
      have hq : feed p 32 = (p.endNumber p.str n, false) := by
        unfold feed
        rw [hp]
        dsimp only
        rw [hn]
        dsimp only
        rw [if_pos (by rw [hf]; rfl)]
      rw [feedAll, if_neg ho, hq]
      exact hf

/-- The outcome is that of the machine, or both fail. -/
def Out (p : P) (bs : Bytes) (x : P × Bytes) : Prop :=
  (x.1.st = .ub ∧ (finish (feedAll p bs).1).st ≠ .final) ∨ x = finish2 (feedAll p bs) ∨
    (x.1.st = .error ∧ (finish (feedAll p bs).1).st ≠ .final)

theorem consume_out {p : P} (ho : p.Ok) (bs : Bytes) : Out p bs (p.consume bs true) := by
  rw [consume_complete]
  rcases consume_ref ho bs with ⟨h1, _, h2⟩ | ⟨h1, h2⟩ | ⟨h1, h2⟩
  · refine Or.inl ⟨?_, h2⟩
    have : (finish (p.consume bs false).1).st = (p.consume bs false).1.st := by
      unfold finish; split
      · rw [if_pos (by rw [h1]; rfl)]
      · rfl
    exact this.trans h1
  · rw [h1]; exact Or.inr (Or.inl rfl)
  · refine Or.inr (Or.inr ⟨?_, bad_finish h2⟩)
    have : (finish (p.consume bs false).1).st = (p.consume bs false).1.st := by
      unfold finish; split
      · rw [if_pos (by rw [h1]; rfl)]
      · rfl
    exact this.trans h1

theorem finish_over {p : P} (h : p.st.over = true) : finish p = p := by
  unfold finish; split
  · rw [if_pos h]
  · rfl

theorem run_out : ∀ (cs : List Bytes) (p : P), p.Ok → (p.run cs).1.st = .ub ∨ Out p cs.flatten (p.run cs) := by
  intro cs
  induction cs with
  | nil => intro p ho; exact Or.inr (consume_out ho [])
  | cons c cs ih =>
    intro p ho
    have hx := consume_ref ho c
    rw [P.run]
    rw [List.flatten_cons]
    unfold Out
    rw [feedAll_append]
    rcases hx with ⟨h1, _, h2⟩ | ⟨h1, h2⟩ | ⟨h1, h2⟩
    · left; rw [if_pos (by rw [h1]; rfl)]; exact h1
    · rw [← h1]
      by_cases hov : (p.consume c false).1.st.over = true
      · rw [if_pos hov, if_pos hov]
        right; right; left
        unfold finish2
        rw [finish_over hov]
      · rw [if_neg hov, if_neg hov]
        exact ih _ h2
    · right; right; right
      rw [if_pos (by rw [h1]; rfl)]
      refine ⟨h1, ?_⟩
      by_cases hov : (feedAll p c).1.st.over = true
      · rw [if_pos hov]; exact bad_finish h2
      · rw [if_neg hov]; exact bad_finish (h2.feedAll _)

theorem ok_start : ({} : P).Ok := ok_no rfl

/-- However the text is cut, the outcome is the same. -/
theorem run_eq {cs : List Bytes} (hu : (P.run {} cs).1.st ≠ .ub) :
    ((P.run {} cs).1.st = .final ↔ (P.consume {} cs.flatten true).1.st = .final) ∧
    ((P.run {} cs).1.st = .final → P.run {} cs = P.consume {} cs.flatten true) := by
  have h1 := (run_out cs {} ok_start).resolve_left hu
  have h2 := consume_out ok_start cs.flatten
  generalize hx : P.run {} cs = x at *
  generalize hy : P.consume {} cs.flatten true = y at *
  generalize hz : finish2 (feedAll {} cs.flatten) = z at *
  have ez : (finish (feedAll {} cs.flatten).1).st = z.1.st := by rw [← hz]; rfl
  unfold Out at h1 h2
  rw [ez, hz] at h1 h2
  rcases h1 with ⟨h, _⟩ | h1 | ⟨h1, h1'⟩
  · exact absurd h hu
  · rw [h1]
    rcases h2 with ⟨h2, h2'⟩ | h2 | ⟨h2, h2'⟩
    · exact ⟨⟨fun h => absurd h h2', fun h => by rw [h2] at h; cases h⟩, fun h => absurd h h2'⟩
    · rw [h2]; exact ⟨Iff.rfl, fun _ => rfl⟩
    · exact ⟨⟨fun h => absurd h h2', fun h => by rw [h2] at h; cases h⟩, fun h => absurd h h2'⟩
  · have e : x.1.st ≠ .final := by rw [h1]; exact nofun
    refine ⟨⟨fun h => absurd h e, fun h => ?_⟩, fun h => absurd h e⟩
    rcases h2 with ⟨h2, h2'⟩ | h2 | ⟨h2, h2'⟩
    · rw [h2] at h; cases h
    · rw [h2] at h; exact absurd h h1'
    · rw [h2] at h; cases h

theorem not_lead_nil : ¬ Lead [] := fun ⟨_, h, _⟩ => by cases h

/-- If no chunk ends inside a character of three or four bytes after its first byte, the parser does what the machine does. -/
theorem run_lead : ∀ (cs : List Bytes) (p : P), p.Ok → (∀ c ∈ cs, ¬ Lead c) → p.run cs = finish2 (feedAll p cs.flatten) ∨
    ((p.run cs).1.st = .error ∧ (finish (feedAll p cs.flatten).1).st ≠ .final) := by
  intro cs
  induction cs with
  | nil =>
    intro p ho _
    rw [P.run, consume_complete]
    rcases consume_ref ho [] with ⟨_, h, _⟩ | ⟨h1, _⟩ | ⟨h1, h2⟩
    · exact absurd h not_lead_nil
    · left; rw [h1]; rfl
    · right
      refine ⟨?_, bad_finish h2⟩
      show (finish (p.consume [] false).1).st = .error
      rw [finish_over (by rw [h1]; rfl)]; exact h1
  | cons c cs ih =>
    intro p ho hl
    rw [P.run]
    rw [List.flatten_cons, feedAll_append]
    rcases consume_ref ho c with ⟨_, h, _⟩ | ⟨h1, h2⟩ | ⟨h1, h2⟩
    · exact absurd h (hl c (by simp))
    · rw [← h1]
      by_cases hov : (p.consume c false).1.st.over = true
      · rw [if_pos hov, if_pos hov]
        left
        unfold finish2
        rw [finish_over hov]
      · rw [if_neg hov, if_neg hov]
        exact ih _ h2 fun c hc => hl c (by simp [hc])
    · right
      rw [if_pos (by rw [h1]; rfl)]
      refine ⟨h1, ?_⟩
      by_cases hov : (feedAll p c).1.st.over = true
      · rw [if_pos hov]; exact bad_finish h2
      · rw [if_neg hov]; exact bad_finish (h2.feedAll _)

end Verif.Json
