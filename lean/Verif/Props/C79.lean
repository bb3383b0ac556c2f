import Verif.Accum.Lines

/-!
# C79: Breaking text into lines keeps the words and breaks as late as possible
-/
namespace Verif.Props.C79
open Verif.Accum

/-- White space in the C locale: tab, newline, vertical tab, form feed, carriage return, space. -/
def Blank (b : Nat) : Prop := b ∈ [9, 10, 11, 12, 13, 32]

theorem blank_iff (b : Nat) : isBlank b = true ↔ Blank b := by
  simp [isBlank, Blank]
  omega

/-- A line that is short enough: at most `lim` bytes, or `lim + 1` with white space at the end, or a
single word that could not be broken, perhaps with white space before and one after. -/
def Fits (lim : Int) (l : List Nat) : Prop :=
  (l.length : Int) ≤ lim ∨ (∃ b c, l = b ++ [c] ∧ Blank c ∧ (b.length : Int) ≤ lim) ∨
  ∃ sp w t, l = sp ++ w ++ t ∧ (∀ b ∈ sp, Blank b) ∧ (∀ b ∈ w, ¬ Blank b) ∧ (∀ b ∈ t, Blank b) ∧ t.length ≤ 1

/-- `Broken lim text lines`: the lines, none empty, follow each other in the text with only white space
between them, white space at the end of every line but the last, and every line is as long as it can
be: with what follows up to the end of the next word it would be longer than `lim`. -/
inductive Broken (lim : Int) : List Nat → List (List Nat) → Prop
  | nil : Broken lim [] []
  | one {l} : l ≠ [] → Fits lim l → Broken lim l [l]
  | last {l g} : Fits lim l → (∃ b c, l = b ++ [c] ∧ Blank c) → (∀ b ∈ g, Blank b) →
      lim < (l.length + g.length : Nat) → Broken lim (l ++ g) [l]
  | more {l g w t ls} : Fits lim l → (∃ b c, l = b ++ [c] ∧ Blank c) → (∀ b ∈ g, Blank b) →
      (∀ b ∈ w, ¬ Blank b) → w ≠ [] → (t = [] ∨ ∃ c r, t = c :: r ∧ Blank c) →
      lim < (l.length + g.length + w.length : Nat) → Broken lim (w ++ t) ls →
      Broken lim (l ++ g ++ (w ++ t)) (l :: ls)

theorem takeWhile_all {p : Nat → Bool} (l : List Nat) : ∀ b ∈ l.takeWhile p, p b = true := by
  intro b hb
  induction l with
  | nil => simp at hb
  | cons a l ih =>
    rw [List.takeWhile_cons] at hb
    split at hb
    · next h => rcases List.mem_cons.mp hb with rfl | hb
                · exact h
                · exact ih hb
    · simp at hb

theorem dropWhile_head {p : Nat → Bool} {l : List Nat} {c : Nat} {r : List Nat} (h : l.dropWhile p = c :: r) :
    p c = false := by
  induction l with
  | nil => simp at h
  | cons a l ih =>
    rw [List.dropWhile_cons] at h
    split at h
    · exact ih h
    · next hp => simp at h; rw [← h.1]; simpa using hp

/-- What holds of `cur` when the loop begins a turn. -/
def Head (lim : Int) (cur : List Nat) : Prop :=
  cur = [] ∨ ∃ b c, cur = b ++ [c] ∧ Blank c ∧
    ((b.length : Int) ≤ lim ∨ ∃ sp w, b = sp ++ w ∧ (∀ b ∈ sp, Blank b) ∧ (∀ b ∈ w, ¬ Blank b))

theorem Head.fits {lim : Int} {cur : List Nat} (h : Head lim cur) (hc : cur ≠ []) :
    Fits lim cur ∧ ∃ b c, cur = b ++ [c] ∧ Blank c := by
  rcases h with h | ⟨b, c, e, hb, h⟩
  · exact absurd h hc
  · refine ⟨?_, b, c, e, hb⟩
    rcases h with h | ⟨sp, w, e', h1, h2⟩
    · exact Or.inr (Or.inl ⟨b, c, e, hb, h⟩)
    · exact Or.inr (Or.inr ⟨sp, w, [c], by rw [e, e'], h1, h2, by simpa using hb, by simp⟩)

theorem loop (lim : Int) (n : Nat) : ∀ (rest cur : List Nat), rest.length ≤ n → Head lim cur →
    Broken lim (cur ++ rest) (breakLoop lim cur rest) := by
  induction n with
  | zero =>
    intro rest cur hn hh
    have : rest = [] := List.length_eq_zero_iff.mp (by omega)
    subst this
    rw [breakLoop, if_pos rfl, List.append_nil]
    split
    · next h => subst h; exact .nil
    · next h => exact .one h (hh.fits h).1
  | succ n ih =>
    intro rest cur hn hh
    rw [breakLoop]
    by_cases hr : rest = []
    · subst hr
      rw [if_pos rfl, List.append_nil]
      split
      · next h => subst h; exact .nil
      · next h => exact .one h (hh.fits h).1
    rw [if_neg hr]
    have hsp : ∀ b ∈ rest.takeWhile isBlank, Blank b := fun b hb => (blank_iff b).mp (takeWhile_all _ b hb)
    have hw : ∀ b ∈ (rest.dropWhile isBlank).takeWhile (!isBlank ·), ¬ Blank b := by
      intro b hb h
      have := takeWhile_all _ b hb
      rw [(blank_iff b).mpr h] at this
      simp at this
    have e : rest = rest.takeWhile isBlank ++ ((rest.dropWhile isBlank).takeWhile (!isBlank ·) ++
        (rest.dropWhile isBlank).dropWhile (!isBlank ·)) := by
      rw [List.takeWhile_append_dropWhile, List.takeWhile_append_dropWhile]
    have hc : ∀ c r, (rest.dropWhile isBlank).dropWhile (!isBlank ·) = c :: r → Blank c := by
      intro c r h
      have := dropWhile_head h
      exact (blank_iff c).mp (by simpa using this)
    have hw0 : ∀ c r, (rest.dropWhile isBlank).dropWhile (!isBlank ·) = c :: r →
        (rest.dropWhile isBlank).takeWhile (!isBlank ·) ≠ [] := by
      intro c r h h0
      have e1 : rest.dropWhile isBlank = c :: r := by
        rw [← List.takeWhile_append_dropWhile (p := (!isBlank ·)) (l := rest.dropWhile isBlank), h0, h]; rfl
      have h2 := dropWhile_head e1
      rw [(blank_iff c).mpr (hc c r h)] at h2
      simp at h2
    generalize rest.takeWhile isBlank = sp at *
    generalize rest.dropWhile isBlank = r1 at *
    simp only
    have hlen : ∀ c r, r1.dropWhile (!isBlank ·) = c :: r → r.length ≤ n := by
      intro c r h
      have := congrArg List.length e
      rw [h] at this
      simp at this; omega
    generalize hwd : r1.takeWhile (!isBlank ·) = w at *
    split
    · next hb =>
      obtain ⟨hb1, hb2⟩ := hb
      obtain ⟨hf, hend⟩ := hh.fits hb2
      split
      · next h =>
        rw [h] at e
        rw [e, List.append_nil]
        split
        · next h0 =>
          subst h0
          rw [List.append_nil]
          exact .last hf hend hsp (by simpa using hb1)
        · next h0 =>
          have := Broken.more (t := []) (ls := [w]) hf hend hsp hw h0 (Or.inl rfl) (by omega)
            (by rw [List.append_nil]; exact .one h0 (Or.inr (Or.inr ⟨[], w, [], by simp, by simp, hw, by simp, by simp⟩)))
          simpa using this
      · next c r h =>
        have := ih r (w ++ [c]) (hlen c r h)
          (Or.inr ⟨w, c, rfl, hc c r h, Or.inr ⟨[], w, rfl, by simp, hw⟩⟩)
        rw [h] at e
        have hm := Broken.more (t := c :: r) hf hend hsp hw (hw0 c r h) (Or.inr ⟨c, r, rfl, hc c r h⟩) (by omega)
          (by simpa using this)
        rw [e]
        simpa using hm
    · next hb =>
      have hb : cur = [] ∨ ((cur.length + sp.length + w.length : Nat) : Int) ≤ lim := by
        by_cases h : cur = []
        · exact Or.inl h
        · right
          apply Int.not_lt.mp
          intro h'
          exact hb ⟨h', h⟩
      split
      · next h =>
        rw [h] at e
        rw [e, List.append_nil, ← List.append_assoc]
        split
        · next h0 => rw [h0]; exact .nil
        · next h0 =>
          refine .one h0 ?_
          rcases hb with hb | hb
          · subst hb
            exact Or.inr (Or.inr ⟨sp, w, [], by simp, hsp, hw, by simp, by simp⟩)
          · exact Or.inl (by simpa [Nat.add_assoc] using hb)
      · next c r h =>
        have := ih r (cur ++ sp ++ w ++ [c]) (hlen c r h) (by
          refine Or.inr ⟨_, c, rfl, hc c r h, ?_⟩
          rcases hb with hb | hb
          · subst hb
            exact Or.inr ⟨sp, w, by simp, hsp, hw⟩
          · exact Or.inl (by simpa [Nat.add_assoc] using hb))
        rw [h] at e
        rw [e]
        simpa using this

/-- The lines that are made of a text. -/
theorem broken (lim : Int) (text : List Nat) : Broken lim text (breakLines lim text) :=
  loop lim text.length text [] (Nat.le_refl _) (Or.inl rfl)

/-- No line is empty, and every line is short enough. -/
theorem lines_fit {lim : Int} {text l : List Nat} (h : l ∈ breakLines lim text) : l ≠ [] ∧ Fits lim l := by
  have hb := broken lim text
  revert h
  generalize breakLines lim text = ls at hb
  intro h
  induction hb with
  | nil => simp at h
  | one h1 h2 => simp at h; subst h; exact ⟨h1, h2⟩
  | last h1 h2 =>
    simp at h; subst h
    obtain ⟨b, c, e, -⟩ := h2
    exact ⟨by simp [e], h1⟩
  | more h1 h2 _ _ _ _ _ _ ih =>
    rcases List.mem_cons.mp h with rfl | h
    · obtain ⟨b, c, e, -⟩ := h2
      exact ⟨by simp [e], h1⟩
    · exact ih h

/-- A text that fits is one line, unchanged. -/
theorem short {lim : Int} {text : List Nat} (h0 : text ≠ []) (h : (text.length : Int) ≤ lim) :
    breakLines lim text = [text] := by
  have hb := broken lim text
  generalize breakLines lim text = ls at hb
  cases hb with
  | nil => exact absurd rfl h0
  | one => rfl
  | last _ _ _ h4 => simp at h h4; omega
  | more _ _ _ _ _ _ h7 => simp at h h7; omega

/-! ## Words -/

/-- The words of a text: the longest runs without white space, in order. -/
def wordsFrom (cur : List Nat) : List Nat → List (List Nat)
  | [] => if cur = [] then [] else [cur]
  | b :: s =>
    if b ∈ [9, 10, 11, 12, 13, 32] then (if cur = [] then wordsFrom [] s else cur :: wordsFrom [] s)
    else wordsFrom (cur ++ [b]) s

def words (s : List Nat) : List (List Nat) := wordsFrom [] s

theorem words_split (l : List Nat) {c : Nat} (hc : Blank c) (t : List Nat) : ∀ cur,
    wordsFrom cur (l ++ c :: t) = wordsFrom cur (l ++ [c]) ++ wordsFrom [] t := by
  have hc' : c ∈ [9, 10, 11, 12, 13, 32] := hc
  induction l with
  | nil =>
    intro cur
    simp only [List.nil_append, wordsFrom]
    rw [if_pos hc', if_pos hc']
    split <;> simp
  | cons b l ih =>
    intro cur
    simp only [List.cons_append, wordsFrom]
    split
    · split <;> simp [ih]
    · exact ih _

theorem words_blank {g : List Nat} (hg : ∀ b ∈ g, Blank b) (t : List Nat) : wordsFrom [] (g ++ t) = wordsFrom [] t := by
  induction g with
  | nil => rfl
  | cons b g ih =>
    have hb : b ∈ [9, 10, 11, 12, 13, 32] := hg b (by simp)
    rw [List.cons_append, wordsFrom, if_pos hb, if_pos rfl, ih (fun x hx => hg x (by simp [hx]))]

theorem words_end (l : List Nat) {c : Nat} (hc : Blank c) : ∀ cur, wordsFrom cur (l ++ [c]) = wordsFrom cur l := by
  have hc' : c ∈ [9, 10, 11, 12, 13, 32] := hc
  induction l with
  | nil =>
    intro cur
    simp only [List.nil_append, wordsFrom]
    rw [if_pos hc']
    simp
  | cons b l ih =>
    intro cur
    simp only [List.cons_append, wordsFrom, ih]

/-- The lines have the words of the text, in order; none is lost, split or joined. -/
theorem lines_words (lim : Int) (text : List Nat) : (breakLines lim text).flatMap words = words text := by
  have hb := broken lim text
  generalize breakLines lim text = ls at hb
  unfold words
  induction hb with
  | nil => rfl
  | one => simp
  | @last l g _ h2 h3 =>
    obtain ⟨b, c, e, hc⟩ := h2
    have h := words_split b hc g []
    have hg := words_blank h3 []
    rw [List.append_nil] at hg
    rw [hg] at h
    rw [e]
    simp only [List.flatMap_cons, List.flatMap_nil, List.append_nil]
    rw [List.append_assoc, List.singleton_append, h]
    simp [wordsFrom]
  | @more l g w t ls _ h2 h3 _ _ _ _ _ ih =>
    obtain ⟨b, c, e, hc⟩ := h2
    have h := words_split b hc (g ++ (w ++ t)) []
    rw [words_blank h3] at h
    rw [List.flatMap_cons, ih, e]
    simpa using h.symm

/-- So has all that is appended, if the margin is white space. -/
theorem output_words (text : List Nat) (linelen : Int) {margin : List Nat} (hm : ∀ b ∈ margin, Blank b) :
    words (appendBreakLines text linelen margin) = words text := by
  unfold appendBreakLines
  rw [← lines_words (linelen - margin.length) text]
  generalize breakLines (linelen - margin.length) text = ls
  unfold words
  induction ls with
  | nil => rfl
  | cons l ls ih =>
    have h10 : Blank 10 := by simp [Blank]
    simp only [List.flatMap_cons]
    rw [List.append_assoc, List.singleton_append, words_split _ h10, ih, words_end _ h10, words_blank hm]

/-- Every line that is appended is the margin, a line and a newline. -/
theorem output (text : List Nat) (linelen : Int) (margin : List Nat) :
    ∃ ls, Broken (linelen - margin.length) text ls ∧
      appendBreakLines text linelen margin = (ls.map fun l => margin ++ l ++ [10]).flatten := by
  exact ⟨_, broken _ _, by rw [appendBreakLines, List.flatMap_def]⟩

-- "ab cd  ef" in lines of 5: "ab cd " (with the space) and "ef"
example : breakLines 5 [97, 98, 32, 99, 100, 32, 32, 101, 102] = [[97, 98, 32, 99, 100, 32], [101, 102]] := by
  decide +kernel
-- a long word stays whole, also if nothing fits
example : breakLines (-1) [97, 98, 99, 32, 100] = [[97, 98, 99, 32], [100]] := by decide +kernel
example : appendBreakLines [97, 32, 98] 3 [32] = [32, 97, 32, 10, 32, 98, 10] := by decide +kernel

/-- The white space after a broken line counts for nothing: a line can be one longer than asked for. -/
theorem one_too_long : ∃ text l, l ∈ breakLines 5 text ∧ l.length = 6 ∧ (words l).length = 2 :=
  ⟨[97, 98, 32, 99, 100, 32, 32, 101, 102], [97, 98, 32, 99, 100, 32], by decide +kernel, by decide, by decide +kernel⟩

end Verif.Props.C79
