import Verif.Text.GlobMatch

/-!
# C63: glob patterns match what they denote, except that a class misses its first character and takes the closing bracket

`glob_match` (/repo/string.cc:403-480) answers what the pattern means (`Matches Member`) for every pattern without classes.  In a class
it skips the first character and takes the closing `]` as a member (/repo/string.cc:452-455).  For a `[` without a `]` it can read the
byte after the pattern.
-/
namespace Verif.Props.C63

open Verif.Text

/-- The answer is always what the pattern means with classes taken as the code takes them. -/
theorem follows {s p : Bytes} {b : Bool} (h : globMatch s p = some b) : b = true ↔ Matches Taken (parse p) s := globMatch_spec h

/-- If every `[` has its `]`, there is an answer: no byte after the pattern is read. -/
theorem answers {s p : Bytes} (h : ∀ u q, p = u ++ 91 :: q → bracket q ≠ none) : ∃ b, globMatch s p = some b := by
  cases e : globMatch s p with
  | some b => exact ⟨b, rfl⟩
  | none =>
    obtain ⟨u, q, hp, hb⟩ := globMatch_over e
    exact absurd hb (h u q hp)

theorem matches_congr {A B : Bytes → Nat → Prop} {r : List Item} (h : ∀ n m, .cls n m ∈ r → ∀ c, A m c ↔ B m c) :
    ∀ s, Matches A r s ↔ Matches B r s := by
  induction r with
  | nil => intro s; rfl
  | cons i r ih =>
    have ih' := ih (fun n m hm => h n m (List.mem_cons_of_mem _ hm))
    intro s
    cases i with
    | lit c => simp only [Matches, ih']
    | any => simp only [Matches, ih']
    | star => simp only [Matches, ih']
    | cls n m => simp only [Matches, ih', h n m List.mem_cons_self]

theorem parse_no_class {n : Nat} : ∀ {p : Bytes}, p.length ≤ n → 91 ∉ p → ∀ b m, Item.cls b m ∉ parse p := by
  induction n with
  | zero =>
    intro p hl _ b m h
    rw [List.length_eq_zero_iff.1 (by omega : p.length = 0), parse_nil] at h
    simp at h
  | succ n ih =>
    intro p hl hp b m h
    cases p with
    | nil => rw [parse_nil] at h; simp at h
    | cons d p =>
      have hl' : p.length ≤ n := by simpa using hl
      have hp' : 91 ∉ p := fun h => hp (List.mem_cons_of_mem _ h)
      by_cases h63 : d = 63
      · subst h63; rw [parse_any] at h; simp only [List.mem_cons, reduceCtorEq, false_or] at h; exact ih hl' hp' b m h
      by_cases h42 : d = 42
      · subst h42; rw [parse_star] at h; simp only [List.mem_cons, reduceCtorEq, false_or] at h; exact ih hl' hp' b m h
      by_cases h92 : d = 92
      · subst h92
        cases p with
        | nil => rw [parse_slash] at h; simp at h
        | cons x p =>
          rw [parse_escape] at h
          simp only [List.mem_cons, reduceCtorEq, false_or] at h
          exact ih (by simp only [List.length_cons] at hl'; omega) (fun h => hp' (List.mem_cons_of_mem _ h)) b m h
      · rw [parse_plain h63 h42 h92 (fun h91 => hp (by rw [h91]; exact List.mem_cons_self))] at h
        simp only [List.mem_cons, reduceCtorEq, false_or] at h
        exact ih hl' hp' b m h

/-- A pattern without `[`: the matcher answers whether the string matches. -/
theorem correct (s p : Bytes) (hp : 91 ∉ p) : ∃ b, globMatch s p = some b ∧ (b = true ↔ Matches Member (parse p) s) := by
  obtain ⟨b, hb⟩ := answers (s := s) (p := p) (fun u q h => absurd (by rw [h]; simp) hp)
  refine ⟨b, hb, ?_⟩
  rw [follows hb]
  exact matches_congr (fun n m hm => absurd hm (parse_no_class (le_refl _) hp n m)) s

/-- A pattern whose classes all begin with `]`: the matcher answers whether the string matches. -/
theorem correct_bracket_first {s p : Bytes} {b : Bool} (h : globMatch s p = some b) (hp : ∀ n m, Item.cls n m ∈ parse p → m.head? = some 93) :
    b = true ↔ Matches Member (parse p) s := by
  rw [follows h]
  refine matches_congr (fun n m hm c => ?_) s
  have := hp n m hm
  cases m with
  | nil => cases this
  | cons x m =>
    simp only [List.head?_cons, Option.some.injEq] at this
    subst this
    simp only [Taken, Member, List.tail_cons, List.mem_cons]
    exact Or.comm

/-! ## Classes -/

/-- The pattern `[m…]` with no `]` inside. -/
theorem class_bracket {m : Nat} {ms : Bytes} (hm : m ≠ 94) (hs : 93 ∉ ms) : bracket (m :: ms ++ [93]) = some (false, m :: ms, []) := by
  have e0 : ((m :: (ms ++ [93])).head? == some 94) = false := by simpa using hm
  have hall : ∀ x ∈ ms, (x != 93) = true := by
    intro x hx
    have : x ≠ 93 := fun h => hs (h ▸ hx)
    simpa using this
  rw [List.cons_append]
  unfold bracket
  simp only [e0, Bool.false_eq_true, if_false]
  rw [if_pos (by simp), List.takeWhile_append_of_pos hall, List.dropWhile_append_of_pos hall]
  simp

theorem parse_one {m : Nat} {ms : Bytes} (hm : m ≠ 94) (hs : 93 ∉ ms) : parse (91 :: (m :: ms ++ [93])) = [.cls false (m :: ms)] := by
  rw [parse_class (class_bracket hm hs), parse_nil]

/-- A class `[m…]` matches exactly the characters after the first one, and `]`. -/
theorem class_taken {m : Nat} {ms : Bytes} (hm : m ≠ 94) (hs : 93 ∉ ms) {c : Nat} {b : Bool}
    (h : globMatch [c] (91 :: (m :: ms ++ [93])) = some b) : b = true ↔ c ∈ ms ∨ c = 93 := by
  rw [follows h, parse_one hm hs]
  constructor
  · rintro ⟨c', t, h, hc, -⟩
    obtain ⟨rfl, -⟩ := List.cons.inj h
    exact hc.2 rfl
  · exact fun hc => ⟨c, [], rfl, ⟨fun _ => rfl, fun _ => hc⟩, rfl⟩

/-- What the pattern means: the characters of the class. -/
theorem class_meant {m : Nat} {ms : Bytes} (hm : m ≠ 94) (hs : 93 ∉ ms) {c : Nat} :
    Matches Member (parse (91 :: (m :: ms ++ [93]))) [c] ↔ c ∈ m :: ms := by
  rw [parse_one hm hs]
  constructor
  · rintro ⟨c', t, h, hc, -⟩
    obtain ⟨rfl, -⟩ := List.cons.inj h
    exact hc.2 rfl
  · exact fun hc => ⟨c, [], rfl, ⟨fun _ => rfl, fun _ => hc⟩, rfl⟩

theorem class_answers {m : Nat} {ms : Bytes} (s : Bytes) (hm : m ≠ 94) (hs : 93 ∉ ms) (h91 : 91 ∉ m :: ms) :
    ∃ b, globMatch s (91 :: (m :: ms ++ [93])) = some b := by
  apply answers
  intro u q h
  cases u with
  | nil =>
    obtain ⟨-, rfl⟩ := List.cons.inj h
    rw [class_bracket hm hs]; simp
  | cons x u =>
    have : 91 ∈ m :: ms ++ [93] := by rw [(List.cons.inj h).2]; simp
    rcases List.mem_append.1 this with h' | h'
    · exact absurd h' h91
    · simp at h'

/-- The first character of a class is not matched, unless it comes again or is `]`. -/
theorem first_missed {m : Nat} {ms : Bytes} (hm : m ≠ 94) (hm' : m ≠ 93) (hs : 93 ∉ ms) (hn : m ∉ ms) (h91 : 91 ∉ m :: ms) :
    globMatch [m] (91 :: (m :: ms ++ [93])) = some false ∧ Matches Member (parse (91 :: (m :: ms ++ [93]))) [m] := by
  obtain ⟨b, hb⟩ := class_answers [m] hm hs h91
  refine ⟨?_, (class_meant hm hs).2 List.mem_cons_self⟩
  cases b with
  | false => exact hb
  | true =>
    rcases (class_taken hm hs hb).1 rfl with h | h
    · exact absurd h hn
    · exact absurd h hm'

/-- The closing bracket is matched, though it is not in the class. -/
theorem bracket_taken {m : Nat} {ms : Bytes} (hm : m ≠ 94) (hm' : m ≠ 93) (hs : 93 ∉ ms) (h91 : 91 ∉ m :: ms) :
    globMatch [93] (91 :: (m :: ms ++ [93])) = some true ∧ ¬ Matches Member (parse (91 :: (m :: ms ++ [93]))) [93] := by
  obtain ⟨b, hb⟩ := class_answers [93] hm hs h91
  refine ⟨?_, fun h => ?_⟩
  · rw [hb, (class_taken hm hs hb).2 (Or.inr rfl)]
  · rcases List.mem_cons.1 ((class_meant hm hs).1 h) with h' | h'
    · exact hm' h'.symm
    · exact hs h'

/-- `[abc]` does not match "a" and matches "]". -/
example : globMatch [97] [91, 97, 98, 99, 93] = some false ∧ globMatch [93] [91, 97, 98, 99, 93] = some true :=
  ⟨(first_missed (m := 97) (ms := [98, 99]) (by decide) (by decide) (by decide) (by decide) (by decide)).1,
    (bracket_taken (m := 97) (ms := [98, 99]) (by decide) (by decide) (by decide) (by decide)).1⟩

/-- `[^a]` matches "a". -/
theorem negated_matches_first : globMatch [97] [91, 94, 97, 93] = some true := by decide

/-- `[a*` for "x" reads the byte after the pattern. -/
theorem reads_past_end : globMatch [120] [91, 97, 42] = none := by decide

/-! ## Cases -/

/-- "k*.?" matches "key.1". -/
example : globMatch [107, 101, 121, 46, 49] [107, 42, 46, 63] = some true := by decide

example : Matches Member (parse [107, 42, 46, 63]) [107, 101, 121, 46, 49] := by
  obtain ⟨b, h1, h2⟩ := correct [107, 101, 121, 46, 49] [107, 42, 46, 63] (by decide)
  exact h2.1 (Option.some.inj (h1.symm.trans (by decide : _ = some true)))

/-- "k*.?" does not match "key.12". -/
example : ¬ Matches Member (parse [107, 42, 46, 63]) [107, 101, 121, 46, 49, 50] := by
  obtain ⟨b, h1, h2⟩ := correct [107, 101, 121, 46, 49, 50] [107, 42, 46, 63] (by decide)
  intro h
  have : b = false := Option.some.inj (h1.symm.trans (by decide : _ = some false))
  rw [h2.2 h] at this
  cases this

/-- "*a\*" matches "ba*". -/
example : globMatch [98, 97, 42] [42, 97, 92, 42] = some true := by decide

/-- "[]ab]*" matches "a1" and "]", as it is meant. -/
example : globMatch [97, 49] [91, 93, 97, 98, 93, 42] = some true ∧ globMatch [93] [91, 93, 97, 98, 93, 42] = some true := by decide

end Verif.Props.C63
