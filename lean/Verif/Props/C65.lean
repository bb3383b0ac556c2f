import Verif.Text.Search

/-!
# C65: string comparisons, searches and number parsing do what they say, except that `find_right` can look beyond the end

`compare` is the lexicographic order of bytes; `find_left` and `find_right` find the first and the last place; `to_i` is the number at the
start, modulo 2^64; `trim` cuts spaces off at both ends.  `find_right` for a string, with a position less than the length but too near to the
end for the string to fit, compares bytes beyond the end (/repo/string.cc:374-386).
-/
namespace Verif.Props.C65

open Verif.Text

/-! ## Comparisons -/

/-- The comparison is negative exactly for strings that are less in lexicographic order. -/
theorem compare_less {same : Bool} {a b : Bytes} (h : same = true → a <+: b ∨ b <+: a) : compareStr same a b < 0 ↔ a < b := by
  rw [← compareStr_lt]
  cases same with
  | false => rfl
  | true =>
    rcases h rfl with h | h
    · rw [prefix_lt h]
    · rw [prefix_gt h]

/-- It is zero exactly for equal strings. -/
theorem compare_equal {same : Bool} {a b : Bytes} (h : same = true → a <+: b ∨ b <+: a) : compareStr same a b = 0 ↔ a = b := by
  rw [← compareStr_zero]
  cases same with
  | false => rfl
  | true =>
    rcases h rfl with h | h
    · rw [prefix_lt h]
    · rw [prefix_gt h]

/-- It is positive exactly if the other is less. -/
theorem compare_greater {same : Bool} {a b : Bytes} (h : same = true → a <+: b ∨ b <+: a) : 0 < compareStr same a b ↔ b < a := by
  have h1 := compare_less h
  have h2 := compare_equal h
  rcases lt_trichotomy a b with hl | hl | hl
  · have := h1.2 hl
    exact ⟨fun h => by omega, fun h => absurd (lt_trans h hl) (lt_irrefl _)⟩
  · have := h2.2 hl
    subst hl
    exact ⟨fun h => by omega, fun h => absurd h (lt_irrefl _)⟩
  · refine ⟨fun _ => hl, fun _ => ?_⟩
    have n1 : ¬ compareStr same a b < 0 := fun h => absurd (lt_trans (h1.1 h) hl) (lt_irrefl _)
    have n2 : compareStr same a b ≠ 0 := fun h => by rw [h2.1 h] at hl; exact lt_irrefl _ hl
    omega

theorem equals_iff (a b : Bytes) : equalsStr a b = true ↔ a = b := by
  unfold equalsStr
  rw [Bool.and_eq_true, beq_iff_eq, beq_iff_eq]
  constructor
  · rintro ⟨h1, h2⟩
    rw [memcmp_zero (le_refl _) (by omega)] at h2
    rwa [List.take_length, List.take_of_length_le (by omega)] at h2
  · rintro rfl
    exact ⟨rfl, (memcmp_zero (le_refl _) (le_refl _)).2 rfl⟩

theorem starts_with_iff (a b : Bytes) : startsWith a b = true ↔ b <+: a := by
  unfold startsWith
  rw [Bool.and_eq_true, decide_eq_true_eq, beq_iff_eq]
  constructor
  · rintro ⟨h1, h2⟩
    rw [memcmp_zero h1 (le_refl _), List.take_length] at h2
    rw [← h2]; exact List.take_prefix _ _
  · intro h
    refine ⟨h.length_le, (memcmp_zero h.length_le (le_refl _)).2 ?_⟩
    rw [List.take_length]
    exact (List.prefix_iff_eq_take.1 h).symm

/-! ## Searches -/

/-- The first place of a character at or after the start. -/
theorem left_char (s : Bytes) (start : Int) (x : Nat) :
    (findLeftChar s start x = -1 ∧ ∀ j : Nat, start ≤ j → s[j]? ≠ some x) ∨
      ∃ k : Nat, findLeftChar s start x = k ∧ start ≤ k ∧ s[k]? = some x ∧ ∀ j : Nat, start ≤ j → j < k → s[j]? ≠ some x := by
  unfold findLeftChar
  simp only
  have e : ∀ j : Nat, (if start < 0 then 0 else start).toNat ≤ j ↔ start ≤ j := by intro j; split <;> omega
  rcases leftLoop_spec (s := s) (x := x) (s.length - (if start < 0 then 0 else start).toNat) (if start < 0 then 0 else start).toNat
    (by omega) with ⟨h1, h2⟩ | ⟨k, h1, h2, h3, h4⟩
  · exact Or.inl ⟨h1, fun j hj => h2 j ((e j).2 hj)⟩
  · exact Or.inr ⟨k, h1, (e k).1 h2, h3, fun j hj hk => h4 j ((e j).2 hj) hk⟩

/-- The last place of a character at or before the start. -/
theorem right_char (s : Bytes) (start : Int) (x : Nat) :
    (findRightChar s start x = -1 ∧ ∀ j : Nat, j ≤ start → s[j]? ≠ some x) ∨
      ∃ k : Nat, findRightChar s start x = k ∧ k ≤ start ∧ s[k]? = some x ∧ ∀ j : Nat, k < j → j ≤ start → s[j]? ≠ some x := by
  unfold findRightChar
  simp only
  have e : ∀ j : Nat, j < s.length → (j < ((if start ≥ s.length then (s.length : Int) - 1 else start) + 1).toNat ↔ (j : Int) ≤ start) := by
    intro j hj; split <;> omega
  have out : ∀ j : Nat, s.length ≤ j → s[j]? ≠ some x := fun j hj => by rw [List.getElem?_eq_none hj]; simp
  rcases rightLoop_spec (s := s) (x := x) ((if start ≥ s.length then (s.length : Int) - 1 else start) + 1).toNat
    with ⟨h1, h2⟩ | ⟨k, h1, h2, h3, h4⟩
  · refine Or.inl ⟨h1, fun j hj => ?_⟩
    by_cases hl : j < s.length
    · exact h2 j ((e j hl).2 hj)
    · exact out j (by omega)
  · have hk : k < s.length := by
      by_contra h
      exact out k (by omega) h3
    refine Or.inr ⟨k, h1, (e k hk).1 h2, h3, fun j hj hs => ?_⟩
    by_cases hl : j < s.length
    · exact h4 j hj ((e j hl).2 hs)
    · exact out j (by omega)

/-- The string `x` is a part of the string of the first `len` bytes, at `i`. -/
def Occurs (mem : Bytes) (len i : Nat) (x : Bytes) : Prop := i + x.length ≤ len ∧ x <+: mem.drop i

/-- The first place of a string at or after the start; nothing outside the string is looked at. -/
theorem left_str {mem : Bytes} {len : Nat} (hm : len ≤ mem.length) (start : Int) (x : Bytes) :
    (findLeftStr mem len start x = some (-1) ∧ ∀ j : Nat, start ≤ j → ¬ Occurs mem len j x) ∨
      ∃ k : Nat, findLeftStr mem len start x = some (k : Int) ∧ start ≤ k ∧ Occurs mem len k x ∧
        ∀ j : Nat, start ≤ j → j < k → ¬ Occurs mem len j x := by
  unfold findLeftStr
  simp only
  generalize hs : (if start < 0 then 0 else start) = st
  have st0 : 0 ≤ st ∧ ∀ j : Nat, st ≤ j ↔ start ≤ j := by
    subst hs
    split
    · exact ⟨by omega, fun j => by omega⟩
    · exact ⟨by omega, fun j => Iff.rfl⟩
  by_cases hx : x.length = 0
  · rw [if_pos hx]
    have : x = [] := List.length_eq_zero_iff.1 hx
    subst this
    split
    · rename_i h
      refine Or.inr ⟨st.toNat, by simp; omega, (st0.2 _).1 (by omega), ⟨by simp; omega, List.nil_prefix⟩, fun j h1 h2 => ?_⟩
      have := (st0.2 j).2 h1; omega
    · rename_i h
      refine Or.inl ⟨rfl, fun j hj ho => ?_⟩
      have := (st0.2 j).2 hj
      have := ho.1
      simp only [List.length_nil] at this
      omega
  · rw [if_neg hx]
    have hin : ∀ j : Nat, st.toNat ≤ j → (j < st.toNat + ((len : Int) - x.length - st + 1).toNat ↔ j + x.length ≤ len) := by
      intro j hj; omega
    rcases leftStrLoop_spec (mem := mem) (x := x) ((len : Int) - x.length - st + 1).toNat st.toNat
      (fun j h1 h2 => by have := (hin j h1).1 h2; omega) with ⟨h1, h2⟩ | ⟨k, h1, h0, h2, h3, h4⟩
    · refine Or.inl ⟨h1, fun j hj ho => ?_⟩
      have h' : st.toNat ≤ j := by have := (st0.2 j).2 hj; omega
      exact h2 j h' ((hin j h').2 ho.1) ho.2
    · refine Or.inr ⟨k, h1, (st0.2 k).1 (by omega), ⟨(hin k h0).1 h2, h3⟩, fun j hj hk ho => ?_⟩
      have h' : st.toNat ≤ j := by have := (st0.2 j).2 hj; omega
      exact h4 j h' hk ho.2

/-- The last place of a string at or before the start, if the start is at or after the end or the string fits there. -/
theorem right_str {mem : Bytes} {len : Nat} (hm : len ≤ mem.length) {start : Int} {x : Bytes} (h : len ≤ start ∨ start + x.length ≤ len) :
    (findRightStr mem len start x = some (-1) ∧ ∀ j : Nat, j ≤ start → ¬ Occurs mem len j x) ∨
      ∃ k : Nat, findRightStr mem len start x = some (k : Int) ∧ k ≤ start ∧ Occurs mem len k x ∧
        ∀ j : Nat, k < j → j ≤ start → ¬ Occurs mem len j x := by
  unfold findRightStr
  simp only
  generalize hs : (if start ≥ len then (len : Int) - x.length else start) = st
  have fit : st + x.length ≤ len := by subst hs; split <;> omega
  have le : ∀ j : Nat, j + x.length ≤ len → ((j : Int) ≤ st ↔ (j : Int) ≤ start) := by intro j hj; subst hs; split <;> omega
  by_cases hx : x.length = 0
  · rw [if_pos hx]
    have : x = [] := List.length_eq_zero_iff.1 hx
    subst this
    simp only [List.length_nil, Nat.add_zero, Nat.cast_zero] at *
    split
    · rename_i h0
      refine Or.inr ⟨st.toNat, by simp; omega, (le _ (by omega)).1 (by omega), ⟨by simp; omega, List.nil_prefix⟩, fun j h1 h2 ho => ?_⟩
      have h3 : j ≤ len := ho.1
      have := (le j h3).2 h2
      omega
    · rename_i h0
      refine Or.inl ⟨rfl, fun j hj ho => ?_⟩
      have h3 : j ≤ len := ho.1
      have := (le j h3).2 hj
      omega
  · rw [if_neg hx]
    rcases rightStrLoop_spec (mem := mem) (x := x) (st + 1).toNat (fun j h => by omega) with ⟨h1, h2⟩ | ⟨k, h1, h2, h3, h4⟩
    · refine Or.inl ⟨h1, fun j hj ho => ?_⟩
      have := (le j ho.1).2 hj
      exact h2 j (by omega) ho.2
    · refine Or.inr ⟨k, h1, (le k (by omega)).1 (by omega), ⟨by omega, h3⟩, fun j hk hj ho => ?_⟩
      have := (le j ho.1).2 hj
      exact h4 j hk (by omega) ho.2

/-- Otherwise, in memory that ends with the string, bytes outside of it are read. -/
theorem right_str_undefined {s x : Bytes} {start : Nat} (h1 : start < s.length) (h2 : s.length < start + x.length) :
    findRightStr s s.length start x = none := by
  unfold findRightStr
  simp only
  rw [if_neg (by omega), if_neg (by omega), show ((start : Int) + 1).toNat = start + 1 by omega, rightStrLoop, same, if_neg (by omega)]

/-- And if there is memory behind the string, a place can be returned where the string is not a part. -/
theorem right_str_beyond {mem x : Bytes} {len start : Nat} (h1 : start < len) (h2 : len < start + x.length) (h3 : x <+: mem.drop start) :
    findRightStr mem len start x = some (start : Int) ∧ ¬ Occurs mem len start x := by
  have hl := h3.length_le
  rw [List.length_drop] at hl
  refine ⟨?_, fun h => by have := h.1; omega⟩
  unfold findRightStr
  simp only
  rw [if_neg (by omega), if_neg (by omega), show ((start : Int) + 1).toNat = start + 1 by omega, rightStrLoop]
  obtain ⟨b, e, hb⟩ := same_spec (mem := mem) (i := start) (x := x) (by omega)
  rw [e, hb.2 h3]

/-- "banana": "an" first at 1, last at 3; "a" last at 5. -/
example : findLeftStr [98, 97, 110, 97, 110, 97] 6 0 [97, 110] = some 1 ∧ findRightStr [98, 97, 110, 97, 110, 97] 6 9 [97, 110] = some 3 ∧
    findRightChar [98, 97, 110, 97, 110, 97] 9 97 = 5 ∧ findLeftChar [98, 97, 110, 97, 110, 97] 2 97 = 3 := by decide

/-- "ab" in "abc" and "bc" from 1: found at 1, where it does not fit; in "ab" alone: undefined. -/
example : findRightStr [97, 98, 99] 2 1 [98, 99] = some 1 ∧ findRightStr [97, 98] 2 1 [98, 99] = none :=
  ⟨(right_str_beyond (mem := [97, 98, 99]) (len := 2) (start := 1) (by decide) (by decide) (by decide)).1,
    right_str_undefined (s := [97, 98]) (start := 1) (by decide) (by decide)⟩

/-! ## Numbers -/

theorem value_cons {c : Nat} {u : Bytes} : value (c :: u) = (c - 48) * 10 ^ u.length + value u := by
  show List.foldl _ 0 (c :: u) = _
  rw [List.foldl_cons, value_fold]
  simp

theorem digits_first {u r : Bytes} (hu : ∀ c ∈ u, isDigit c = true) (hr : good r = false) : (u ++ r).takeWhile isDigit = u := by
  induction u with
  | nil =>
    cases r with
    | nil => rfl
    | cons c r =>
      have : isDigit c = false := hr
      simp [this]
  | cons c u ih =>
    rw [List.cons_append, List.takeWhile_cons, hu c List.mem_cons_self, if_pos rfl, ih (fun c h => hu c (List.mem_cons_of_mem _ h))]

theorem loop_value {c : Nat} {u r : Bytes} (hu : ∀ x ∈ c :: u, isDigit x = true) (hr : good r = false) :
    digitsLoop (c - 48) (u ++ r) = value (c :: u) % 18446744073709551616 := by
  have hc := hu c List.mem_cons_self
  simp only [isDigit, Bool.and_eq_true, decide_eq_true_eq] at hc
  rw [digitsLoop_spec _ _ (by omega), digits_first (fun x h => hu x (List.mem_cons_of_mem _ h)) hr, ← value_cons]

theorem bmod_neg (v : Nat) : toLong ((18446744073709551616 - v % 18446744073709551616) % 18446744073709551616) = Int.bmod (-(v : Int)) 18446744073709551616 := by
  rw [toLong_bmod (Nat.mod_lt _ (by omega))]
  rw [Int.bmod_def, Int.bmod_def]
  omega

/-- Digits, without a sign: their value, modulo 2^64 in the range of `long`. -/
theorem number {u r : Bytes} (hu : ∀ c ∈ u, isDigit c = true) (hn : u ≠ []) (hr : good r = false) :
    toI (u ++ r) = Int.bmod (value u) 18446744073709551616 := by
  cases u with
  | nil => exact absurd rfl hn
  | cons c u =>
    have hc := hu c List.mem_cons_self
    have hs : ¬ (c = 45 ∨ c = 43) := by rintro (rfl | rfl) <;> revert hc <;> decide
    rw [List.cons_append]
    unfold toI
    simp only [if_neg hs, hc, Bool.not_true, Bool.false_eq_true, if_false]
    rw [loop_value hu hr, toLong_bmod (Nat.mod_lt _ (by omega)), Int.bmod_def, Int.bmod_def]
    omega

/-- Digits after a plus. -/
theorem number_plus {u r : Bytes} (hu : ∀ c ∈ u, isDigit c = true) (hn : u ≠ []) (hr : good r = false) :
    toI (43 :: (u ++ r)) = Int.bmod (value u) 18446744073709551616 := by
  cases u with
  | nil => exact absurd rfl hn
  | cons c u =>
    have hc := hu c List.mem_cons_self
    unfold toI
    simp only [List.cons_append, or_true, if_true, hc, Bool.not_true, Bool.false_eq_true, if_false, show ((43 : Nat) == 45) = false from rfl]
    rw [loop_value hu hr, toLong_bmod (Nat.mod_lt _ (by omega)), Int.bmod_def, Int.bmod_def]
    omega

/-- Digits after a minus. -/
theorem number_minus {u r : Bytes} (hu : ∀ c ∈ u, isDigit c = true) (hn : u ≠ []) (hr : good r = false) :
    toI (45 :: (u ++ r)) = Int.bmod (-(value u : Int)) 18446744073709551616 := by
  cases u with
  | nil => exact absurd rfl hn
  | cons c u =>
    have hc := hu c List.mem_cons_self
    unfold toI
    simp only [List.cons_append, true_or, if_true, hc, Bool.not_true, Bool.false_eq_true, if_false, show ((45 : Nat) == 45) = true from rfl]
    rw [loop_value hu hr, bmod_neg]

/-- A number in the range of `long` is read as it is. -/
theorem number_exact {u r : Bytes} (hu : ∀ c ∈ u, isDigit c = true) (hn : u ≠ []) (hr : good r = false) (h : value u < 9223372036854775808) :
    toI (u ++ r) = value u ∧ toI (45 :: (u ++ r)) = -(value u : Int) := by
  rw [number hu hn hr, number_minus hu hn hr]
  constructor
  · rw [Int.bmod_def]; omega
  · rw [Int.bmod_def]; omega

/-- What does not begin with digits after at most one sign is 0. -/
theorem no_number {s : Bytes} (h : good s = false) (h' : ∀ t, s = 45 :: t ∨ s = 43 :: t → good t = false) : toI s = 0 := by
  unfold toI
  cases s with
  | nil => rfl
  | cons c t =>
    by_cases hs : c = 45 ∨ c = 43
    · have ht : good t = false := h' t (by rcases hs with rfl | rfl <;> simp)
      simp only [if_pos hs]
      cases t with
      | nil => rfl
      | cons d t =>
        have : isDigit d = false := ht
        simp [this]
    · have : isDigit c = false := h
      simp [if_neg hs, this]

/-- "-12x" is -12, "18446744073709551617" is 1, "9223372036854775808" is the least number. -/
example : toI [45, 49, 50, 120] = -12 ∧ toI [49, 56, 52, 52, 54, 55, 52, 52, 48, 55, 51, 55, 48, 57, 53, 53, 49, 54, 49, 55] = 1 ∧
    toI [57, 50, 50, 51, 51, 55, 50, 48, 51, 54, 56, 53, 52, 55, 55, 53, 56, 48, 56] = -9223372036854775808 := by decide

example : toI ([49, 50] ++ [120]) = value [49, 50] := (number_exact (by decide) (by decide) rfl (by decide)).1

/-! ## Spaces and case -/

theorem dropWhile_split (p : Nat → Bool) (s : Bytes) : ∃ l, s = l ++ s.dropWhile p ∧ (∀ c ∈ l, p c = true) ∧
    ∀ c, (s.dropWhile p).head? = some c → p c = false := by
  refine ⟨s.takeWhile p, List.takeWhile_append_dropWhile.symm, fun c hc => List.mem_takeWhile_imp hc, fun c hc => ?_⟩
  induction s with
  | nil => cases hc
  | cons x s ih =>
    rw [List.dropWhile_cons] at hc
    split at hc
    · exact ih hc
    · rename_i h
      simp only [List.head?_cons, Option.some.injEq] at hc
      rw [← hc]; simpa using h

/-- Spaces are cut off at both ends, all of them and nothing else. -/
theorem trimmed (s : Bytes) : ∃ l r, s = l ++ trim s ++ r ∧ (∀ c ∈ l, isSpace c = true) ∧ (∀ c ∈ r, isSpace c = true) ∧
    (∀ c, (trim s).head? = some c → isSpace c = false) ∧ ∀ c, (trim s).getLast? = some c → isSpace c = false := by
  obtain ⟨r, e1, h1, h1'⟩ := dropWhile_split isSpace s.reverse
  obtain ⟨l, e2, h2, h2'⟩ := dropWhile_split isSpace (rtrim s)
  have e3 : s = rtrim s ++ r.reverse := by
    have := congrArg List.reverse e1
    rw [List.reverse_reverse, List.reverse_append] at this
    exact this
  refine ⟨l, r.reverse, ?_, h2, fun c hc => h1 c (by simpa using hc), h2', fun c hc => ?_⟩
  · conv_lhs => rw [e3, e2]
    rfl
  · apply h1'
    have : (rtrim s).getLast? = some c := by
      rw [e2, List.getLast?_append]
      show ((trim s).getLast?).or _ = _
      rw [hc]; rfl
    rw [rtrim, List.getLast?_reverse] at this
    exact this

theorem map_same {f : Nat → Nat} {s : Bytes} (h : ∀ c ∈ s, f c = c) : s.map f = s := by
  induction s with
  | nil => rfl
  | cons c s ih => rw [List.map_cons, h c List.mem_cons_self, ih (fun c hc => h c (List.mem_cons_of_mem _ hc))]

/-- `lower` changes the capital letters alone. -/
theorem lower_eq (s : Bytes) : lower s = s.map fun c => if 65 ≤ c ∧ c ≤ 90 then c + 32 else c := by
  have key : ∀ c, ¬ (decide (65 ≤ c) && decide (c ≤ 90)) = true → toLower c = c := by
    intro c h
    unfold toLower
    rw [if_neg (by simpa using h)]
  show lower s = s.map toLower
  unfold lower
  split
  · rename_i i hi
    conv_rhs => rw [← List.take_append_drop i s, List.map_append]
    congr 1
    rw [List.findIdx?_eq_some_iff_getElem] at hi
    obtain ⟨hl, -, hb⟩ := hi
    refine (map_same fun c hc => ?_).symm
    obtain ⟨j, hj, e⟩ := List.mem_iff_getElem.1 hc
    rw [List.length_take] at hj
    rw [List.getElem_take] at e
    exact key c (by have := hb j (by omega); rwa [e] at this)
  · rename_i h
    rw [List.findIdx?_eq_none_iff] at h
    exact (map_same fun c hc => key c (by rw [h c hc]; simp)).symm

/-- `upper` changes the small letters alone. -/
theorem upper_eq (s : Bytes) : upper s = s.map fun c => if 97 ≤ c ∧ c ≤ 122 then c - 32 else c := by
  have key : ∀ c, ¬ (decide (97 ≤ c) && decide (c ≤ 122)) = true → toUpper c = c := by
    intro c h
    unfold toUpper
    rw [if_neg (by simpa using h)]
  show upper s = s.map toUpper
  unfold upper
  split
  · rename_i i hi
    conv_rhs => rw [← List.take_append_drop i s, List.map_append]
    congr 1
    rw [List.findIdx?_eq_some_iff_getElem] at hi
    obtain ⟨hl, -, hb⟩ := hi
    refine (map_same fun c hc => ?_).symm
    obtain ⟨j, hj, e⟩ := List.mem_iff_getElem.1 hc
    rw [List.length_take] at hj
    rw [List.getElem_take] at e
    exact key c (by have := hb j (by omega); rwa [e] at this)
  · rename_i h
    rw [List.findIdx?_eq_none_iff] at h
    exact (map_same fun c hc => key c (by rw [h c hc]; simp)).symm

/-- White space: tab, newline, vertical tab, form feed, carriage return and space. -/
def White (c : Nat) : Prop := c ∈ [9, 10, 11, 12, 13, 32]

theorem white_iff (c : Nat) : isSpace c = true ↔ White c := by
  simp [isSpace, White]
  omega

theorem drop_white (s : Bytes) : ∃ p, s = p ++ s.dropWhile isSpace ∧ (∀ c ∈ p, White c) ∧
    ∀ c t, s.dropWhile isSpace = c :: t → ¬ White c := by
  induction s with
  | nil => exact ⟨[], by simp⟩
  | cons a s ih =>
    rw [List.dropWhile_cons]
    split
    · next h =>
      obtain ⟨p, h1, h2, h3⟩ := ih
      refine ⟨a :: p, by rw [List.cons_append, ← h1], ?_, h3⟩
      intro c hc
      rcases List.mem_cons.mp hc with rfl | hc
      · exact (white_iff _).mp h
      · exact h2 c hc
    · next h =>
      refine ⟨[], rfl, by simp, ?_⟩
      intro c t e hw
      rw [← (List.cons.inj e).1] at hw
      exact h ((white_iff a).mpr hw)

/-- `ltrim` takes away white space at the beginning, all of it and nothing else. -/
theorem ltrim_eq (s : Bytes) : ∃ p, s = p ++ ltrim s ∧ (∀ c ∈ p, White c) ∧ ∀ c t, ltrim s = c :: t → ¬ White c :=
  drop_white s

/-- `rtrim` takes away white space at the end, all of it and nothing else. -/
theorem rtrim_eq (s : Bytes) : ∃ q, s = rtrim s ++ q ∧ (∀ c ∈ q, White c) ∧ ∀ c t, rtrim s = t ++ [c] → ¬ White c := by
  obtain ⟨p, h1, h2, h3⟩ := drop_white s.reverse
  refine ⟨p.reverse, ?_, by simpa using h2, ?_⟩
  · have := congrArg List.reverse h1
    rw [List.reverse_reverse, List.reverse_append] at this
    exact this
  · intro c t e
    refine h3 c t.reverse ?_
    have := congrArg List.reverse e
    unfold rtrim at this
    rw [List.reverse_reverse] at this
    simpa using this

/-- `trim` does both. -/
theorem trim_eq (s : Bytes) : ∃ p q, s = p ++ trim s ++ q ∧ (∀ c ∈ p, White c) ∧ (∀ c ∈ q, White c) ∧
    (∀ c t, trim s = c :: t → ¬ White c) ∧ ∀ c t, trim s = t ++ [c] → ¬ White c := by
  obtain ⟨q, h1, h2, h3⟩ := rtrim_eq s
  obtain ⟨p, h4, h5, h6⟩ := drop_white (rtrim s)
  refine ⟨p, q, ?_, h5, h2, h6, ?_⟩
  · have : p ++ trim s = rtrim s := h4.symm
    rw [this]; exact h1
  · intro c t e
    refine h3 c (p ++ t) ?_
    rw [h4]
    show p ++ trim s = _
    rw [e, List.append_assoc]

/-- " a b\n" trimmed is "a b"; "aBC1" in small letters is "abc1". -/
example : trim [32, 97, 32, 98, 10] = [97, 32, 98] ∧ ltrim [32, 97, 10] = [97, 10] ∧ rtrim [32, 97, 10] = [32, 97] ∧
    lower [97, 66, 67, 49] = [97, 98, 99, 49] ∧ upper [97, 66, 49] = [65, 66, 49] := by decide

example : compareStr false [97, 98] [97, 98, 0] < 0 ∧ compareStr true [97] [97, 98] < 0 ∧ 0 < compareStr false [200] [100, 1] := by decide

end Verif.Props.C65
