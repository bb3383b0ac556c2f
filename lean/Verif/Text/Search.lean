import Verif.Text.NaturalOrder
import Mathlib.Data.List.TakeWhile
import Mathlib.Data.List.Lex
import Mathlib.Tactic.NormNum

/-!
# Comparisons, searches and numbers

`String_generic::equals`, `compare`, `starts_with`, `find_left`, `find_right`, `to_i`, `ltrim`, `rtrim`, `trim` (/repo/string_base.hh:41-71,
/repo/string_base.hh:481-505, /repo/string.cc:135-144, /repo/string.cc:335-401) and `String::lower` and `upper` (/repo/string.cc:913-962).

Simplifications:
* Bytes are numbers.  `int` does not overflow: lengths and positions are those of strings.
* The memory from the start of a string on is a list of which the string is the beginning; what is behind the string may belong to
  something else.  `memcmp` beyond that memory is undefined (`none`).
* `long` and `unsigned long` have 64 bits and conversion between them is modulo 2^64.
* `isdigit`, `isspace`, `tolower`, `toupper` are those of the C locale.
-/
namespace Verif.Text

/-- `memcmp` of so many bytes: the difference of the first that differ.  Only its sign is used. -/
def memcmp : Nat → Bytes → Bytes → Int
  | n + 1, x :: a, y :: b => if x = y then memcmp n a b else (x : Int) - y
  | _, _, _ => 0

/-- `compare`, /repo/string.cc:135-144; `same`: both pointers are equal. -/
def compareStr (same : Bool) (a b : Bytes) : Int :=
  let d := if same then 0 else memcmp (if a.length < b.length then a.length else b.length) a b
  if d ≠ 0 then d else (a.length : Int) - b.length

/-- `equals`, /repo/string_base.hh:41-43. -/
def equalsStr (a b : Bytes) : Bool := a.length == b.length && memcmp a.length a b == 0

/-- `starts_with`, /repo/string_base.hh:56-58. -/
def startsWith (a b : Bytes) : Bool := decide (b.length ≤ a.length) && memcmp b.length a b == 0

/-- The loop of `find_left` for a character, /repo/string.cc:341-344, from position `i` with `n` to go. -/
def leftLoop (s : Bytes) (x : Nat) : Nat → Nat → Int
  | _, 0 => -1
  | i, n + 1 => if s[i]? = some x then i else leftLoop s x (i + 1) n

/-- `find_left` for a character, /repo/string.cc:335-345. -/
def findLeftChar (s : Bytes) (start : Int) (x : Nat) : Int :=
  let start := if start < 0 then 0 else start
  leftLoop s x start.toNat (s.length - start.toNat)

/-- The loop of `find_right` for a character, /repo/string.cc:368-371, with the positions below `n` to go. -/
def rightLoop (s : Bytes) (x : Nat) : Nat → Int
  | 0 => -1
  | n + 1 => if s[n]? = some x then n else rightLoop s x n

/-- `find_right` for a character, /repo/string.cc:362-372. -/
def findRightChar (s : Bytes) (start : Int) (x : Nat) : Int :=
  let start := if start ≥ s.length then (s.length : Int) - 1 else start
  rightLoop s x (start + 1).toNat

/-- `memcmp(s + i, x, x_len) == 0`; `none`: bytes outside memory are read. -/
def same (mem : Bytes) (i : Nat) (x : Bytes) : Option Bool :=
  if i + x.length ≤ mem.length then some (memcmp x.length (mem.drop i) x == 0) else none

/-- The loop of `find_left` for a string, /repo/string.cc:356-359. -/
def leftStrLoop (mem x : Bytes) : Nat → Nat → Option Int
  | _, 0 => some (-1)
  | i, n + 1 =>
    match same mem i x with
    | none => none
    | some true => some i
    | some false => leftStrLoop mem x (i + 1) n

/-- `find_left` for a string, /repo/string.cc:347-360, in the string of the first `len` bytes of memory. -/
def findLeftStr (mem : Bytes) (len : Nat) (start : Int) (x : Bytes) : Option Int :=
  let start := if start < 0 then 0 else start
  if x.length = 0 then some (if start ≤ len then start else -1)
  else leftStrLoop mem x start.toNat ((len : Int) - x.length - start + 1).toNat

/-- The loop of `find_right` for a string, /repo/string.cc:382-385. -/
def rightStrLoop (mem x : Bytes) : Nat → Option Int
  | 0 => some (-1)
  | n + 1 =>
    match same mem n x with
    | none => none
    | some true => some n
    | some false => rightStrLoop mem x n

/-- `find_right` for a string, /repo/string.cc:374-386. -/
def findRightStr (mem : Bytes) (len : Nat) (start : Int) (x : Bytes) : Option Int :=
  let start := if start ≥ len then (len : Int) - x.length else start
  if x.length = 0 then some (if start ≥ 0 then start else -1)
  else rightStrLoop mem x (start + 1).toNat

/-- The loop of `to_i`, /repo/string.cc:398-399. -/
def digitsLoop (x : Nat) : Bytes → Nat
  | [] => x
  | c :: s => if isDigit c then digitsLoop ((x * 10 + c + (18446744073709551616 - 48)) % 18446744073709551616) s else x

/-- Conversion of `unsigned long` to `long`. -/
def toLong (x : Nat) : Int := if x < 9223372036854775808 then x else (x : Int) - 18446744073709551616

/-- `to_i`, /repo/string.cc:388-401. -/
def toI (s : Bytes) : Int :=
  let p : Bool × Bytes := match s with
    | c :: t => if c = 45 ∨ c = 43 then (c == 45, t) else (false, c :: t)
    | [] => (false, [])
  match p.2 with
  | [] => 0
  | c :: t =>
    if !isDigit c then 0
    else
      let x := digitsLoop (c - 48) t
      toLong (if p.1 then (18446744073709551616 - x) % 18446744073709551616 else x)

/-- `ltrim`, /repo/string_base.hh:481-487. -/
def ltrim (s : Bytes) : Bytes := s.dropWhile isSpace

/-- `rtrim`, /repo/string_base.hh:489-495. -/
def rtrim (s : Bytes) : Bytes := (s.reverse.dropWhile isSpace).reverse

/-- `trim`, /repo/string_base.hh:497-505. -/
def trim (s : Bytes) : Bytes := (rtrim s).dropWhile isSpace

/-- `toupper` of the C locale. -/
def toUpper (c : Nat) : Nat := if 97 ≤ c ∧ c ≤ 122 then c - 32 else c

/-- `lower` and `hard_lower`, /repo/string.cc:913-937. -/
def lower (s : Bytes) : Bytes :=
  match s.findIdx? (fun c => decide (65 ≤ c) && decide (c ≤ 90)) with
  | some i => s.take i ++ (s.drop i).map toLower
  | none => s

/-- `upper` and `hard_upper`, /repo/string.cc:939-962. -/
def upper (s : Bytes) : Bytes :=
  match s.findIdx? (fun c => decide (97 ≤ c) && decide (c ≤ 122)) with
  | some i => s.take i ++ (s.drop i).map toUpper
  | none => s

/-! ## Comparisons -/

theorem memcmp_zero {n : Nat} : ∀ {a b : Bytes}, n ≤ a.length → n ≤ b.length → (memcmp n a b = 0 ↔ a.take n = b.take n) := by
  induction n with
  | zero => intro a b _ _; simp [memcmp]
  | succ n ih =>
    intro a b ha hb
    cases a with
    | nil => simp at ha
    | cons x a =>
      cases b with
      | nil => simp at hb
      | cons y b =>
        simp only [List.length_cons] at ha hb
        simp only [memcmp, List.take_succ_cons, List.cons.injEq]
        split
        · rename_i h; simp [h, ih (a := a) (b := b) (by omega) (by omega)]
        · rename_i h
          constructor
          · intro h'; omega
          · intro h'; exact absurd h'.1 h

theorem memcmp_lt {a : Bytes} : ∀ {b : Bytes}, (memcmp (if a.length < b.length then a.length else b.length) a b < 0 ∨
    (memcmp (if a.length < b.length then a.length else b.length) a b = 0 ∧ a.length < b.length)) ↔ a < b := by
  induction a with
  | nil =>
    intro b
    cases b with
    | nil => simp [memcmp]
    | cons y b => simp [memcmp]
  | cons x a ih =>
    intro b
    cases b with
    | nil => simp [memcmp]
    | cons y b =>
      have e : (if (x :: a).length < (y :: b).length then (x :: a).length else (y :: b).length) =
          (if a.length < b.length then a.length else b.length) + 1 := by
        simp only [List.length_cons]
        split <;> split <;> omega
      rw [e, memcmp, List.cons_lt_cons_iff]
      by_cases h : x = y
      · subst h
        simp only [if_true, List.length_cons, Nat.add_lt_add_iff_right, Nat.lt_irrefl, false_or, true_and]
        exact ih
      · rw [if_neg h]
        simp only [h, false_and, or_false]
        omega

theorem compareStr_lt (a b : Bytes) : compareStr false a b < 0 ↔ a < b := by
  rw [← memcmp_lt]
  unfold compareStr
  simp only [Bool.false_eq_true, if_false]
  generalize memcmp (if a.length < b.length then a.length else b.length) a b = d
  split <;> omega

theorem compareStr_zero (a b : Bytes) : compareStr false a b = 0 ↔ a = b := by
  unfold compareStr
  simp only [Bool.false_eq_true, if_false]
  constructor
  · intro h
    have hd : memcmp (if a.length < b.length then a.length else b.length) a b = 0 := by
      by_contra hd
      rw [if_pos hd] at h
      exact hd h
    rw [if_neg (by simpa using hd)] at h
    have hl : a.length = b.length := by omega
    rw [if_neg (by omega), memcmp_zero (by omega) (by omega)] at hd
    rwa [List.take_of_length_le (by omega), List.take_of_length_le (by omega)] at hd
  · rintro rfl
    have : memcmp (if a.length < a.length then a.length else a.length) a a = 0 := by
      rw [memcmp_zero (by split <;> omega) (by split <;> omega)]
    rw [this]
    simp

theorem prefix_lt {a b : Bytes} (h : a <+: b) : compareStr true a b = compareStr false a b := by
  have hl := h.length_le
  unfold compareStr
  simp only [if_true, Bool.false_eq_true, if_false]
  have : memcmp (if a.length < b.length then a.length else b.length) a b = 0 := by
    have e : (if a.length < b.length then a.length else b.length) = a.length := by split <;> omega
    rw [e, memcmp_zero (le_refl _) hl, List.take_length]
    exact List.prefix_iff_eq_take.1 h
  rw [this]

theorem prefix_gt {a b : Bytes} (h : b <+: a) : compareStr true a b = compareStr false a b := by
  have hl := h.length_le
  unfold compareStr
  simp only [if_true, Bool.false_eq_true, if_false]
  have : memcmp (if a.length < b.length then a.length else b.length) a b = 0 := by
    have e : (if a.length < b.length then a.length else b.length) = b.length := by split <;> omega
    rw [e, memcmp_zero hl (le_refl _), List.take_length]
    exact (List.prefix_iff_eq_take.1 h).symm
  rw [this]

/-! ## Searches -/

theorem leftLoop_spec {s : Bytes} {x : Nat} (n : Nat) : ∀ i, i + n = s.length ∨ n = 0 ∧ s.length ≤ i →
    (leftLoop s x i n = -1 ∧ (∀ j, i ≤ j → s[j]? ≠ some x)) ∨
      ∃ k : Nat, leftLoop s x i n = k ∧ i ≤ k ∧ s[k]? = some x ∧ ∀ j, i ≤ j → j < k → s[j]? ≠ some x := by
  induction n with
  | zero =>
    intro i h
    refine Or.inl ⟨rfl, fun j hj => ?_⟩
    rw [List.getElem?_eq_none (by omega)]; simp
  | succ n ih =>
    intro i h
    rw [leftLoop]
    split
    · rename_i hx
      exact Or.inr ⟨i, rfl, le_refl _, hx, fun j h1 h2 => by omega⟩
    · rename_i hx
      rcases ih (i + 1) (by omega) with ⟨e, h'⟩ | ⟨k, e, h1, h2, h3⟩
      · refine Or.inl ⟨e, fun j hj => ?_⟩
        rcases Nat.eq_or_lt_of_le hj with rfl | hj
        · exact hx
        · exact h' j hj
      · refine Or.inr ⟨k, e, by omega, h2, fun j hj hk => ?_⟩
        rcases Nat.eq_or_lt_of_le hj with rfl | hj
        · exact hx
        · exact h3 j hj hk

theorem rightLoop_spec {s : Bytes} {x : Nat} (n : Nat) :
    (rightLoop s x n = -1 ∧ (∀ j, j < n → s[j]? ≠ some x)) ∨
      ∃ k : Nat, rightLoop s x n = k ∧ k < n ∧ s[k]? = some x ∧ ∀ j, k < j → j < n → s[j]? ≠ some x := by
  induction n with
  | zero => exact Or.inl ⟨rfl, fun j hj => by omega⟩
  | succ n ih =>
    rw [rightLoop]
    split
    · rename_i hx
      exact Or.inr ⟨n, rfl, by omega, hx, fun j h1 h2 => by omega⟩
    · rename_i hx
      rcases ih with ⟨e, h'⟩ | ⟨k, e, h1, h2, h3⟩
      · refine Or.inl ⟨e, fun j hj => ?_⟩
        rcases Nat.eq_or_lt_of_le (Nat.le_of_lt_succ hj) with rfl | hj
        · exact hx
        · exact h' j hj
      · refine Or.inr ⟨k, e, by omega, h2, fun j hk hj => ?_⟩
        rcases Nat.eq_or_lt_of_le (Nat.le_of_lt_succ hj) with rfl | hj
        · exact hx
        · exact h3 j hk hj

/-- The string `x` is in memory at `i`. -/
def Has (mem : Bytes) (i : Nat) (x : Bytes) : Prop := x <+: mem.drop i

theorem same_spec {mem : Bytes} {i : Nat} {x : Bytes} (h : i + x.length ≤ mem.length) :
    ∃ b, same mem i x = some b ∧ (b = true ↔ Has mem i x) := by
  refine ⟨_, if_pos h, ?_⟩
  rw [beq_iff_eq, memcmp_zero (by rw [List.length_drop]; omega) (le_refl _), List.take_length, Has, List.prefix_iff_eq_take]
  exact eq_comm

theorem leftStrLoop_spec {mem x : Bytes} (n : Nat) : ∀ i, (∀ j, i ≤ j → j < i + n → j + x.length ≤ mem.length) →
    (leftStrLoop mem x i n = some (-1) ∧ (∀ j, i ≤ j → j < i + n → ¬ Has mem j x)) ∨
      ∃ k : Nat, leftStrLoop mem x i n = some (k : Int) ∧ i ≤ k ∧ k < i + n ∧ Has mem k x ∧ ∀ j, i ≤ j → j < k → ¬ Has mem j x := by
  induction n with
  | zero => intro i _; exact Or.inl ⟨rfl, fun j h1 h2 => by omega⟩
  | succ n ih =>
    intro i h
    rw [leftStrLoop]
    obtain ⟨b, e, hb⟩ := same_spec (h i (le_refl _) (by omega))
    rw [e]
    cases b with
    | true => exact Or.inr ⟨i, rfl, le_refl _, by omega, hb.1 rfl, fun j h1 h2 => by omega⟩
    | false =>
      have hi : ¬ Has mem i x := fun h => by have := hb.2 h; cases this
      rcases ih (i + 1) (fun j h1 h2 => h j (by omega) (by omega)) with ⟨e, h'⟩ | ⟨k, e, h0, h1, h2, h3⟩
      · refine Or.inl ⟨e, fun j hj hj' => ?_⟩
        rcases Nat.eq_or_lt_of_le hj with rfl | hj
        · exact hi
        · exact h' j hj (by omega)
      · refine Or.inr ⟨k, e, by omega, by omega, h2, fun j hj hk => ?_⟩
        rcases Nat.eq_or_lt_of_le hj with rfl | hj
        · exact hi
        · exact h3 j hj hk

theorem rightStrLoop_spec {mem x : Bytes} (n : Nat) (h : ∀ j, j < n → j + x.length ≤ mem.length) :
    (rightStrLoop mem x n = some (-1) ∧ (∀ j, j < n → ¬ Has mem j x)) ∨
      ∃ k : Nat, rightStrLoop mem x n = some (k : Int) ∧ k < n ∧ Has mem k x ∧ ∀ j, k < j → j < n → ¬ Has mem j x := by
  induction n with
  | zero => exact Or.inl ⟨rfl, fun j hj => by omega⟩
  | succ n ih =>
    rw [rightStrLoop]
    obtain ⟨b, e, hb⟩ := same_spec (h n (by omega))
    rw [e]
    cases b with
    | true => exact Or.inr ⟨n, rfl, by omega, hb.1 rfl, fun j h1 h2 => by omega⟩
    | false =>
      have hi : ¬ Has mem n x := fun h => by have := hb.2 h; cases this
      rcases ih (fun j hj => h j (by omega)) with ⟨e, h'⟩ | ⟨k, e, h1, h2, h3⟩
      · refine Or.inl ⟨e, fun j hj => ?_⟩
        rcases Nat.eq_or_lt_of_le (Nat.le_of_lt_succ hj) with rfl | hj
        · exact hi
        · exact h' j hj
      · refine Or.inr ⟨k, e, by omega, h2, fun j hk hj => ?_⟩
        rcases Nat.eq_or_lt_of_le (Nat.le_of_lt_succ hj) with rfl | hj
        · exact hi
        · exact h3 j hk hj

/-! ## Numbers -/

theorem digitsLoop_spec (s : Bytes) : ∀ x, x < 18446744073709551616 →
    digitsLoop x s = (x * 10 ^ (s.takeWhile isDigit).length + value (s.takeWhile isDigit)) % 18446744073709551616 := by
  induction s with
  | nil => intro x hx; simp [digitsLoop, value]; omega
  | cons c s ih =>
    intro x hx
    rw [digitsLoop, List.takeWhile_cons]
    cases hc : isDigit c with
    | false => simp [value]; omega
    | true =>
      have h48 : 48 ≤ c := by
        simp only [isDigit, Bool.and_eq_true, decide_eq_true_eq] at hc
        exact hc.1
      simp only [if_true]
      rw [ih _ (Nat.mod_lt _ (by omega))]
      have e : value (c :: s.takeWhile isDigit) = (c - 48) * 10 ^ (s.takeWhile isDigit).length + value (s.takeWhile isDigit) := by
        show List.foldl _ 0 (c :: s.takeWhile isDigit) = _
        rw [List.foldl_cons, value_fold]
        simp
      rw [e, List.length_cons, Nat.pow_succ]
      have e2 : (x * 10 + c + (18446744073709551616 - 48)) % 18446744073709551616 = (x * 10 + (c - 48)) % 18446744073709551616 := by omega
      rw [e2, Nat.add_mod, Nat.mod_mul_mod, ← Nat.add_mod]
      generalize 10 ^ (s.takeWhile isDigit).length = p
      rw [Nat.add_mul, Nat.mul_assoc x 10 p, Nat.mul_comm 10 p, Nat.add_assoc]

theorem toLong_bmod {x : Nat} (h : x < 18446744073709551616) : toLong x = Int.bmod x 18446744073709551616 := by
  unfold toLong
  rw [Int.bmod_def]
  have : (x : Int) % ((18446744073709551616 : Nat) : Int) = x := Int.emod_eq_of_lt (by omega) (by omega)
  rw [this]
  split <;> split <;> omega

end Verif.Text
