import Verif.Text.Natural
import Mathlib.Data.List.TakeWhile
import Mathlib.Data.Ordering.Basic
import Mathlib.Order.Compare
import Mathlib.Tactic.Ring

/-!
# What the natural order compares

A string is cut into tokens: a run of digits is a number, every other byte stands for itself without its case.  Strings without
periods are compared token by token; between strings of the same tokens the first byte that differs decides.
-/
namespace Verif.Text

/-- The number that digits denote. -/
def value (s : Bytes) : Nat := s.foldl (fun v c => 10 * v + (c - 48)) 0

/-- A run of digits with its sign and its leading zeros, or another byte without its case. -/
inductive Tok where
  | num (v : Int) (leading : Nat)
  | chr (c : Nat)
deriving DecidableEq, Repr

/-- The number that digits denote, in a place where it is or is not negative. -/
def number (neg : Bool) (s : Bytes) : Tok :=
  .num (if neg then -(value s : Int) else value s) (s.takeWhile (· == 48)).length

/-- The tokens of a string, after the bytes `pa` (the last first). -/
def tokens (pa : Bytes) (s : Bytes) : List Tok :=
  match s with
  | [] => []
  | x :: s =>
    if isDigit x then
      number (negativeAt pa) ((x :: s).takeWhile isDigit) ::
        tokens (((x :: s).takeWhile isDigit).reverse ++ pa) ((x :: s).dropWhile isDigit)
    else .chr (toLower x) :: tokens (x :: pa) s
termination_by s.length
decreasing_by
  · rename_i h
    simp only [List.dropWhile_cons, h, if_true, List.length_cons]
    exact Nat.lt_succ_of_le (List.length_dropWhile_le _ _)
  · simp

/-- Numbers by value, then by leading zeros; other bytes by their code; a number is before a letter and after any other byte. -/
def tokCmp : Tok → Tok → Ordering
  | .num v z, .num v' z' => (compare v v').then (compare z z')
  | .num _ _, .chr c => if isAlpha c then .lt else .gt
  | .chr c, .num _ _ => if isAlpha c then .gt else .lt
  | .chr c, .chr d => compare c d

/-- Lists by the first difference; what runs out first is smaller. -/
def lexCmp {α : Type} (f : α → α → Ordering) : List α → List α → Ordering
  | [], [] => .eq
  | [], _ :: _ => .lt
  | _ :: _, [] => .gt
  | x :: a, y :: b => (f x y).then (lexCmp f a b)

/-! ## Values of digits -/

theorem value_fold (s : Bytes) : ∀ v, s.foldl (fun v c => 10 * v + (c - 48)) v = v * 10 ^ s.length + value s := by
  unfold value
  induction s with
  | nil => intro v; simp
  | cons c s ih =>
    intro v
    rw [List.foldl_cons, List.foldl_cons, ih, ih (10 * 0 + (c - 48)), List.length_cons, Nat.pow_succ]
    ring

theorem value_cons (c : Nat) (s : Bytes) : value (c :: s) = (c - 48) * 10 ^ s.length + value s := by
  have := value_fold s (c - 48)
  unfold value at *
  rw [List.foldl_cons]
  simpa using this

theorem value_lt {s : Bytes} (h : ∀ c ∈ s, isDigit c = true) : value s < 10 ^ s.length := by
  induction s with
  | nil => simp [value]
  | cons c s ih =>
    rw [value_cons, List.length_cons, Nat.pow_succ]
    have h1 := ih (fun c hc => h c (List.mem_cons_of_mem _ hc))
    have h2 : c - 48 ≤ 9 := by
      have := h c List.mem_cons_self
      simp only [isDigit, Bool.and_eq_true, decide_eq_true_eq] at this
      omega
    have := Nat.mul_le_mul_right (10 ^ s.length) h2
    omega

theorem value_zeros (k : Nat) (s : Bytes) : value (List.replicate k 48 ++ s) = value s := by
  induction k with
  | zero => rfl
  | succ k ih => rw [List.replicate_succ, List.cons_append, value_cons, ih]; simp

/-- A number without leading zeros is at least the power of ten of its length. -/
theorem value_ge {c : Nat} {s : Bytes} (hc : 49 ≤ c) : 10 ^ s.length ≤ value (c :: s) := by
  rw [value_cons]
  have : 1 ≤ c - 48 := by omega
  have := Nat.mul_le_mul_right (10 ^ s.length) this
  omega

/-- A longer number without leading zeros is larger. -/
theorem value_longer {u v : Bytes} (hv : ∀ c ∈ v, isDigit c = true) (hu : u.head? ≠ some 48) (hd : ∀ c ∈ u, isDigit c = true)
    (hl : v.length < u.length) : value v < value u := by
  cases u with
  | nil => simp at hl
  | cons c u =>
    have h1 : 49 ≤ c := by
      have := hd c List.mem_cons_self
      simp only [isDigit, Bool.and_eq_true, decide_eq_true_eq] at this
      have : c ≠ 48 := fun h => hu (by simp [h])
      omega
    have h2 := value_ge (s := u) h1
    have h3 := value_lt hv
    have h4 : 10 ^ v.length ≤ 10 ^ u.length := Nat.pow_le_pow_right (by omega) (by simp only [List.length_cons] at hl; omega)
    omega

/-! ## Zeros and digits -/

theorem zeros_spec (s : Bytes) : s = List.replicate (zeros s).1 48 ++ (zeros s).2 ∧ (zeros s).2.head? ≠ some 48 := by
  induction s with
  | nil => simp [zeros]
  | cons c s ih =>
    by_cases h : c = 48
    · subst h
      refine ⟨?_, ?_⟩
      · show 48 :: s = List.replicate ((zeros s).1 + 1) 48 ++ (zeros s).2
        rw [List.replicate_succ, List.cons_append, ← ih.1]
      · exact ih.2
    · have : zeros (c :: s) = (0, c :: s) := by
        unfold zeros
        split
        · rename_i heq; simp only [List.cons.injEq] at heq; exact absurd heq.1 h
        · rfl
      rw [this]
      simp [h]

theorem walk_done {a b : Bytes} (d : Int) (h : (good a && good b) = false) : walk a b d = (a, b, d) := by
  match a, b with
  | [], _ => simp [walk]
  | _ :: _, [] => simp [walk]
  | x :: a, y :: b =>
    simp only [good] at h
    unfold walk
    simp [h]

/-- What the walk over digits finds. -/
theorem walk_spec (a b : Bytes) (d : Int) : ∃ u v : Bytes, a = u ++ (walk a b d).1 ∧ b = v ++ (walk a b d).2.1 ∧ u.length = v.length ∧
    (∀ c ∈ u, isDigit c = true) ∧ (∀ c ∈ v, isDigit c = true) ∧ (good (walk a b d).1 && good (walk a b d).2.1) = false ∧
    (d ≠ 0 → (walk a b d).2.2 = d) ∧
    (d = 0 → ((walk a b d).2.2 = 0 → u = v) ∧ (0 < (walk a b d).2.2 → value v < value u) ∧ ((walk a b d).2.2 < 0 → value u < value v)) := by
  induction a generalizing b d with
  | nil => exact ⟨[], [], by simp [walk, good]; omega⟩
  | cons x a ih =>
    cases b with
    | nil => exact ⟨[], [], by simp [walk, good]; omega⟩
    | cons y b =>
      by_cases h : (isDigit x && isDigit y) = true
      · have e : walk (x :: a) (y :: b) d = walk a b (if d = 0 then (x : Int) - y else d) := by
          rw [walk]; simp [h]
        rw [e]
        obtain ⟨u, v, h1, h2, h3, h4, h5, h6, h7, h8⟩ := ih b (if d = 0 then (x : Int) - y else d)
        simp only [Bool.and_eq_true] at h
        refine ⟨x :: u, y :: v, by rw [List.cons_append, ← h1], by rw [List.cons_append, ← h2], by simp [h3], ?_, ?_, h6, ?_, ?_⟩
        · simpa [h.1] using h4
        · simpa [h.2] using h5
        · intro hd
          rw [if_neg hd] at h7 ⊢
          exact h7 hd
        · intro hd
          rw [if_pos hd] at h7 h8 ⊢
          have hx := h.1
          have hy := h.2
          simp only [isDigit, Bool.and_eq_true, decide_eq_true_eq] at hx hy
          have lu := value_lt h4
          have lv := value_lt h5
          rw [value_cons, value_cons]
          by_cases hxy : x = y
          · subst hxy
            obtain ⟨k1, k2, k3⟩ := h8 (by omega)
            rw [h3]
            refine ⟨fun h => by rw [k1 h], fun h => ?_, fun h => ?_⟩
            · have := k2 h; omega
            · have := k3 h; omega
          · have hne : (x : Int) - y ≠ 0 := by omega
            rw [h7 hne, h3]
            rw [h3] at lu
            refine ⟨fun h => absurd h hne, fun h => ?_, fun h => ?_⟩
            · have : y - 48 + 1 ≤ x - 48 := by omega
              have := Nat.mul_le_mul_right (10 ^ v.length) this
              rw [Nat.add_mul] at this
              omega
            · have : x - 48 + 1 ≤ y - 48 := by omega
              have := Nat.mul_le_mul_right (10 ^ v.length) this
              rw [Nat.add_mul] at this
              omega
      · have h' : (good (x :: a) && good (y :: b)) = false := by simpa [good] using h
        rw [walk_done d h']
        exact ⟨[], [], by simp, by simp, rfl, by simp, by simp, h', fun _ => rfl, by
          intro hd; subst hd; simp⟩

theorem takeWhile_all {p : Nat → Bool} {u : Bytes} (h : ∀ c ∈ u, p c = true) (t : Bytes) :
    (u ++ t).takeWhile p = u ++ t.takeWhile p := List.takeWhile_append_of_pos h

theorem dropWhile_all {p : Nat → Bool} {u : Bytes} (h : ∀ c ∈ u, p c = true) (t : Bytes) :
    (u ++ t).dropWhile p = t.dropWhile p := List.dropWhile_append_of_pos h

theorem good_takeWhile {s : Bytes} : s.takeWhile isDigit = [] ↔ good s = false := by
  cases s with
  | nil => simp [good]
  | cons c s => by_cases h : isDigit c = true <;> simp [good, h]

theorem good_dropWhile {s : Bytes} (h : good s = false) : s.dropWhile isDigit = s := by
  cases s with
  | nil => rfl
  | cons c s => simp only [good] at h; simp [h]

/-- A number read in three parts: its zeros, the digits of the walk, and the digits that are left. -/
theorem run_spec {a u t : Bytes} {k : Nat} (ha : a = List.replicate k 48 ++ (u ++ t)) (hu : ∀ c ∈ u, isDigit c = true)
    (hh : (u ++ t).head? ≠ some 48) :
    a.takeWhile isDigit = List.replicate k 48 ++ (u ++ t.takeWhile isDigit) ∧ a.dropWhile isDigit = t.dropWhile isDigit ∧
    ((a.takeWhile isDigit).takeWhile (· == 48)).length = k ∧ value (a.takeWhile isDigit) = value (u ++ t.takeWhile isDigit) ∧
    (u ++ t.takeWhile isDigit).head? ≠ some 48 := by
  have hk : ∀ c ∈ List.replicate k 48, isDigit c = true := by
    intro c hc; rw [List.eq_of_mem_replicate hc]; rfl
  have h1 : a.takeWhile isDigit = List.replicate k 48 ++ (u ++ t.takeWhile isDigit) := by
    rw [ha, takeWhile_all hk, takeWhile_all hu]
  have h5 : (u ++ t.takeWhile isDigit).head? ≠ some 48 := by
    cases u with
    | nil =>
      cases t with
      | nil => simp
      | cons c t => by_cases h : isDigit c = true <;> simp_all
    | cons c u => simpa using hh
  refine ⟨h1, by rw [ha, dropWhile_all hk, dropWhile_all hu], ?_, by rw [h1, value_zeros], h5⟩
  rw [h1, takeWhile_all (p := (· == 48)) (by intro c hc; rw [List.eq_of_mem_replicate hc]; rfl)]
  have : (u ++ t.takeWhile isDigit).takeWhile (· == 48) = [] := by
    generalize u ++ t.takeWhile isDigit = w at h5
    cases w with
    | nil => rfl
    | cons c w =>
      have : (c == 48) = false := by
        simp only [List.head?_cons, ne_eq, Option.some.injEq] at h5
        simpa using h5
      simp [this]
  rw [this]; simp

theorem fraction_free {s : Bytes} (h : 46 ∉ s) : fraction s = false := by
  unfold fraction
  split
  · exact absurd List.mem_cons_self h
  · rfl

theorem mem_of_suffix {a u t : Bytes} (h : a = u ++ t) {c : Nat} (hc : c ∉ a) : c ∉ t := by
  rw [h, List.mem_append] at hc; exact fun h' => hc (Or.inr h')

/-- Two numbers of strings without periods: by value, then by leading zeros; the loop goes on only after equal digits. -/
theorem numbers_plain (pa : Bytes) {a b : Bytes} (pn : Bool) (ha : 46 ∉ a) (hb : 46 ∉ b) :
    (∃ r, numbers pa a b none pn = .inl r ∧ r ≠ 0 ∧
      compare r 0 = tokCmp (number (negativeAt pa) (a.takeWhile isDigit)) (number (negativeAt pa) (b.takeWhile isDigit))) ∨
    (a.takeWhile isDigit = b.takeWhile isDigit ∧ numbers pa a b none pn = .inr ⟨a.dropWhile isDigit, b.dropWhile isDigit, none, pn⟩) := by
  obtain ⟨za1, za2⟩ := zeros_spec a
  obtain ⟨zb1, zb2⟩ := zeros_spec b
  obtain ⟨u, v, h1, h2, h3, h4, h5, h6, -, h8⟩ := walk_spec (zeros a).2 (zeros b).2 0
  obtain ⟨k1, k2, k3⟩ := h8 rfl
  have fa := fraction_free (mem_of_suffix h1 (mem_of_suffix za1 ha))
  have fb := fraction_free (mem_of_suffix h2 (mem_of_suffix zb1 hb))
  have dec : ((none : Option Nat) == some pa.length) = false := rfl
  unfold numbers
  simp only [dec, Bool.false_and, Bool.false_eq_true, if_false, fa, fb, bne_self_eq_false, Option.isNone_none, if_true]
  generalize hw1 : (walk (zeros a).2 (zeros b).2 0).1 = a' at *
  generalize hw2 : (walk (zeros a).2 (zeros b).2 0).2.1 = b' at *
  generalize hw3 : (walk (zeros a).2 (zeros b).2 0).2.2 = d at *
  have ra := run_spec (h1 ▸ za1) h4 (h1 ▸ za2)
  have rb := run_spec (h2 ▸ zb1) h5 (h2 ▸ zb2)
  obtain ⟨ra1, ra2, ra3, ra4, ra5⟩ := ra
  obtain ⟨rb1, rb2, rb3, rb4, rb5⟩ := rb
  have key : ∀ neg, number neg (a.takeWhile isDigit) =
      .num (if neg then -(value (u ++ a'.takeWhile isDigit) : Int) else value (u ++ a'.takeWhile isDigit)) (zeros a).1 := by
    intro neg; unfold number; rw [ra3, ra4]
  have keyb : ∀ neg, number neg (b.takeWhile isDigit) =
      .num (if neg then -(value (v ++ b'.takeWhile isDigit) : Int) else value (v ++ b'.takeWhile isDigit)) (zeros b).1 := by
    intro neg; unfold number; rw [rb3, rb4]
  have du : ∀ c ∈ u ++ a'.takeWhile isDigit, isDigit c = true := by
    intro c hc
    rcases List.mem_append.1 hc with hc | hc
    · exact h4 c hc
    · exact List.mem_takeWhile_imp hc
  have dv : ∀ c ∈ v ++ b'.takeWhile isDigit, isDigit c = true := by
    intro c hc
    rcases List.mem_append.1 hc with hc | hc
    · exact h5 c hc
    · exact List.mem_takeWhile_imp hc
  rw [key, keyb]
  -- how the values compare
  have less : ∀ {m n : Nat}, m < n → ∀ z z', tokCmp (.num (if negativeAt pa = true then -(m : Int) else m) z)
      (.num (if negativeAt pa = true then -(n : Int) else n) z') = if negativeAt pa then .gt else .lt := by
    intro m n hmn z z'
    cases negativeAt pa
    · simp only [Bool.false_eq_true, if_false, tokCmp]
      rw [compare_lt_iff_lt.2 (by omega : (m : Int) < n)]; rfl
    · simp only [if_true, tokCmp]
      rw [compare_gt_iff_gt.2 (by omega : -(n : Int) < -(m : Int))]; rfl
  have more : ∀ {m n : Nat}, n < m → ∀ z z', tokCmp (.num (if negativeAt pa = true then -(m : Int) else m) z)
      (.num (if negativeAt pa = true then -(n : Int) else n) z') = if negativeAt pa then .lt else .gt := by
    intro m n hmn z z'
    cases negativeAt pa
    · simp only [Bool.false_eq_true, if_false, tokCmp]
      rw [compare_gt_iff_gt.2 (by omega : (n : Int) < m)]; rfl
    · simp only [if_true, tokCmp]
      rw [compare_lt_iff_lt.2 (by omega : -(m : Int) < -(n : Int))]; rfl
  by_cases hg : good a' = good b'
  · have ga : good a' = false := by
      rw [← hg, Bool.and_self] at h6; exact h6
    have gb : good b' = false := hg ▸ ga
    rw [good_takeWhile.2 ga, good_takeWhile.2 gb, List.append_nil, List.append_nil]
    simp only [hg, bne_self_eq_false, Bool.false_eq_true, if_false]
    by_cases hd : d = 0
    · have huv := k1 hd
      subst huv
      simp only [hd, ne_eq, not_true_eq_false, if_false]
      by_cases hz : ((zeros a).1 : Int) - (zeros b).1 = 0
      · right
        have hz' : (zeros a).1 = (zeros b).1 := by omega
        refine ⟨?_, ?_⟩
        · rw [ra1, rb1, good_takeWhile.2 ga, good_takeWhile.2 gb, hz']
        · simp only [hz, not_true_eq_false, if_false]
          rw [ra2, rb2, good_dropWhile ga, good_dropWhile gb]
      · left
        refine ⟨_, by rw [if_pos hz], hz, ?_⟩
        simp only [tokCmp]
        rw [compare_eq_iff_eq.2 rfl]
        show _ = compare (zeros a).1 (zeros b).1
        rcases Nat.lt_trichotomy (zeros a).1 (zeros b).1 with h | h | h
        · rw [compare_lt_iff_lt.2 h, compare_lt_iff_lt.2 (by omega)]
        · omega
        · rw [compare_gt_iff_gt.2 h, compare_gt_iff_gt.2 (by omega : (((zeros a).1 : Int) - (zeros b).1) > 0)]
    · left
      simp only [ne_eq, hd, not_false_eq_true, if_true]
      refine ⟨_, rfl, by split <;> omega, ?_⟩
      rcases Int.lt_trichotomy d 0 with h | h | h
      · rw [less (k3 h), decide_eq_false (by omega)]
        cases negativeAt pa <;> rfl
      · exact absurd h hd
      · rw [more (k2 h), decide_eq_true h]
        cases negativeAt pa <;> rfl
  · left
    have hne : (good a' != good b') = true := by simpa using hg
    simp only [hne, if_true]
    refine ⟨_, rfl, by split <;> omega, ?_⟩
    cases ga : good a' with
    | false =>
      have gb : good b' = true := by
        cases h : good b' with
        | true => rfl
        | false => exact absurd (ga.trans h.symm) hg
      have hl : (u ++ a'.takeWhile isDigit).length < (v ++ b'.takeWhile isDigit).length := by
        rw [good_takeWhile.2 ga, List.length_append, List.length_append, h3]
        have : b'.takeWhile isDigit ≠ [] := fun h => by rw [good_takeWhile.1 h] at gb; exact absurd gb (by decide)
        have := List.length_pos_iff.2 this
        simp only [List.length_nil]; omega
      rw [less (value_longer du rb5 dv hl)]
      cases negativeAt pa <;> rfl
    | true =>
      have gb : good b' = false := by
        rw [ga, Bool.true_and] at h6; exact h6
      have hl : (v ++ b'.takeWhile isDigit).length < (u ++ a'.takeWhile isDigit).length := by
        rw [good_takeWhile.2 gb, List.length_append, List.length_append, h3]
        have : a'.takeWhile isDigit ≠ [] := fun h => by rw [good_takeWhile.1 h] at ga; exact absurd ga (by decide)
        have := List.length_pos_iff.2 this
        simp only [List.length_nil]; omega
      rw [more (value_longer dv ra5 du hl)]
      cases negativeAt pa <;> rfl

/-! ## Letters without their case -/

theorem lower_dash {c : Nat} : toLower c = 45 ↔ c = 45 := by unfold toLower; split <;> omega

theorem lower_space (c : Nat) : isSpace (toLower c) = isSpace c := by
  unfold toLower
  split
  · rename_i h
    have h1 : isSpace (c + 32) = false := by
      simp only [isSpace, Bool.or_eq_false_iff, Bool.and_eq_false_iff, decide_eq_false_iff_not, beq_eq_false_iff_ne]; omega
    have h2 : isSpace c = false := by
      simp only [isSpace, Bool.or_eq_false_iff, Bool.and_eq_false_iff, decide_eq_false_iff_not, beq_eq_false_iff_ne]; omega
    rw [h1, h2]
  · rfl

theorem lower_alpha (c : Nat) : isAlpha (toLower c) = isAlpha c := by
  unfold toLower
  split
  · rename_i h
    have h1 : isAlpha (c + 32) = true := by
      simp only [isAlpha, Bool.or_eq_true, Bool.and_eq_true, decide_eq_true_eq]; omega
    have h2 : isAlpha c = true := by
      simp only [isAlpha, Bool.or_eq_true, Bool.and_eq_true, decide_eq_true_eq]; omega
    rw [h1, h2]
  · rfl

theorem negativeAt_lower {pa pb : Bytes} (h : pa.map toLower = pb.map toLower) : negativeAt pa = negativeAt pb := by
  match pa, pb, h with
  | [], [], _ => rfl
  | [x], [y], h =>
    simp only [List.map_cons, List.map_nil, List.cons.injEq, and_true] at h
    by_cases hx : x = 45
    · have hy : y = 45 := lower_dash.1 (by rw [← h, lower_dash.2 hx])
      rw [hx, hy]
    · have hy : y ≠ 45 := fun hy => hx (lower_dash.1 (by rw [h, lower_dash.2 hy]))
      simp [negativeAt, hx, hy]
  | [_], _ :: _ :: _, h => simp at h
  | _ :: _ :: _, [_], h => simp at h
  | x :: x' :: pa, y :: y' :: pb, h =>
    simp only [List.map_cons, List.cons.injEq] at h
    by_cases hx : x = 45
    · have hy : y = 45 := lower_dash.1 (by rw [← h.1, lower_dash.2 hx])
      subst hx; subst hy
      show isSpace x' = isSpace y'
      rw [← lower_space x', ← lower_space y', h.2.1]
    · have hy : y ≠ 45 := fun hy => hx (lower_dash.1 (by rw [h.1, lower_dash.2 hy]))
      simp [negativeAt, hx, hy]

/-! ## Comparing lists -/

theorem lexCmp_append {α : Type} {f : α → α → Ordering} (hf : ∀ x, f x x = .eq) (u a b : List α) :
    lexCmp f (u ++ a) (u ++ b) = lexCmp f a b := by
  induction u with
  | nil => rfl
  | cons x u ih => rw [List.cons_append, List.cons_append, lexCmp, hf, ih]; rfl

theorem compare_sub (x y : Int) : compare (x - y) 0 = compare x y := by
  rcases Int.lt_trichotomy x y with h | h | h
  · rw [compare_lt_iff_lt.2 h, compare_lt_iff_lt.2 (by omega)]
  · subst h; simp
  · rw [compare_gt_iff_gt.2 h, compare_gt_iff_gt.2 (by omega)]

theorem compare_cast (x y : Nat) : compare (x : Int) y = compare x y := by
  rcases Nat.lt_trichotomy x y with h | h | h
  · rw [compare_lt_iff_lt.2 h, compare_lt_iff_lt.2 (by omega)]
  · subst h; simp
  · rw [compare_gt_iff_gt.2 h, compare_gt_iff_gt.2 (by omega)]

theorem tokCmp_self (t : Tok) : tokCmp t t = .eq := by cases t <;> simp [tokCmp]

theorem take_run (p : Nat → Bool) (s : Bytes) : s.take (s.length - (s.dropWhile p).length) = s.takeWhile p := by
  have h := List.takeWhile_append_dropWhile (p := p) (l := s)
  have hl : s.length = (s.takeWhile p).length + (s.dropWhile p).length := by
    conv_lhs => rw [← h]
    rw [List.length_append]
  rw [hl, Nat.add_sub_cancel]
  generalize s.takeWhile p = u, s.dropWhile p = v at h
  rw [← h, List.take_left' rfl]

theorem tokens_digit {pa : Bytes} {x : Nat} {s : Bytes} (h : isDigit x = true) : tokens pa (x :: s) =
    number (negativeAt pa) ((x :: s).takeWhile isDigit) ::
      tokens (((x :: s).takeWhile isDigit).reverse ++ pa) ((x :: s).dropWhile isDigit) := by
  rw [tokens]; simp [h]

theorem tokens_other {pa : Bytes} {x : Nat} {s : Bytes} (h : isDigit x = false) :
    tokens pa (x :: s) = .chr (toLower x) :: tokens (x :: pa) s := by
  rw [tokens]; simp [h]

theorem tokens_nil {pa : Bytes} : tokens pa [] = [] := by rw [tokens]

theorem tokens_cons {pa : Bytes} {x : Nat} {s : Bytes} : ∃ t l, tokens pa (x :: s) = t :: l := by
  cases h : isDigit x with
  | true => exact ⟨_, _, tokens_digit h⟩
  | false => exact ⟨_, _, tokens_other h⟩

/-- Strings without periods are compared by their tokens, and then by their bytes. -/
theorem loop_order (n : Nat) : ∀ (pa pb a b : Bytes) (pn : Bool) (raw : Int), a.length ≤ n → 46 ∉ a → 46 ∉ b →
    pa.map toLower = pb.map toLower →
    compare (loop n pa a b none pn raw) 0 =
      (lexCmp tokCmp (tokens pa a) (tokens pb b)).then (if raw = 0 then lexCmp compare a b else compare raw 0) := by
  induction n with
  | zero =>
    intro pa pb a b pn raw hl ha hb hp
    have : a = [] := List.length_eq_zero_iff.1 (by omega)
    subst this
    cases b with
    | nil => rw [tokens_nil, tokens_nil]; simp [loop, lexCmp]
    | cons y b =>
      obtain ⟨t, l, e⟩ := tokens_cons (pa := pb) (x := y) (s := b)
      rw [e, tokens_nil]
      show compare (if 0 ≠ b.length + 1 then ((0 : Nat) : Int) - ((b.length + 1 : Nat) : Int) else raw) 0 = _
      rw [if_pos (by omega), compare_lt_iff_lt.2 (by omega)]
      rfl
  | succ n ih =>
    intro pa pb a b pn raw hl ha hb hp
    cases a with
    | nil =>
      cases b with
      | nil => rw [tokens_nil, tokens_nil]; simp [loop, lexCmp]
      | cons y b =>
        obtain ⟨t, l, e⟩ := tokens_cons (pa := pb) (x := y) (s := b)
        rw [e, tokens_nil]
        show compare (if 0 ≠ b.length + 1 then ((0 : Nat) : Int) - ((b.length + 1 : Nat) : Int) else raw) 0 = _
        rw [if_pos (by omega), compare_lt_iff_lt.2 (by omega)]
        rfl
    | cons x a =>
      cases b with
      | nil =>
        obtain ⟨t, l, e⟩ := tokens_cons (pa := pa) (x := x) (s := a)
        rw [e, tokens_nil]
        show compare (if a.length + 1 ≠ 0 then ((a.length + 1 : Nat) : Int) - ((0 : Nat) : Int) else raw) 0 = _
        rw [if_pos (by omega), compare_gt_iff_gt.2 (by omega)]
        rfl
      | cons y b =>
        rw [loop]
        cases hx : isDigit x with
        | true =>
          cases hy : isDigit y with
          | true =>
            rw [tokens_digit hx, tokens_digit hy, ← negativeAt_lower hp]
            simp only [Bool.and_self, if_true]
            rcases numbers_plain pa pn ha hb with ⟨r, e, hr, hc⟩ | ⟨heq, e⟩
            · rw [e]
              simp only [lexCmp]
              rw [hc]
              generalize tokCmp _ _ = o at hc ⊢
              cases o with
              | lt => rfl
              | gt => rfl
              | eq => exact absurd (compare_eq_iff_eq.1 hc) hr
            · rw [e]
              simp only [lexCmp]
              rw [take_run, heq, tokCmp_self, ← heq]
              have hd : ((x :: a).dropWhile isDigit).length ≤ n := by
                have := List.length_dropWhile_le isDigit a
                simp only [List.dropWhile_cons, hx, if_true, List.length_cons] at hl ⊢
                omega
              have ma : 46 ∉ (x :: a).dropWhile isDigit := fun h => ha ((List.dropWhile_suffix _).subset h)
              have mb : 46 ∉ (y :: b).dropWhile isDigit := fun h => hb ((List.dropWhile_suffix _).subset h)
              rw [ih _ (((y :: b).takeWhile isDigit).reverse ++ pb) _ _ pn raw hd ma mb (by
                rw [List.map_append, List.map_append, hp, heq])]
              have hlex : (compare x y).then (lexCmp compare a b) =
                  lexCmp compare ((x :: a).dropWhile isDigit) ((y :: b).dropWhile isDigit) := by
                show lexCmp compare (x :: a) (y :: b) = _
                conv_lhs => rw [← List.takeWhile_append_dropWhile (p := isDigit) (l := x :: a),
                  ← List.takeWhile_append_dropWhile (p := isDigit) (l := y :: b), heq]
                exact lexCmp_append (fun x => by simp) _ _ _
              rw [hlex, heq]
              rfl
          | false =>
            rw [tokens_digit hx, tokens_other hy]
            simp only [Bool.and_false, Bool.false_eq_true, if_false, if_true, lexCmp, number, tokCmp, lower_alpha]
            cases isAlpha y <;> rfl
        | false =>
          cases hy : isDigit y with
          | true =>
            rw [tokens_other hx, tokens_digit hy]
            simp only [Bool.and_true, Bool.false_eq_true, if_false, if_true, lexCmp, number, tokCmp, lower_alpha]
            cases isAlpha x <;> rfl
          | false =>
            rw [tokens_other hx, tokens_other hy]
            simp only [Bool.and_self, Bool.false_eq_true, if_false, lexCmp, tokCmp, ite_self]
            by_cases hxy : toLower x = toLower y
            · rw [if_neg (by simpa using hxy), ih (x :: pa) (y :: pb) a b pn _ (by simpa using hl)
                (fun h => ha (List.mem_cons_of_mem _ h)) (fun h => hb (List.mem_cons_of_mem _ h)) (by simp [hp, hxy]), hxy,
                compare_eq_iff_eq.2 rfl]
              show _ = (lexCmp _ _ _).then _
              congr 1
              by_cases hr : raw = 0
              · simp only [hr, if_true]
                by_cases e : (x : Int) - y = 0
                · rw [if_pos e, compare_eq_iff_eq.2 (by omega : x = y)]; rfl
                · rw [if_neg e, compare_sub, compare_cast]
                  have : compare x y ≠ .eq := fun h => e (by rw [compare_eq_iff_eq.1 h]; simp)
                  revert this
                  generalize compare x y = o
                  cases o <;> simp
              · simp [hr]
            · rw [if_pos (by simpa using hxy), compare_sub, compare_cast]
              have : compare (toLower x) (toLower y) ≠ .eq := fun h => hxy (compare_eq_iff_eq.1 h)
              revert this
              generalize compare (toLower x) (toLower y) = o
              cases o <;> simp

/-- `natural_compare` of strings without periods. -/
theorem result_order {a b : Bytes} (ha : 46 ∉ a) (hb : 46 ∉ b) :
    compare (naturalCompare a b) 0 = (lexCmp tokCmp (tokens [] a) (tokens [] b)).then (lexCmp compare a b) := by
  unfold naturalCompare
  rw [loop_order _ [] [] a b false 0 (le_refl _) ha hb rfl]
  simp

/-! ## Equal strings, with periods or without -/

theorem unit_ne {x y : Int} (c : Prop) [Decidable c] (hx : x ≠ 0) (hy : y ≠ 0) : (if c then x else y) ≠ 0 := by
  split <;> assumption

theorem numbers_inl {pa a b : Bytes} {p : Option Nat} {pn : Bool} {r : Int} (h : numbers pa a b p pn = .inl r) : r ≠ 0 := by
  unfold numbers at h
  simp only at h
  split at h
  · simp only [Sum.inl.injEq] at h; subst h; exact unit_ne _ (by decide) (by decide)
  · generalize hga : (if (p == some pa.length && !address (walk (zeros a).2 (zeros b).2 0).1 &&
        !address (walk (zeros a).2 (zeros b).2 0).2.1 && (walk (zeros a).2 (zeros b).2 0).2.2 != 0) = true
        then good (walk (zeros a).2 (zeros b).2 0).2.1 else good (walk (zeros a).2 (zeros b).2 0).1) = ga at h
    split at h
    · simp only [Sum.inl.injEq] at h; subst h; exact unit_ne _ (by decide) (by decide)
    · split at h
      · simp only [Sum.inl.injEq] at h; subst h; exact unit_ne _ (by decide) (by decide)
      · split at h
        · simp only [Sum.inl.injEq] at h; subst h; assumption
        · split at h
          · split at h
            · simp only [Sum.inl.injEq] at h; subst h; exact unit_ne _ (by decide) (by decide)
            · split at h <;> cases h
          · cases h

/-- The loop goes on after a number only if both strings had the same digits. -/
theorem numbers_inr {pa a b : Bytes} {p : Option Nat} {pn : Bool} {t : After} (h : numbers pa a b p pn = .inr t) :
    ∃ u, a = u ++ t.a ∧ b = u ++ t.b ∧ good t.a = false := by
  obtain ⟨za1, -⟩ := zeros_spec a
  obtain ⟨zb1, -⟩ := zeros_spec b
  obtain ⟨u, v, h1, h2, h3, h4, h5, h6, -, h8⟩ := walk_spec (zeros a).2 (zeros b).2 0
  obtain ⟨k1, -, -⟩ := h8 rfl
  have fin : ∀ {d longer : Int}, (walk (zeros a).2 (zeros b).2 0).2.2 = d → d = 0 → ((zeros a).1 : Int) - (zeros b).1 = longer → longer = 0 →
      good (walk (zeros a).2 (zeros b).2 0).1 = good (walk (zeros a).2 (zeros b).2 0).2.1 →
      t.a = (walk (zeros a).2 (zeros b).2 0).1 → t.b = (walk (zeros a).2 (zeros b).2 0).2.1 →
      ∃ u, a = u ++ t.a ∧ b = u ++ t.b ∧ good t.a = false := by
    intro d longer hd hd0 hlo hlo0 hg ta tb
    have huv := k1 (hd.trans hd0)
    subst huv
    have hz : (zeros a).1 = (zeros b).1 := by omega
    refine ⟨List.replicate (zeros a).1 48 ++ u, ?_, ?_, ?_⟩
    · rw [ta, List.append_assoc, ← h1]; exact za1
    · rw [tb, List.append_assoc, ← h2, hz]; exact zb1
    · rw [ta]; rw [← hg, Bool.and_self] at h6; exact h6
  unfold numbers at h
  simp only at h
  split at h
  · cases h
  · generalize hga : (if (p == some pa.length && !address (walk (zeros a).2 (zeros b).2 0).1 &&
        !address (walk (zeros a).2 (zeros b).2 0).2.1 && (walk (zeros a).2 (zeros b).2 0).2.2 != 0) = true
        then good (walk (zeros a).2 (zeros b).2 0).2.1 else good (walk (zeros a).2 (zeros b).2 0).1) = ga at h
    split at h
    · cases h
    · rename_i hne
      split at h
      · cases h
      · rename_i hd
        have hd' : (walk (zeros a).2 (zeros b).2 0).2.2 = 0 := by simpa using hd
        have hg : good (walk (zeros a).2 (zeros b).2 0).1 = good (walk (zeros a).2 (zeros b).2 0).2.1 := by
          rw [hd'] at hga
          simp only [bne_self_eq_false, Bool.and_false, Bool.false_eq_true, if_false] at hga
          rw [hga]
          simpa using hne
        split at h
        · cases h
        · rename_i hlo
          have hlo' : ((zeros a).1 : Int) - (zeros b).1 = 0 := by simpa using hlo
          split at h
          · split at h
            · cases h
            · split at h <;> (simp only [Sum.inr.injEq] at h; subst h; exact fin rfl hd' rfl hlo' hg rfl rfl)
          · simp only [Sum.inr.injEq] at h; subst h; exact fin rfl hd' rfl hlo' hg rfl rfl

theorem loop_zero (n : Nat) : ∀ (pa a b : Bytes) (p : Option Nat) (pn : Bool) (raw : Int), a.length ≤ n →
    (loop n pa a b p pn raw = 0 ↔ raw = 0 ∧ a = b) := by
  induction n with
  | zero =>
    intro pa a b p pn raw hl
    have : a = [] := List.length_eq_zero_iff.1 (by omega)
    subst this
    cases b with
    | nil => simp [loop]
    | cons y b =>
      show (if 0 ≠ b.length + 1 then ((0 : Nat) : Int) - ((b.length + 1 : Nat) : Int) else raw) = 0 ↔ _
      rw [if_pos (by omega)]
      simp only [reduceCtorEq, and_false, iff_false]; omega
  | succ n ih =>
    intro pa a b p pn raw hl
    cases a with
    | nil =>
      cases b with
      | nil => simp [loop]
      | cons y b =>
        show (if 0 ≠ b.length + 1 then ((0 : Nat) : Int) - ((b.length + 1 : Nat) : Int) else raw) = 0 ↔ _
        rw [if_pos (by omega)]
        simp only [reduceCtorEq, and_false, iff_false]; omega
    | cons x a =>
      cases b with
      | nil =>
        show (if a.length + 1 ≠ 0 then ((a.length + 1 : Nat) : Int) - ((0 : Nat) : Int) else raw) = 0 ↔ _
        rw [if_pos (by omega)]
        simp only [reduceCtorEq, and_false, iff_false]; omega
      | cons y b =>
        rw [loop]
        split
        · rename_i hxy
          simp only [Bool.and_eq_true] at hxy
          cases hn : numbers pa (x :: a) (y :: b) p pn with
          | inl r =>
            have hr := numbers_inl hn
            simp only [hr, false_iff]
            rintro ⟨-, he⟩
            -- equal strings do not stop at a number
            have hcase : ∀ (s : Bytes) (q : Option Nat), ∃ t, numbers pa s s q pn = .inr t := by
              intro s q
              have hw : ∀ (l : Bytes), (walk l l 0).1 = (walk l l 0).2.1 ∧ (walk l l 0).2.2 = 0 := by
                intro l
                induction l with
                | nil => simp [walk]
                | cons c l ih =>
                  by_cases hc : isDigit c = true
                  · have e : walk (c :: l) (c :: l) 0 = walk l l 0 := by rw [walk]; simp [hc]
                    rw [e]; exact ih
                  · have e : walk (c :: l) (c :: l) 0 = (c :: l, c :: l, 0) := by rw [walk]; simp [hc]
                    rw [e]; exact ⟨rfl, rfl⟩
              obtain ⟨w1, w2⟩ := hw (zeros s).2
              unfold numbers
              simp only [Int.sub_self, bne_self_eq_false, Bool.and_false, Bool.false_eq_true, if_false, w2, ← w1, ne_eq, not_true_eq_false]
              split
              · split <;> exact ⟨_, rfl⟩
              · exact ⟨_, rfl⟩
            rw [← he] at hn
            obtain ⟨t, ht⟩ := hcase (x :: a) p
            rw [ht] at hn
            cases hn
          | inr t =>
            obtain ⟨u, h1, h2, h3⟩ := numbers_inr hn
            simp only
            have hu : u ≠ [] := by
              intro hu
              rw [hu, List.nil_append] at h1
              rw [← h1] at h3
              simp [good, hxy.1] at h3
            have hlen : t.a.length ≤ n := by
              have := congrArg List.length h1
              have := List.length_pos_iff.2 hu
              simp only [List.length_append, List.length_cons] at *
              omega
            rw [ih _ _ _ _ _ _ hlen, h1, h2, List.append_cancel_left_eq]
        · split
          · rename_i h1 h2
            have hne : x ≠ y := by
              rintro rfl
              simp [h2] at h1
            constructor
            · intro h; split at h <;> cases h
            · rintro ⟨-, he⟩; exact absurd (List.cons.inj he).1 hne
          · split
            · rename_i h1 h2 h3
              have hne : x ≠ y := by
                rintro rfl
                exact h2 h3
              constructor
              · intro h; split at h <;> cases h
              · rintro ⟨-, he⟩; exact absurd (List.cons.inj he).1 hne
            · split
              · rename_i hne
                constructor
                · intro h; omega
                · rintro ⟨-, he⟩; rw [(List.cons.inj he).1] at hne; exact absurd rfl hne
              · rw [ih _ _ _ _ _ _ (by simpa using hl)]
                by_cases hr : raw = 0
                · simp only [hr, if_true, true_and, List.cons.injEq]
                  constructor
                  · rintro ⟨h1, h2⟩; exact ⟨by omega, h2⟩
                  · rintro ⟨h1, h2⟩; exact ⟨by omega, h2⟩
                · simp [hr]

/-- `natural_compare` is zero for equal strings alone. -/
theorem result_zero (a b : Bytes) : naturalCompare a b = 0 ↔ a = b := by
  unfold naturalCompare
  rw [loop_zero _ _ _ _ _ _ _ (le_refl _)]
  simp

end Verif.Text
