import Verif.Text.NaturalOrder

/-!
# C62: the natural order of strings is an order only for strings without periods and without bytes above `z`

`natural_compare` (/repo/string.cc:146-255) is zero for equal strings alone.  Strings without periods are compared token by token, a run
of digits being a number; the comparison is antisymmetric there, and transitive if no byte is above `z`.  With fractions it is not
antisymmetric: of two different powers of 0.1 each is less than the other.  With bytes above `z` it has cycles.
-/
namespace Verif.Props.C62

open Verif.Text

/-- The comparison is zero for equal strings alone, whatever they hold. -/
theorem zero_iff (a b : Bytes) : naturalCompare a b = 0 ↔ a = b := result_zero a b

/-- Strings without periods are compared by their tokens; then the first byte that differs decides. -/
theorem by_tokens {a b : Bytes} (ha : 46 ∉ a) (hb : 46 ∉ b) :
    compare (naturalCompare a b) 0 = (lexCmp tokCmp (tokens [] a) (tokens [] b)).then (lexCmp compare a b) := result_order ha hb

theorem int_swap (x y : Int) : compare x y = (compare y x).swap := by
  rcases Int.lt_trichotomy x y with h | h | h
  · rw [compare_lt_iff_lt.2 h, compare_gt_iff_gt.2 h]; rfl
  · subst h; simp
  · rw [compare_gt_iff_gt.2 h, compare_lt_iff_lt.2 h]; rfl

theorem nat_swap (x y : Nat) : compare x y = (compare y x).swap := by
  rw [← compare_cast, ← compare_cast]; exact int_swap _ _

theorem tok_swap (t t' : Tok) : tokCmp t t' = (tokCmp t' t).swap := by
  cases t with
  | num v z =>
    cases t' with
    | num v' z' => simp only [tokCmp, Ordering.swap_then]; rw [← int_swap, ← nat_swap]
    | chr c => simp only [tokCmp]; cases isAlpha c <;> rfl
  | chr c =>
    cases t' with
    | num v' z' => simp only [tokCmp]; cases isAlpha c <;> rfl
    | chr d => exact nat_swap _ _

theorem lex_swap {α : Type} {f : α → α → Ordering} (hf : ∀ x y, f x y = (f y x).swap) (a b : List α) :
    lexCmp f a b = (lexCmp f b a).swap := by
  induction a generalizing b with
  | nil => cases b <;> rfl
  | cons x a ih =>
    cases b with
    | nil => rfl
    | cons y b => simp only [lexCmp, Ordering.swap_then]; rw [← hf, ← ih]

/-- Strings without periods: one is less than the other exactly if the other is greater. -/
theorem antisymmetric {a b : Bytes} (ha : 46 ∉ a) (hb : 46 ∉ b) : naturalCompare a b < 0 ↔ 0 < naturalCompare b a := by
  have h1 := by_tokens ha hb
  have h2 := by_tokens hb ha
  have h3 : compare (naturalCompare a b) 0 = (compare (naturalCompare b a) 0).swap := by
    rw [h1, h2, Ordering.swap_then, ← lex_swap tok_swap, ← lex_swap nat_swap]
  rw [← compare_lt_iff_lt, h3]
  rw [← compare_gt_iff_gt (a := naturalCompare b a)]
  generalize compare (naturalCompare b a) 0 = o
  cases o <;> simp

/-! ## Transitivity -/

/-- A token of bytes up to `z`. -/
def Low : Tok → Prop
  | .num _ _ => True
  | .chr c => c ≤ 122 ∧ ¬ (65 ≤ c ∧ c ≤ 90)

theorem low_alpha {c : Nat} (h : Low (.chr c)) : isAlpha c = true ↔ 97 ≤ c := by
  simp only [Low] at h
  simp only [isAlpha, Bool.or_eq_true, Bool.and_eq_true, decide_eq_true_eq]
  omega

theorem num_lt {v v' : Int} {z z' : Nat} : tokCmp (.num v z) (.num v' z') = .lt ↔ v < v' ∨ (v = v' ∧ z < z') := by
  simp only [tokCmp]
  rw [Ordering.then_eq_lt, compare_lt_iff_lt, compare_eq_iff_eq, compare_lt_iff_lt]

theorem tok_eq {t t' : Tok} (h : tokCmp t t' = .eq) : t = t' := by
  cases t with
  | num v z =>
    cases t' with
    | num v' z' =>
      simp only [tokCmp] at h
      rw [Ordering.then_eq_eq, compare_eq_iff_eq, compare_eq_iff_eq] at h
      rw [h.1, h.2]
    | chr c => simp only [tokCmp] at h; split at h <;> cases h
  | chr c =>
    cases t' with
    | num v' z' => simp only [tokCmp] at h; split at h <;> cases h
    | chr d => simp only [tokCmp] at h; rw [compare_eq_iff_eq.1 h]

theorem num_chr {v : Int} {z c : Nat} : tokCmp (.num v z) (.chr c) = .lt ↔ isAlpha c = true := by
  simp only [tokCmp]; cases isAlpha c <;> simp

theorem chr_num {v : Int} {z c : Nat} : tokCmp (.chr c) (.num v z) = .lt ↔ isAlpha c = false := by
  simp only [tokCmp]; cases isAlpha c <;> simp

theorem chr_chr {c d : Nat} : tokCmp (.chr c) (.chr d) = .lt ↔ c < d := by
  simp only [tokCmp]; rw [compare_lt_iff_lt]

theorem tok_trans {t t' t'' : Tok} (h : Low t) (h' : Low t') (h'' : Low t'') (h1 : tokCmp t t' = .lt) (h2 : tokCmp t' t'' = .lt) :
    tokCmp t t'' = .lt := by
  cases t with
  | num v z =>
    cases t' with
    | num v' z' =>
      cases t'' with
      | num v'' z'' => rw [num_lt] at *; omega
      | chr c'' => rw [num_chr] at *; exact h2
    | chr c' =>
      cases t'' with
      | num v'' z'' => rw [num_chr] at h1; rw [chr_num, h1] at h2; cases h2
      | chr c'' =>
        rw [num_chr, low_alpha h'] at h1
        rw [chr_chr] at h2
        rw [num_chr, low_alpha h'']; omega
  | chr c =>
    cases t' with
    | num v' z' =>
      cases t'' with
      | num v'' z'' => rw [chr_num] at *; exact h1
      | chr c'' =>
        rw [chr_num, ← Bool.not_eq_true, low_alpha h] at h1
        rw [num_chr, low_alpha h''] at h2
        rw [chr_chr]; omega
    | chr c' =>
      cases t'' with
      | num v'' z'' =>
        rw [chr_chr] at h1
        rw [chr_num, ← Bool.not_eq_true, low_alpha h'] at h2
        rw [chr_num, ← Bool.not_eq_true, low_alpha h]; omega
      | chr c'' => rw [chr_chr] at *; omega

theorem lex_eq {α : Type} {f : α → α → Ordering} (hf : ∀ x y, f x y = .eq → x = y) {a b : List α} (h : lexCmp f a b = .eq) : a = b := by
  induction a generalizing b with
  | nil => cases b with
    | nil => rfl
    | cons y b => cases h
  | cons x a ih =>
    cases b with
    | nil => cases h
    | cons y b =>
      simp only [lexCmp, Ordering.then_eq_eq] at h
      rw [hf _ _ h.1, ih h.2]

theorem lex_trans {α : Type} {f : α → α → Ordering} {P : α → Prop} (he : ∀ x y, f x y = .eq → x = y)
    (ht : ∀ x y z, P x → P y → P z → f x y = .lt → f y z = .lt → f x z = .lt) {a b c : List α}
    (ha : ∀ x ∈ a, P x) (hb : ∀ x ∈ b, P x) (hc : ∀ x ∈ c, P x) (h1 : lexCmp f a b = .lt) (h2 : lexCmp f b c = .lt) :
    lexCmp f a c = .lt := by
  induction a generalizing b c with
  | nil =>
    cases c with
    | nil => cases b <;> cases h2
    | cons z c => rfl
  | cons x a ih =>
    cases b with
    | nil => cases h1
    | cons y b =>
      cases c with
      | nil => cases h2
      | cons z c =>
        simp only [lexCmp, Ordering.then_eq_lt] at h1 h2 ⊢
        have px := ha x List.mem_cons_self
        have py := hb y List.mem_cons_self
        have pz := hc z List.mem_cons_self
        have ih' := @ih b c (fun x h => ha x (List.mem_cons_of_mem _ h)) (fun x h => hb x (List.mem_cons_of_mem _ h))
          (fun x h => hc x (List.mem_cons_of_mem _ h))
        rcases h1 with h1 | ⟨e1, h1⟩
        · rcases h2 with h2 | ⟨e2, h2⟩
          · exact Or.inl (ht x y z px py pz h1 h2)
          · rw [← he _ _ e2]; exact Or.inl h1
        · rcases h2 with h2 | ⟨e2, h2⟩
          · rw [he _ _ e1]; exact Or.inl h2
          · rw [he _ _ e1]; exact Or.inr ⟨e2, ih' h1 h2⟩

theorem tokens_low {n : Nat} : ∀ {pa s : Bytes}, s.length ≤ n → (∀ c ∈ s, c ≤ 122) → ∀ t ∈ tokens pa s, Low t := by
  induction n with
  | zero =>
    intro pa s hl _ t ht
    rw [List.length_eq_zero_iff.1 (by omega : s.length = 0), tokens_nil] at ht
    simp at ht
  | succ n ih =>
    intro pa s hl hs t ht
    cases s with
    | nil => rw [tokens_nil] at ht; simp at ht
    | cons x s =>
      cases hx : isDigit x with
      | true =>
        rw [tokens_digit hx] at ht
        rcases List.mem_cons.1 ht with rfl | ht
        · exact trivial
        · refine ih ?_ (fun c hc => hs c ((List.dropWhile_suffix _).subset hc)) t ht
          have := List.length_dropWhile_le isDigit s
          simp only [List.dropWhile_cons, hx, if_true, List.length_cons] at hl ⊢
          omega
      | false =>
        rw [tokens_other hx] at ht
        rcases List.mem_cons.1 ht with rfl | ht
        · have := hs x List.mem_cons_self
          simp only [Low, toLower]
          split <;> omega
        · exact ih (by simpa using hl) (fun c hc => hs c (List.mem_cons_of_mem _ hc)) t ht

/-- Strings without periods and without bytes above `z`: the comparison is transitive. -/
theorem transitive {a b c : Bytes} (ha : 46 ∉ a) (hb : 46 ∉ b) (hc : 46 ∉ c) (la : ∀ x ∈ a, x ≤ 122) (lb : ∀ x ∈ b, x ≤ 122)
    (lc : ∀ x ∈ c, x ≤ 122) (h1 : naturalCompare a b < 0) (h2 : naturalCompare b c < 0) : naturalCompare a c < 0 := by
  rw [← compare_lt_iff_lt, by_tokens ‹_› ‹_›, Ordering.then_eq_lt] at *
  have ta := tokens_low (pa := []) (le_refl _) la
  have tb := tokens_low (pa := []) (le_refl _) lb
  have tc := tokens_low (pa := []) (le_refl _) lc
  have trans := lex_trans (fun _ _ => tok_eq) (fun _ _ _ => tok_trans) ta tb tc
  have bytes := lex_trans (f := (compare : Nat → Nat → Ordering)) (P := fun _ => True) (fun _ _ => compare_eq_iff_eq.1)
    (fun x y z _ _ _ h h' => compare_lt_iff_lt.2 (Nat.lt_trans (compare_lt_iff_lt.1 h) (compare_lt_iff_lt.1 h')))
    (a := a) (b := b) (c := c) (fun _ _ => trivial) (fun _ _ => trivial) (fun _ _ => trivial)
  rcases h1 with h1 | ⟨e1, h1⟩
  · rcases h2 with h2 | ⟨e2, h2⟩
    · exact Or.inl (trans h1 h2)
    · rw [← lex_eq (fun _ _ => tok_eq) e2]; exact Or.inl h1
  · rcases h2 with h2 | ⟨e2, h2⟩
    · rw [lex_eq (fun _ _ => tok_eq) e1]; exact Or.inl h2
    · rw [lex_eq (fun _ _ => tok_eq) e1]; exact Or.inr ⟨e2, bytes h1 h2⟩

/-! ## Numbers by value -/

theorem tokens_append {n : Nat} : ∀ {pa p s : Bytes}, p.length ≤ n → (∀ c, p.getLast? = some c → isDigit c = false) →
    tokens pa (p ++ s) = tokens pa p ++ tokens (p.reverse ++ pa) s := by
  induction n with
  | zero =>
    intro pa p s hl _
    rw [List.length_eq_zero_iff.1 (by omega : p.length = 0), tokens_nil]; rfl
  | succ n ih =>
    intro pa p s hl hp
    cases p with
    | nil => rw [tokens_nil]; rfl
    | cons x p =>
      cases hx : isDigit x with
      | true =>
        have hne : (x :: p).dropWhile isDigit ≠ [] := by
          intro h
          have hall := List.dropWhile_eq_nil_iff.1 h
          have hl := hp _ (List.getLast?_eq_getLast_of_ne_nil (List.cons_ne_nil x p))
          rw [hall _ (List.getLast_mem _)] at hl
          cases hl
        have e1 : (x :: p ++ s).takeWhile isDigit = (x :: p).takeWhile isDigit := by
          rw [List.takeWhile_append, if_neg]
          intro h
          apply hne
          have := congrArg List.length (List.takeWhile_append_dropWhile (p := isDigit) (l := x :: p))
          rw [List.length_append, h] at this
          exact List.length_eq_zero_iff.1 (by omega)
        have e2 : (x :: p ++ s).dropWhile isDigit = (x :: p).dropWhile isDigit ++ s := by
          have h1 := List.takeWhile_append_dropWhile (p := isDigit) (l := x :: p ++ s)
          rw [e1] at h1
          have h2 := List.takeWhile_append_dropWhile (p := isDigit) (l := x :: p)
          conv_rhs at h1 => rw [← h2, List.append_assoc]
          exact List.append_cancel_left h1
        have e3 : ((x :: p).dropWhile isDigit).reverse ++ (((x :: p).takeWhile isDigit).reverse ++ pa) = (x :: p).reverse ++ pa := by
          rw [← List.append_assoc, ← List.reverse_append, List.takeWhile_append_dropWhile]
        have hl' : ((x :: p).dropWhile isDigit).length ≤ n := by
          have := List.length_dropWhile_le isDigit p
          simp only [List.dropWhile_cons, hx, if_true, List.length_cons] at hl ⊢
          omega
        have hp' : ∀ c, ((x :: p).dropWhile isDigit).getLast? = some c → isDigit c = false := by
          intro c hc
          apply hp c
          have h2 := List.takeWhile_append_dropWhile (p := isDigit) (l := x :: p)
          rw [← h2, List.getLast?_append, hc]; rfl
        have e0 := tokens_digit (pa := pa) (s := p ++ s) hx
        rw [← List.cons_append, e1, e2, ih hl' hp', e3] at e0
        rw [e0, tokens_digit hx]; rfl
      | false =>
        have hp' : ∀ c, p.getLast? = some c → isDigit c = false := by
          intro c hc
          apply hp c
          rw [List.getLast?_cons, hc]; rfl
        rw [List.cons_append, tokens_other hx, tokens_other hx, ih (by simpa using hl) hp']
        simp

theorem number_first {pa u r : Bytes} (hu : ∀ c ∈ u, isDigit c = true) (hn : u ≠ []) (hr : good r = false) :
    ∃ l, tokens pa (u ++ r) = number (negativeAt pa) u :: l := by
  cases u with
  | nil => exact absurd rfl hn
  | cons x u =>
    have e := tokens_digit (pa := pa) (s := u ++ r) (hu x List.mem_cons_self)
    rw [← List.cons_append, takeWhile_all hu, good_takeWhile.2 hr, List.append_nil] at e
    exact ⟨_, e⟩

theorem numeric_order {p u v r s : Bytes} (hp : 46 ∉ p) (hpl : ∀ c, p.getLast? = some c → isDigit c = false)
    (hu : ∀ c ∈ u, isDigit c = true) (hun : u ≠ []) (hv : ∀ c ∈ v, isDigit c = true) (hvn : v ≠ [])
    (hr : good r = false) (hs : good s = false) (hr' : 46 ∉ r) (hs' : 46 ∉ s) (h : value u < value v) :
    compare (naturalCompare (p ++ (u ++ r)) (p ++ (v ++ s))) 0 = if negativeAt p.reverse then .gt else .lt := by
  have nu : 46 ∉ u := fun h => by have := hu _ h; revert this; decide
  have nv : 46 ∉ v := fun h => by have := hv _ h; revert this; decide
  rw [by_tokens (by simp [hp, nu, hr']) (by simp [hp, nv, hs']), tokens_append (le_refl _) hpl, tokens_append (le_refl _) hpl,
    lexCmp_append tokCmp_self, List.append_nil]
  obtain ⟨l, e⟩ := number_first (pa := p.reverse) hu hun hr
  obtain ⟨l', e'⟩ := number_first (pa := p.reverse) hv hvn hs
  rw [e, e', lexCmp]
  unfold number
  cases negativeAt p.reverse
  · simp only [Bool.false_eq_true, if_false, tokCmp]
    rw [compare_lt_iff_lt.2 (by omega : (value u : Int) < value v)]; rfl
  · simp only [if_true, tokCmp]
    rw [compare_gt_iff_gt.2 (by omega : -(value v : Int) < -(value u : Int))]; rfl

/-- After a common beginning that does not end in a digit or a dash, the number that is less decides, however long it is written. -/
theorem numeric {p u v r s : Bytes} (hp : 46 ∉ p) (hpl : ∀ c, p.getLast? = some c → isDigit c = false ∧ c ≠ 45)
    (hu : ∀ c ∈ u, isDigit c = true) (hun : u ≠ []) (hv : ∀ c ∈ v, isDigit c = true) (hvn : v ≠ [])
    (hr : good r = false) (hs : good s = false) (hr' : 46 ∉ r) (hs' : 46 ∉ s) (h : value u < value v) :
    naturalCompare (p ++ (u ++ r)) (p ++ (v ++ s)) < 0 := by
  have hneg : negativeAt p.reverse = false := by
    rcases List.eq_nil_or_concat p with rfl | ⟨q, c, rfl⟩
    · rfl
    · have hc : c ≠ 45 := (hpl c (by simp)).2
      simp only [List.concat_eq_append, List.reverse_append, List.reverse_cons, List.reverse_nil, List.nil_append, List.singleton_append]
      unfold negativeAt
      split
      · simp_all
      · simp_all
      · rfl
  have := numeric_order hp (fun c hc => (hpl c hc).1) hu hun hv hvn hr hs hr' hs' h
  rw [hneg] at this
  exact compare_lt_iff_lt.1 this

/-- After a dash at the start or after a space, the larger number is less. -/
theorem numeric_negative {q u v r s : Bytes} (hq : 46 ∉ q) (hql : ∀ c, q.getLast? = some c → isSpace c = true)
    (hu : ∀ c ∈ u, isDigit c = true) (hun : u ≠ []) (hv : ∀ c ∈ v, isDigit c = true) (hvn : v ≠ [])
    (hr : good r = false) (hs : good s = false) (hr' : 46 ∉ r) (hs' : 46 ∉ s) (h : value u < value v) :
    0 < naturalCompare (q ++ [45] ++ (u ++ r)) (q ++ [45] ++ (v ++ s)) := by
  have hneg : negativeAt (q ++ [45]).reverse = true := by
    rcases List.eq_nil_or_concat q with rfl | ⟨q', c, rfl⟩
    · rfl
    · have hc : isSpace c = true := hql c (by simp)
      simpa [negativeAt] using hc
  have := numeric_order (p := q ++ [45]) (by simp [hq]) (fun c hc => by simp at hc; subst hc; rfl) hu hun hv hvn hr hs hr' hs' h
  rw [hneg] at this
  exact compare_gt_iff_gt.1 this

/-! ## Where it is no order -/

/-- `0.` and so many zeros and a one. -/
def power (m : Nat) : Bytes := 48 :: 46 :: (List.replicate m 48 ++ [49])

theorem zeros_power (m : Nat) : zeros (List.replicate m 48 ++ [49]) = (m, [49]) := by
  induction m with
  | zero => rfl
  | succ m ih =>
    rw [List.replicate_succ, List.cons_append]
    show ((zeros (List.replicate m 48 ++ [49])).1 + 1, (zeros (List.replicate m 48 ++ [49])).2) = _
    rw [ih]

/-- Of two different powers of 0.1 each is less than the other (/repo/string.cc:202-203 does not ask which number has more zeros). -/
theorem fractions_not_antisymmetric {m n : Nat} (h : m ≠ n) :
    naturalCompare (power m) (power n) = -1 ∧ naturalCompare (power n) (power m) = -1 := by
  have key : ∀ {m n : Nat}, m ≠ n → naturalCompare (power m) (power n) = -1 := by
    intro m n h
    have zp : ∀ k, ∃ x l, List.replicate k 48 ++ [49] = x :: l ∧ isDigit x = true := by
      intro k
      cases k with
      | zero => exact ⟨49, [], rfl, rfl⟩
      | succ k => exact ⟨48, _, rfl, rfl⟩
    have z1 : ∀ l, zeros (48 :: 46 :: l) = (1, 46 :: l) := fun l => rfl
    have w1 : ∀ l l', walk (46 :: l) (46 :: l') 0 = (46 :: l, 46 :: l', 0) := fun l l' => walk_done 0 rfl
    have f1 : ∀ k, fraction (46 :: (List.replicate k 48 ++ [49])) = true := by
      intro k
      obtain ⟨x, l, e, hx⟩ := zp k
      rw [e]; exact hx
    have first : numbers [] (power m) (power n) none false =
        .inr ⟨46 :: (List.replicate m 48 ++ [49]), 46 :: (List.replicate n 48 ++ [49]), some 2, false⟩ := by
      unfold numbers power
      simp only [z1, w1, f1]
      have : ([] : Bytes).length + ((48 :: 46 :: (List.replicate m 48 ++ [49])).length - (46 :: (List.replicate m 48 ++ [49])).length) + 1 = 2 := by
        simp only [List.length_cons, List.length_nil]; omega
      rw [this]
      rfl
    have second : numbers [46, 48] (List.replicate m 48 ++ [49]) (List.replicate n 48 ++ [49]) (some 2) false = .inl (-1) := by
      unfold numbers
      simp only [zeros_power]
      have w : walk [49] [49] 0 = ([], [], 0) := rfl
      rw [w]
      have : ((m : Int) - n != 0) = true := by simp; omega
      simp [this, address]
    unfold naturalCompare
    have hl : (power m).length = m + 1 + 1 + 1 := by simp [power]
    rw [hl]
    show loop (m + 1 + 1 + 1) [] (48 :: 46 :: _) (48 :: 46 :: _) none false 0 = -1
    rw [loop]
    have first' := first
    unfold power at first'
    rw [first']
    have ht : ((48 :: 46 :: (List.replicate m 48 ++ [49])).take ((48 :: 46 :: (List.replicate m 48 ++ [49])).length -
        (46 :: (List.replicate m 48 ++ [49])).length)).reverse ++ [] = [48] := by
      have : (48 :: 46 :: (List.replicate m 48 ++ [49])).length - (46 :: (List.replicate m 48 ++ [49])).length = 1 := by
        simp only [List.length_cons]; omega
      rw [this]; rfl
    simp only [ht]
    rw [if_pos (by decide), loop]
    rw [if_neg (by decide), if_neg (by decide), if_neg (by decide), if_neg (by decide), if_pos rfl]
    obtain ⟨x, l, e, hx⟩ := zp m
    obtain ⟨x', l', e', hx'⟩ := zp n
    rw [e, e'] at second ⊢
    rw [loop, second, hx, hx']
    rfl
  exact ⟨key h, key h.symm⟩

/-- "0.1" is less than "0.01", and "0.01" is less than "0.1". -/
example : naturalCompare [48, 46, 49] [48, 46, 48, 49] = -1 ∧ naturalCompare [48, 46, 48, 49] [48, 46, 49] = -1 :=
  fractions_not_antisymmetric (m := 0) (n := 1) (by decide)

/-- Any byte above `z`, any letter before it, and a digit make a cycle: "a" < "~" < "1" < "a". -/
theorem cycle {x d c : Nat} (hx : isAlpha x = true) (hd : isDigit d = true) (hc : 122 < c) :
    naturalCompare [x] [c] < 0 ∧ naturalCompare [c] [d] < 0 ∧ naturalCompare [d] [x] < 0 := by
  have h1 : isDigit x = false := by
    simp only [isAlpha, Bool.or_eq_true, Bool.and_eq_true, decide_eq_true_eq] at hx
    simp only [isDigit, Bool.and_eq_false_iff, decide_eq_false_iff_not]; omega
  have h2 : isDigit c = false := by simp only [isDigit, Bool.and_eq_false_iff, decide_eq_false_iff_not]; omega
  have h3 : isAlpha c = false := by
    simp only [isAlpha, Bool.or_eq_false_iff, Bool.and_eq_false_iff, decide_eq_false_iff_not]; omega
  have h4 : toLower c = c := by unfold toLower; split <;> omega
  have h5 : toLower x ≤ 122 := by
    simp only [isAlpha, Bool.or_eq_true, Bool.and_eq_true, decide_eq_true_eq] at hx
    unfold toLower; split <;> omega
  refine ⟨?_, ?_, ?_⟩
  · simp only [naturalCompare, List.length_singleton, loop, h1, h2, h4, Bool.and_self, Bool.false_eq_true, if_false]
    rw [if_pos (by omega)]; omega
  · simp [naturalCompare, loop, h2, hd, h3]
  · simp [naturalCompare, loop, h1, hd, hx]

/-- "a" < "~" < "1" < "a". -/
example : naturalCompare [97] [126] < 0 ∧ naturalCompare [126] [49] < 0 ∧ naturalCompare [49] [97] < 0 := cycle rfl rfl (by decide)

/-! ## Cases -/

/-- "file 9b" < "file 10a". -/
example : naturalCompare ([102, 105, 108, 101, 32] ++ ([57] ++ [98])) ([102, 105, 108, 101, 32] ++ ([49, 48] ++ [97])) < 0 :=
  numeric (by decide) (fun c hc => by simp at hc; subst hc; decide) (by decide) (by decide) (by decide) (by decide) rfl rfl
    (by decide) (by decide) (by decide)

/-- "t -3" is greater than "t -12". -/
example : 0 < naturalCompare ([116, 32] ++ [45] ++ ([51] ++ [])) ([116, 32] ++ [45] ++ ([49, 50] ++ [])) :=
  numeric_negative (by decide) (fun c hc => by simp at hc; subst hc; decide) (by decide) (by decide) (by decide) (by decide) rfl rfl
    (by decide) (by decide) (by decide)

/-- "a 2" < "A 10" < "B", and "a 2" < "B". -/
example : naturalCompare [97, 32, 50] [66] < 0 :=
  transitive (b := [65, 32, 49, 48]) (by decide) (by decide) (by decide) (by decide) (by decide) (by decide) (by decide) (by decide)

end Verif.Props.C62
