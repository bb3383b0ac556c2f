import Verif.Text.Glob

/-!
# The matcher follows the pattern
-/
namespace Verif.Text

theorem scan_spec (c : Nat) (t : Bytes) (found : Bool) :
    (93 ∈ t → scan c t found = some (found || decide (c ∈ t.takeWhile (· != 93)) || decide (c = 93), (t.dropWhile (· != 93)).tail)) ∧
    (93 ∉ t → scan c t found = none) := by
  induction t generalizing found with
  | nil => exact ⟨fun h => by simp at h, fun _ => rfl⟩
  | cons x t ih =>
    by_cases hx : x = 93
    · subst hx
      refine ⟨fun _ => ?_, fun h => absurd List.mem_cons_self h⟩
      rw [scan, if_pos rfl]
      have e1 : (93 :: t).takeWhile (· != 93) = [] := by simp
      have e2 : (93 :: t).dropWhile (· != 93) = 93 :: t := by simp
      rw [e1, e2]
      have : (93 == c) = decide (c = 93) := by
        by_cases h : c = 93
        · subst h; rfl
        · have h' : ¬ 93 = c := fun h' => h h'.symm
          simp [h, h']
      simp [this]
    · rw [scan, if_neg hx]
      have e1 : (x :: t).takeWhile (· != 93) = x :: t.takeWhile (· != 93) := by simp [hx]
      have e2 : (x :: t).dropWhile (· != 93) = t.dropWhile (· != 93) := by simp [hx]
      have e3 : 93 ∈ x :: t ↔ 93 ∈ t := by
        rw [List.mem_cons]
        exact ⟨fun h => h.resolve_left (fun h => hx h.symm), Or.inr⟩
      rw [e1, e2, e3]
      refine ⟨fun h => ?_, (ih _).2⟩
      rw [(ih _).1 h]
      congr 2
      have : (x == c) = decide (c = x) := by
        by_cases h : c = x
        · subst h; simp
        · have h' : ¬ x = c := fun h' => h h'.symm
          simp [h, h']
      rw [this]
      simp only [List.mem_cons, Bool.decide_or]
      cases found <;> cases decide (c = x) <;> simp

/-- A place of the pattern matches the rest of the string. -/
def At (p s : Bytes) : Prop := Matches Taken (parse p) s

theorem at_nil (s : Bytes) : At [] s ↔ s = [] := by unfold At; rw [parse_nil]; rfl

theorem at_star (p : Bytes) (c : Nat) (s : Bytes) : At (42 :: p) (c :: s) ↔ At p (c :: s) ∨ At (42 :: p) s := by
  unfold At
  rw [parse_star]
  constructor
  · rintro ⟨u, t, h, hm⟩
    cases u with
    | nil => left; rw [List.nil_append] at h; rw [h]; exact hm
    | cons x u =>
      right
      rw [List.cons_append] at h
      exact ⟨u, t, (List.cons.inj h).2, hm⟩
  · rintro (h | ⟨u, t, h, hm⟩)
    · exact ⟨[], _, rfl, h⟩
    · exact ⟨c :: u, t, by rw [h]; rfl, hm⟩

theorem lit_cons {r : List Item} {d c : Nat} {s : Bytes} : Matches Taken (.lit d :: r) (c :: s) ↔ d = c ∧ Matches Taken r s := by
  constructor
  · rintro ⟨t, h, hm⟩
    obtain ⟨h1, h2⟩ := List.cons.inj h
    exact ⟨h1.symm, by rw [h2]; exact hm⟩
  · rintro ⟨rfl, hm⟩; exact ⟨s, rfl, hm⟩

/-- A step for a plain character. -/
theorem plain_step {d c : Nat} {p : Bytes} {q : Bytes} {next next' : List Bytes} (hq : parse q = .lit d :: parse p)
    (h : Step.next (if d = c then next ++ [p] else next) = .next next') (s : Bytes) :
    (∃ r ∈ next', At r s) ↔ (∃ r ∈ next, At r s) ∨ At q (c :: s) := by
  simp only [Step.next.injEq] at h
  subst h
  have e : At q (c :: s) ↔ d = c ∧ At p s := by unfold At; rw [hq]; exact lit_cons
  rw [e]
  by_cases hd : d = c
  · simp only [hd, if_true, List.mem_append, List.mem_singleton, true_and]
    constructor
    · rintro ⟨r, h | rfl, hm⟩
      · exact Or.inl ⟨r, h, hm⟩
      · exact Or.inr hm
    · rintro (⟨r, h, hm⟩ | hm)
      · exact ⟨r, Or.inl h, hm⟩
      · exact ⟨p, Or.inr rfl, hm⟩
  · simp [hd]

theorem step_spec (inside : Bool) (c : Nat) (p : Bytes) : ∀ next : List Bytes,
    (∀ next', step inside c p next = .next next' → ∀ s, (∃ q ∈ next', At q s) ↔ (∃ q ∈ next, At q s) ∨ At p (c :: s)) ∧
    (step inside c p next = .accept → ∀ s, At p (c :: s)) := by
  induction p with
  | nil =>
    intro next
    refine ⟨fun next' h s => ?_, fun h => by cases h⟩
    simp only [step, Step.next.injEq] at h
    subst h
    have : ¬ At [] (c :: s) := fun h => by rw [at_nil] at h; cases h
    simp [this]
  | cons d p ih =>
    intro next
    by_cases h63 : d = 63
    · subst h63
      refine ⟨fun next' h s => ?_, fun h => by cases h⟩
      simp only [step, Step.next.injEq] at h
      subst h
      have e : At (63 :: p) (c :: s) ↔ At p s := by
        unfold At
        rw [parse_any]
        constructor
        · rintro ⟨c', t, h, hm⟩; rw [(List.cons.inj h).2]; exact hm
        · exact fun hm => ⟨c, s, rfl, hm⟩
      rw [e]
      simp only [List.mem_append, List.mem_singleton]
      constructor
      · rintro ⟨r, h | rfl, hm⟩
        · exact Or.inl ⟨r, h, hm⟩
        · exact Or.inr hm
      · rintro (⟨r, h, hm⟩ | hm)
        · exact ⟨r, Or.inl h, hm⟩
        · exact ⟨p, Or.inr rfl, hm⟩
    by_cases h42 : d = 42
    · subst h42
      by_cases hp : p = []
      · subst hp
        refine ⟨fun next' h => by simp [step] at h, fun _ s => ?_⟩
        unfold At
        rw [parse_star, parse_nil]
        exact ⟨c :: s, [], by simp, rfl⟩
      · have e : step inside c (42 :: p) next =
            step inside c p (if next.getLast? = some (42 :: p) then next else next ++ [42 :: p]) := by
          rw [step]; rw [if_neg hp]
        rw [e]
        obtain ⟨i1, i2⟩ := ih (if next.getLast? = some (42 :: p) then next else next ++ [42 :: p])
        refine ⟨fun next' h s => ?_, fun h s => (at_star p c s).2 (Or.inl (i2 h s))⟩
        rw [i1 next' h s, at_star, ← or_assoc, or_right_comm]
        apply or_congr_left
        by_cases hl : next.getLast? = some (42 :: p)
        · rw [if_pos hl]
          have hmem := List.mem_of_getLast? hl
          constructor
          · exact Or.inl
          · rintro (h | h)
            · exact h
            · exact ⟨_, hmem, h⟩
        · rw [if_neg hl]
          simp only [List.mem_append, List.mem_singleton]
          constructor
          · rintro ⟨r, h | rfl, hm⟩
            · exact Or.inl ⟨r, h, hm⟩
            · exact Or.inr hm
          · rintro (⟨r, h, hm⟩ | hm)
            · exact ⟨r, Or.inl h, hm⟩
            · exact ⟨_, Or.inr rfl, hm⟩
    by_cases h92 : d = 92
    · subst h92
      cases p with
      | nil =>
        refine ⟨fun next' h s => ?_, fun h => by cases h⟩
        exact plain_step (by rw [parse_slash, parse_nil]) h s
      | cons d p =>
        refine ⟨fun next' h s => ?_, fun h => by cases h⟩
        exact plain_step (parse_escape d p) h s
    by_cases h91 : d = 91
    · subst h91
      have e : step inside c (91 :: p) next =
          classStep inside c (p.head? == some 94) (if (p.head? == some 94) = true then p.tail else p) p next := by rw [step]
      rw [e]
      have hb : bracket p = match (if (p.head? == some 94) = true then p.tail else p) with
        | [] => none
        | m :: t => if 93 ∈ t then some (p.head? == some 94, m :: t.takeWhile (· != 93), (t.dropWhile (· != 93)).tail) else none := rfl
      generalize (if (p.head? == some 94) = true then p.tail else p) = ec at hb ⊢
      generalize (p.head? == some 94) = neg at hb ⊢
      unfold classStep
      cases ec with
      | nil =>
        rw [if_pos rfl]
        refine ⟨fun next' h s => plain_step (parse_open hb) h s, fun h => by cases h⟩
      | cons m t =>
        rw [if_neg (List.cons_ne_nil _ _), List.tail_cons]
        by_cases ht : 93 ∈ t
        · rw [(scan_spec c t false).1 ht]
          simp only [ht, if_true] at hb
          refine ⟨fun next' h s => ?_, fun h => by cases h⟩
          simp only [Step.next.injEq, Bool.false_or] at h
          subst h
          have e : At (91 :: p) (c :: s) ↔ (decide (c ∈ t.takeWhile (· != 93)) || decide (c = 93)) = !neg ∧
              At (t.dropWhile (· != 93)).tail s := by
            unfold At
            rw [parse_class hb]
            have hT : (Taken (m :: t.takeWhile (· != 93)) c ↔ neg = false) ↔
                (decide (c ∈ t.takeWhile (· != 93)) || decide (c = 93)) = !neg := by
              unfold Taken
              rw [List.tail_cons]
              cases neg
              · simp only [iff_true, Bool.not_false, Bool.or_eq_true, decide_eq_true_eq]
              · simp only [Bool.true_eq_false, iff_false, Bool.not_true, Bool.or_eq_false_iff, decide_eq_false_iff_not, not_or]
            rw [← hT]
            constructor
            · rintro ⟨c', t', h, hm, hr⟩
              obtain ⟨rfl, rfl⟩ := List.cons.inj h
              exact ⟨hm, hr⟩
            · rintro ⟨hm, hr⟩
              exact ⟨c, s, rfl, hm, hr⟩
          rw [e]
          by_cases hq : (decide (c ∈ t.takeWhile (· != 93)) || decide (c = 93)) = !neg
          · rw [if_pos hq]
            simp only [hq, List.mem_append, List.mem_singleton, true_and]
            constructor
            · rintro ⟨r, h | rfl, hm⟩
              · exact Or.inl ⟨r, h, hm⟩
              · exact Or.inr hm
            · rintro (⟨r, h, hm⟩ | hm)
              · exact ⟨r, Or.inl h, hm⟩
              · exact ⟨_, Or.inr rfl, hm⟩
          · rw [if_neg hq]
            simp only [hq, false_and, or_false]
        · rw [(scan_spec c t false).2 ht]
          simp only [ht, if_false] at hb
          cases inside with
          | true => exact ⟨fun next' h s => plain_step (parse_open hb) h s, fun h => by cases h⟩
          | false => exact ⟨fun next' h => (by cases h), fun h => by cases h⟩
    · have e : step inside c (d :: p) next = .next (if d = c then next ++ [p] else next) := by
        rw [step]
        · exact h63
        · exact h42
        · intro h; exact absurd h h92
        · intro _ _ h; exact absurd h h92
        · exact h91
      rw [e]
      exact ⟨fun next' h s => plain_step (parse_plain h63 h42 h92 h91) h s, fun h => by cases h⟩

theorem stepAll_spec (inside : Bool) (c : Nat) (state : List Bytes) : ∀ next : List Bytes,
    (∀ next', stepAll inside c state next = .next next' → ∀ s, (∃ q ∈ next', At q s) ↔ (∃ q ∈ next, At q s) ∨ ∃ q ∈ state, At q (c :: s)) ∧
    (stepAll inside c state next = .accept → ∀ s, ∃ q ∈ state, At q (c :: s)) := by
  induction state with
  | nil =>
    intro next
    refine ⟨fun next' h s => ?_, fun h => by cases h⟩
    simp only [stepAll, Step.next.injEq] at h
    subst h
    simp
  | cons p state ih =>
    intro next
    rw [stepAll]
    obtain ⟨s1, s2⟩ := step_spec inside c p next
    cases hs : step inside c p next with
    | next n1 =>
      obtain ⟨i1, i2⟩ := ih n1
      refine ⟨fun next' h s => ?_, fun h s => ?_⟩
      · rw [i1 next' h s, s1 n1 hs s]
        simp [or_assoc]
      · obtain ⟨q, hq, hm⟩ := i2 h s
        exact ⟨q, List.mem_cons_of_mem _ hq, hm⟩
    | accept => exact ⟨fun next' h => (by cases h), fun _ s => ⟨p, List.mem_cons_self, s2 hs s⟩⟩
    | over => exact ⟨fun next' h => (by cases h), fun h => by cases h⟩

theorem at_end (p : Bytes) : At p [] ↔ (p.dropWhile (· == 42)).isEmpty = true := by
  induction p with
  | nil => simp [at_nil]
  | cons d p ih =>
    by_cases h : d = 42
    · subst h
      have : At (42 :: p) [] ↔ At p [] := by
        unfold At
        rw [parse_star]
        constructor
        · rintro ⟨u, t, h, hm⟩
          rw [(List.append_eq_nil_iff.1 h.symm).2] at hm
          exact hm
        · exact fun hm => ⟨[], [], rfl, hm⟩
      rw [this, ih]
      simp
    · have e : (d :: p).dropWhile (· == 42) = d :: p := by simp [h]
      rw [e]
      simp only [List.isEmpty_cons, Bool.false_eq_true, iff_false]
      intro hm
      unfold At at hm
      have key : ∀ i r, parse (d :: p) = i :: r → i ≠ .star → False := by
        intro i r hi hs
        rw [hi] at hm
        cases i with
        | lit c => obtain ⟨t, h, -⟩ := hm; cases h
        | any => obtain ⟨c, t, h, -⟩ := hm; cases h
        | star => exact hs rfl
        | cls n m => obtain ⟨c, t, h, -⟩ := hm; cases h
      by_cases h63 : d = 63
      · subst h63; exact key _ _ (parse_any p) (by simp)
      by_cases h92 : d = 92
      · subst h92
        cases p with
        | nil => exact key _ _ parse_slash (by simp)
        | cons d p => exact key _ _ (parse_escape d p) (by simp)
      by_cases h91 : d = 91
      · subst h91
        cases hb : bracket p with
        | none => exact key _ _ (parse_open hb) (by simp)
        | some x => obtain ⟨n, m, r⟩ := x; exact key _ _ (parse_class hb) (by simp)
      · exact key _ _ (parse_plain h63 h h92 h91) (by simp)

theorem run_spec' (inside : Bool) (s : Bytes) : ∀ (state : List Bytes) (b : Bool), run inside s state = some b →
    (b = true ↔ ∃ q ∈ state, At q s) := by
  induction s with
  | nil =>
    intro state b h
    have e : run inside [] state = some (state.any fun p => (p.dropWhile (· == 42)).isEmpty) := by cases state <;> rfl
    rw [e, Option.some.injEq] at h
    subst h
    rw [List.any_eq_true]
    simp only [at_end]
  | cons c s ih =>
    intro state b h
    cases state with
    | nil =>
      simp only [run, List.any_nil, Option.some.injEq] at h
      subst h
      simp
    | cons p state =>
      rw [run] at h
      obtain ⟨s1, s2⟩ := stepAll_spec inside c (p :: state) []
      cases hs : stepAll inside c (p :: state) [] with
      | next n1 =>
        rw [hs] at h
        rw [ih n1 b h, s1 n1 hs s]
        simp
      | accept =>
        rw [hs] at h
        simp only [Option.some.injEq] at h
        subst h
        exact ⟨fun _ => s2 hs s, fun _ => rfl⟩
      | over => rw [hs] at h; cases h

/-! ## Taking off plain characters -/

theorem bracket_snoc {d : Nat} (p : Bytes) (hd : d ≠ 93) :
    (∀ n m r, bracket p = some (n, m, r) → bracket (p ++ [d]) = some (n, m, r ++ [d])) ∧ (bracket p = none → bracket (p ++ [d]) = none) := by
  have key : ∀ (n : Bool) (t : Bytes) (x : Nat),
      (∀ n' m r, (if 93 ∈ t then some (n, x :: t.takeWhile (· != 93), (t.dropWhile (· != 93)).tail) else none) = some (n', m, r) →
        (if 93 ∈ t ++ [d] then some (n, x :: (t ++ [d]).takeWhile (· != 93), ((t ++ [d]).dropWhile (· != 93)).tail) else none) =
          some (n', m, r ++ [d])) ∧
      ((if 93 ∈ t then some (n, x :: t.takeWhile (· != 93), (t.dropWhile (· != 93)).tail) else none) = none →
        (if 93 ∈ t ++ [d] then some (n, x :: (t ++ [d]).takeWhile (· != 93), ((t ++ [d]).dropWhile (· != 93)).tail) else none) = none) := by
    intro n t x
    by_cases ht : 93 ∈ t
    · have ht' : 93 ∈ t ++ [d] := List.mem_append_left _ ht
      rw [if_pos ht, if_pos ht']
      have hex : ∃ y ∈ t, ¬ (y != 93) = true := ⟨93, ht, by simp⟩
      have e1 : (t ++ [d]).takeWhile (· != 93) = t.takeWhile (· != 93) := by
        rw [List.takeWhile_append, if_neg]
        intro h
        obtain ⟨y, hy, hn⟩ := hex
        have := congrArg List.length (List.takeWhile_append_dropWhile (p := (· != 93)) (l := t))
        rw [List.length_append, h] at this
        have hnil := List.length_eq_zero_iff.1 (by omega : (t.dropWhile (· != 93)).length = 0)
        exact hn (List.dropWhile_eq_nil_iff.1 hnil y hy)
      have e2 : (t ++ [d]).dropWhile (· != 93) = t.dropWhile (· != 93) ++ [d] := by
        have h1 := List.takeWhile_append_dropWhile (p := (· != 93)) (l := t ++ [d])
        rw [e1] at h1
        have h2 := List.takeWhile_append_dropWhile (p := (· != 93)) (l := t)
        conv_rhs at h1 => rw [← h2, List.append_assoc]
        exact List.append_cancel_left h1
      have hne : t.dropWhile (· != 93) ≠ [] := by
        intro hnil
        obtain ⟨y, hy, hn⟩ := hex
        exact hn (List.dropWhile_eq_nil_iff.1 hnil y hy)
      refine ⟨fun n' m r h => ?_, fun h => by cases h⟩
      simp only [Option.some.injEq, Prod.mk.injEq] at h ⊢
      obtain ⟨h1, h2, h3⟩ := h
      refine ⟨h1, by rw [e1]; exact h2, ?_⟩
      rw [e2, List.tail_append_of_ne_nil hne, h3]
    · have ht' : 93 ∉ t ++ [d] := by
        rw [List.mem_append, List.mem_singleton]
        rintro (h | h)
        · exact ht h
        · exact hd h.symm
      rw [if_neg ht, if_neg ht']
      exact ⟨fun n' m r h => (by cases h), fun _ => rfl⟩
  match p with
  | [] =>
    refine ⟨fun n m r h => (by cases h), fun _ => ?_⟩
    by_cases h : d = 94
    · subst h; rfl
    · simp [bracket, h]
  | [x] =>
    refine ⟨fun n m r h => ?_, fun _ => ?_⟩
    · by_cases hx : x = 94 <;> simp [bracket, hx] at h
    · by_cases hx : x = 94
      · subst hx; simp [bracket]
      · have hd' : ¬ 93 = d := fun h => hd h.symm
        simp [bracket, hx, hd']
  | x :: y :: t =>
    by_cases hx : x = 94
    · subst hx; exact key true t y
    · have e : ∀ l, bracket (x :: l) = if 93 ∈ l then some (false, x :: l.takeWhile (· != 93), (l.dropWhile (· != 93)).tail) else none := by
        intro l
        have hx' : (x == 94) = false := by simpa using hx
        simp [bracket, hx']
      rw [List.cons_append, e, e]
      exact key false (y :: t) x

theorem parse_snoc {n : Nat} {d : Nat} (h1 : d ≠ 42) (h2 : d ≠ 63) (h3 : d ≠ 93) : ∀ {p : Bytes}, p.length ≤ n → p.getLast? ≠ some 92 →
    parse (p ++ [d]) = parse p ++ [.lit d] := by
  have single : parse [d] = [.lit d] := by
    by_cases h92 : d = 92
    · subst h92; exact parse_slash
    by_cases h91 : d = 91
    · subst h91; rw [parse_open rfl, parse_nil]
    · rw [parse_plain h2 h1 h92 h91, parse_nil]
  induction n with
  | zero =>
    intro p hl _
    rw [List.length_eq_zero_iff.1 (by omega : p.length = 0), parse_nil]
    exact single
  | succ n ih =>
    intro p hl hp
    cases p with
    | nil => rw [parse_nil]; exact single
    | cons x p =>
      have hl' : p.length ≤ n := by simpa using hl
      have hp' : p ≠ [] → p.getLast? ≠ some 92 := by
        intro hne h
        apply hp
        rw [List.getLast?_cons, h]; rfl
      have hp'' : p.getLast? ≠ some 92 := by
        by_cases hne : p = []
        · subst hne; simp
        · exact hp' hne
      rw [List.cons_append]
      by_cases h63 : x = 63
      · subst h63; rw [parse_any, parse_any, ih hl' hp'']; rfl
      by_cases h42 : x = 42
      · subst h42; rw [parse_star, parse_star, ih hl' hp'']; rfl
      by_cases h92 : x = 92
      · subst h92
        cases p with
        | nil => exact absurd rfl hp
        | cons y p =>
          have : p.getLast? ≠ some 92 := by
            intro h
            apply hp''
            rw [List.getLast?_cons, h]; rfl
          rw [List.cons_append, parse_escape, parse_escape, ih (by simp only [List.length_cons] at hl'; omega) this]; rfl
      by_cases h91 : x = 91
      · subst h91
        obtain ⟨b1, b2⟩ := bracket_snoc p h3
        cases hb : bracket p with
        | none => rw [parse_open hb, parse_open (b2 hb), ih hl' hp'']; rfl
        | some v =>
          obtain ⟨neg, m, r⟩ := v
          rw [parse_class hb, parse_class (b1 _ _ _ hb)]
          have hr : r.getLast? ≠ some 92 := by
            intro h
            -- the rest of the pattern ends as the pattern does
            have hsuf : ∃ u, p = u ++ r := by
              unfold bracket at hb
              simp only at hb
              split at hb
              · cases hb
              · rename_i z t heq
                split at hb
                · simp only [Option.some.injEq, Prod.mk.injEq] at hb
                  obtain ⟨-, -, rfl⟩ := hb
                  have s1 : (t.dropWhile (· != 93)).tail <:+ t := (List.tail_suffix _).trans (List.dropWhile_suffix _)
                  have s2 : (z :: t) <:+ p := by
                    rw [← heq]; split
                    · exact List.tail_suffix _
                    · exact List.suffix_rfl
                  obtain ⟨u, hu⟩ := s1.trans ((List.suffix_cons z t).trans s2)
                  exact ⟨u, hu.symm⟩
                · cases hb
            obtain ⟨u, hu⟩ := hsuf
            apply hp''
            rw [hu, List.getLast?_append, h]; rfl
          rw [ih (by have := bracket_length hb; omega) hr]; rfl
      · rw [parse_plain h63 h42 h92 h91, parse_plain h63 h42 h92 h91, ih hl' hp'']; rfl

theorem matches_snoc {B : Bytes → Nat → Prop} {r : List Item} {d e : Nat} : ∀ {s : Bytes},
    Matches B (r ++ [.lit d]) (s ++ [e]) ↔ d = e ∧ Matches B r s := by
  induction r with
  | nil =>
    intro s
    rw [List.nil_append]
    constructor
    · rintro ⟨t, h, hm⟩
      change t = [] at hm
      subst hm
      cases s with
      | nil => exact ⟨(List.cons.inj h).1.symm, rfl⟩
      | cons c s => simp at h
    · rintro ⟨rfl, hm⟩
      change s = [] at hm
      subst hm
      exact ⟨[], rfl, rfl⟩
  | cons i r ih =>
    intro s
    have none : ¬ Matches B (r ++ [.lit d]) [] := by
      have : ∀ r' : List Item, ¬ Matches B (r' ++ [.lit d]) [] := by
        intro r'
        induction r' with
        | nil => rintro ⟨t, h, -⟩; cases h
        | cons j r' ihr =>
          cases j with
          | lit c => rintro ⟨t, h, -⟩; cases h
          | any => rintro ⟨c, t, h, -⟩; cases h
          | star =>
            rintro ⟨u, t, h, hm⟩
            rw [(List.append_eq_nil_iff.1 h.symm).2] at hm
            exact ihr hm
          | cls n m => rintro ⟨c, t, h, -⟩; cases h
      exact this r
    rw [List.cons_append]
    cases i with
    | lit c =>
      constructor
      · rintro ⟨t, h, hm⟩
        cases s with
        | nil =>
          rw [List.nil_append] at h
          rw [← (List.cons.inj h).2] at hm
          exact absurd hm none
        | cons x s =>
          rw [List.cons_append] at h
          obtain ⟨rfl, rfl⟩ := List.cons.inj h
          exact ⟨(ih.1 hm).1, s, rfl, (ih.1 hm).2⟩
      · rintro ⟨hd, t, rfl, hm⟩
        exact ⟨t ++ [e], rfl, ih.2 ⟨hd, hm⟩⟩
    | any =>
      constructor
      · rintro ⟨c, t, h, hm⟩
        cases s with
        | nil =>
          rw [List.nil_append] at h
          rw [← (List.cons.inj h).2] at hm
          exact absurd hm none
        | cons x s =>
          rw [List.cons_append] at h
          obtain ⟨rfl, rfl⟩ := List.cons.inj h
          exact ⟨(ih.1 hm).1, x, s, rfl, (ih.1 hm).2⟩
      · rintro ⟨hd, c, t, rfl, hm⟩
        exact ⟨c, t ++ [e], rfl, ih.2 ⟨hd, hm⟩⟩
    | star =>
      constructor
      · rintro ⟨u, t, h, hm⟩
        rcases List.eq_nil_or_concat t with rfl | ⟨t', x, rfl⟩
        · exact absurd hm none
        · rw [List.concat_eq_append, ← List.append_assoc] at h
          obtain ⟨h1, h2⟩ := List.append_inj' h rfl
          obtain rfl : e = x := (List.cons.inj h2).1
          rw [List.concat_eq_append] at hm
          exact ⟨(ih.1 hm).1, u, t', h1, (ih.1 hm).2⟩
      · rintro ⟨hd, u, t, rfl, hm⟩
        exact ⟨u, t ++ [e], by rw [List.append_assoc], ih.2 ⟨hd, hm⟩⟩
    | cls n m =>
      constructor
      · rintro ⟨c, t, h, hc, hm⟩
        cases s with
        | nil =>
          rw [List.nil_append] at h
          rw [← (List.cons.inj h).2] at hm
          exact absurd hm none
        | cons x s =>
          rw [List.cons_append] at h
          obtain ⟨rfl, rfl⟩ := List.cons.inj h
          exact ⟨(ih.1 hm).1, x, s, rfl, hc, (ih.1 hm).2⟩
      · rintro ⟨hd, c, t, rfl, hc, hm⟩
        exact ⟨c, t ++ [e], rfl, hc, ih.2 ⟨hd, hm⟩⟩

/-- Taking off plain characters keeps the answer. -/
theorem strip_spec (rp rs : Bytes) (f : Bool) :
    (∀ p s f', strip rp rs f = some (p, s, f') → (At rp.reverse rs.reverse ↔ At p.reverse s.reverse)) ∧
    (strip rp rs f = none → ¬ At rp.reverse rs.reverse) := by
  induction rp generalizing rs f with
  | nil =>
    refine ⟨fun p s f' h => ?_, fun h => by simp [strip] at h⟩
    simp only [strip, Option.some.injEq, Prod.mk.injEq] at h
    obtain ⟨rfl, rfl, -⟩ := h
    rfl
  | cons d rp ih =>
    cases rs with
    | nil =>
      refine ⟨fun p s f' h => ?_, fun h => by simp [strip] at h⟩
      simp only [strip, Option.some.injEq, Prod.mk.injEq] at h
      obtain ⟨rfl, rfl, -⟩ := h
      rfl
    | cons e rs =>
      by_cases hc : d ≠ 42 ∧ d ≠ 63 ∧ d ≠ 93 ∧ rp.head? ≠ some 92
      · have hsn : At (d :: rp).reverse (e :: rs).reverse ↔ d = e ∧ At rp.reverse rs.reverse := by
          unfold At
          rw [List.reverse_cons, List.reverse_cons, parse_snoc hc.1 hc.2.1 hc.2.2.1 (le_refl _) (by
            rw [List.getLast?_reverse]; exact hc.2.2.2)]
          exact matches_snoc
        rw [hsn]
        have e1 : strip (d :: rp) (e :: rs) f = if d = e then strip rp rs true else none := by
          rw [strip, if_pos hc]
        rw [e1]
        by_cases hde : d = e
        · rw [if_pos hde]
          refine ⟨fun p s f' h => ?_, fun h hm => (ih rs true).2 h hm.2⟩
          rw [← (ih rs true).1 p s f' h]
          simp [hde]
        · rw [if_neg hde]
          exact ⟨fun p s f' h => (by cases h), fun _ hm => hde hm.1⟩
      · have e1 : strip (d :: rp) (e :: rs) f = some (d :: rp, e :: rs, f) := by
          rw [strip, if_neg hc]
        rw [e1]
        refine ⟨fun p s f' h => ?_, fun h => by cases h⟩
        simp only [Option.some.injEq, Prod.mk.injEq] at h
        obtain ⟨rfl, rfl, -⟩ := h
        rfl

/-- An answer of the matcher is what the pattern means, with classes as the code takes them. -/
theorem globMatch_spec {s p : Bytes} {b : Bool} (h : globMatch s p = some b) : b = true ↔ Matches Taken (parse p) s := by
  unfold globMatch at h
  obtain ⟨s1, s2⟩ := strip_spec p.reverse s.reverse false
  rw [List.reverse_reverse, List.reverse_reverse] at s1 s2
  cases hs : strip p.reverse s.reverse false with
  | none =>
    rw [hs] at h
    simp only [Option.some.injEq] at h
    subst h
    exact ⟨fun h => (by cases h), fun hm => absurd hm (s2 hs)⟩
  | some v =>
    obtain ⟨p', s', f⟩ := v
    rw [hs] at h
    have := run_spec' f s'.reverse [p'.reverse] b h
    rw [this]
    have h1 := s1 p' s' f hs
    unfold At at h1
    rw [h1]
    simp [At]

/-! ## Reading past the end of the pattern -/

theorem step_over {inside : Bool} {c : Nat} {p : Bytes} {next : List Bytes} (h : step inside c p next = .over) :
    inside = false ∧ ∃ u q, p = u ++ 91 :: q ∧ bracket q = none := by
  induction p generalizing next with
  | nil => cases h
  | cons d p ih =>
    by_cases h63 : d = 63
    · subst h63; cases h
    by_cases h42 : d = 42
    · subst h42
      rw [step] at h
      split at h
      · cases h
      · obtain ⟨h1, u, q, rfl, h2⟩ := ih h
        exact ⟨h1, 42 :: u, q, rfl, h2⟩
    by_cases h92 : d = 92
    · subst h92
      cases p with
      | nil => cases h
      | cons d p => cases h
    by_cases h91 : d = 91
    · subst h91
      rw [step] at h
      unfold classStep at h
      have hb : bracket p = match (if (p.head? == some 94) = true then p.tail else p) with
        | [] => none
        | m :: t => if 93 ∈ t then some (p.head? == some 94, m :: t.takeWhile (· != 93), (t.dropWhile (· != 93)).tail) else none := rfl
      generalize (if (p.head? == some 94) = true then p.tail else p) = ec at hb h
      cases ec with
      | nil => rw [if_pos rfl] at h; cases h
      | cons m t =>
        rw [if_neg (List.cons_ne_nil _ _), List.tail_cons] at h
        by_cases ht : 93 ∈ t
        · rw [(scan_spec c t false).1 ht] at h; cases h
        · rw [(scan_spec c t false).2 ht] at h
          simp only [ht, if_false] at hb
          cases inside with
          | true => cases h
          | false => exact ⟨rfl, [], p, rfl, hb⟩
    · rw [step] at h
      · cases h
      · exact h63
      · exact h42
      · intro h; exact absurd h h92
      · intro _ _ h; exact absurd h h92
      · exact h91

theorem step_suffix {inside : Bool} {c : Nat} {p : Bytes} {next next' : List Bytes} (h : step inside c p next = .next next') :
    ∀ q ∈ next', q ∈ next ∨ q <:+ p := by
  have app : ∀ {P : Prop} [Decidable P] {r : Bytes} {p : Bytes} {next next' : List Bytes}, r <:+ p →
      Step.next (if P then next ++ [r] else next) = .next next' → ∀ q ∈ next', q ∈ next ∨ q <:+ p := by
    intro P _ r p next next' hr h q hq
    simp only [Step.next.injEq] at h
    subst h
    split at hq
    · rcases List.mem_append.1 hq with h | h
      · exact Or.inl h
      · rw [List.mem_singleton.1 h]; exact Or.inr hr
    · exact Or.inl hq
  induction p generalizing next with
  | nil =>
    intro q hq
    simp only [step, Step.next.injEq] at h
    subst h; exact Or.inl hq
  | cons d p ih =>
    have tl : p <:+ d :: p := List.suffix_cons d p
    by_cases h63 : d = 63
    · subst h63
      have h' : Step.next (if True then next ++ [p] else next) = .next next' := by rw [if_pos trivial]; exact h
      exact app tl h'
    by_cases h42 : d = 42
    · subst h42
      rw [step] at h
      split at h
      · cases h
      · intro q hq
        rcases ih h q hq with h' | h'
        · split at h'
          · exact Or.inl h'
          · rcases List.mem_append.1 h' with h' | h'
            · exact Or.inl h'
            · rw [List.mem_singleton.1 h']; exact Or.inr List.suffix_rfl
        · exact Or.inr (h'.trans tl)
    by_cases h92 : d = 92
    · subst h92
      cases p with
      | nil => exact app (List.nil_suffix) h
      | cons d p => exact app ((List.suffix_cons d p).trans tl) h
    by_cases h91 : d = 91
    · subst h91
      rw [step] at h
      unfold classStep at h
      have hec : (if (p.head? == some 94) = true then p.tail else p) <:+ p := by
        split
        · exact List.tail_suffix _
        · exact List.suffix_rfl
      generalize (if (p.head? == some 94) = true then p.tail else p) = ec at hec h
      generalize (p.head? == some 94) = neg at h
      split at h
      · exact app tl h
      · by_cases ht : 93 ∈ ec.tail
        · rw [(scan_spec c ec.tail false).1 ht] at h
          exact app (((List.tail_suffix _).trans (List.dropWhile_suffix _)).trans (((List.tail_suffix _).trans hec).trans tl)) h
        · rw [(scan_spec c ec.tail false).2 ht] at h
          cases inside with
          | true => exact app tl h
          | false => cases h
    · rw [step] at h
      · exact app tl h
      · exact h63
      · exact h42
      · intro h; exact absurd h h92
      · intro _ _ h; exact absurd h h92
      · exact h91

theorem stepAll_suffix {inside : Bool} {c : Nat} {p : Bytes} {state next next' : List Bytes} (hs : ∀ q ∈ state, q <:+ p)
    (hn : ∀ q ∈ next, q <:+ p) (h : stepAll inside c state next = .next next') : ∀ q ∈ next', q <:+ p := by
  induction state generalizing next with
  | nil => simp only [stepAll, Step.next.injEq] at h; subst h; exact hn
  | cons r state ih =>
    rw [stepAll] at h
    cases e : step inside c r next with
    | next n1 =>
      rw [e] at h
      refine ih (fun q hq => hs q (List.mem_cons_of_mem _ hq)) (fun q hq => ?_) h
      rcases step_suffix e q hq with h' | h'
      · exact hn q h'
      · exact h'.trans (hs r List.mem_cons_self)
    | accept => rw [e] at h; cases h
    | over => rw [e] at h; cases h

theorem stepAll_over {inside : Bool} {c : Nat} {p : Bytes} {state next : List Bytes} (hs : ∀ q ∈ state, q <:+ p)
    (h : stepAll inside c state next = .over) : inside = false ∧ ∃ u q, p = u ++ 91 :: q ∧ bracket q = none := by
  induction state generalizing next with
  | nil => cases h
  | cons r state ih =>
    rw [stepAll] at h
    cases e : step inside c r next with
    | next n1 => rw [e] at h; exact ih (fun q hq => hs q (List.mem_cons_of_mem _ hq)) h
    | accept => rw [e] at h; cases h
    | over =>
      obtain ⟨h1, u, q, hu, hb⟩ := step_over e
      obtain ⟨v, hv⟩ := hs r List.mem_cons_self
      exact ⟨h1, v ++ u, q, by rw [← hv, hu, List.append_assoc], hb⟩

theorem run_over {inside : Bool} {p : Bytes} {s : Bytes} : ∀ {state : List Bytes}, (∀ q ∈ state, q <:+ p) → run inside s state = none →
    inside = false ∧ ∃ u q, p = u ++ 91 :: q ∧ bracket q = none := by
  induction s with
  | nil => intro state _ h; cases state <;> cases h
  | cons c s ih =>
    intro state hs h
    cases state with
    | nil => cases h
    | cons r state =>
      rw [run] at h
      cases e : stepAll inside c (r :: state) [] with
      | next n1 => rw [e] at h; exact ih (stepAll_suffix hs (fun q hq => by simp at hq) e) h
      | accept => rw [e] at h; cases h
      | over => exact stepAll_over hs e

theorem strip_same {rp rs p s : Bytes} {f : Bool} (h : strip rp rs f = some (p, s, false)) : p = rp := by
  induction rp generalizing rs f with
  | nil => simp only [strip, Option.some.injEq, Prod.mk.injEq] at h; exact h.1.symm
  | cons d rp ih =>
    cases rs with
    | nil => simp only [strip, Option.some.injEq, Prod.mk.injEq] at h; exact h.1.symm
    | cons e rs =>
      have no : ∀ {rp rs p s : Bytes}, strip rp rs true ≠ some (p, s, false) := by
        intro rp
        induction rp with
        | nil => intro rs p s h; simp [strip] at h
        | cons d rp ih =>
          intro rs p s h
          cases rs with
          | nil => simp [strip] at h
          | cons e rs =>
            rw [strip] at h
            split at h
            · split at h
              · exact ih h
              · cases h
            · simp at h
      rw [strip] at h
      split at h
      · split at h
        · exact absurd h no
        · cases h
      · simp only [Option.some.injEq, Prod.mk.injEq] at h; exact h.1.symm

/-- The byte after the pattern is read only for a `[` that is not closed. -/
theorem globMatch_over {s p : Bytes} (h : globMatch s p = none) : ∃ u q, p = u ++ 91 :: q ∧ bracket q = none := by
  unfold globMatch at h
  cases hs : strip p.reverse s.reverse false with
  | none => rw [hs] at h; cases h
  | some v =>
    obtain ⟨p', s', f⟩ := v
    rw [hs] at h
    obtain ⟨rfl, u, q, e, hb⟩ := run_over (p := p'.reverse) (fun q hq => by rw [List.mem_singleton.1 hq]; exact List.suffix_rfl) h
    have := strip_same hs
    subst this
    rw [List.reverse_reverse] at e
    exact ⟨u, q, e, hb⟩

end Verif.Text
