import Verif.Json.Chunk

/-!
# `consume` follows the machine: characters, strings, words, numbers, and the loop
-/
namespace Verif.Json

/-! ## Characters -/

/-- The loop at the first byte of a character. -/
theorem plain_lead {b : Nat} (h1 : 0xC2 ≤ b) (h2 : b < 0xF5) (fuel : Nat) (sa r : Bytes) : plain (fuel + 1) sa (b :: r) =
      match r with
      | [] => if edge b then .ub else .more (sa ++ [b]) 1
      | c :: r =>
        if !cont c || badSecond b c then .err
        else if want b = 2 then plain fuel (sa ++ [b, c]) r
        else
          match r with
          | [] => .more (sa ++ [b, c]) 2
          | d :: r =>
            if !cont d then .err
            else if want b = 3 then plain fuel (sa ++ [b, c, d]) r
            else
              match r with
              | [] => .more (sa ++ [b, c, d]) 3
              | e :: r => if !cont e then .err else plain fuel (sa ++ [b, c, d, e]) r := by
  show (if 32 ≤ b ∧ b < 128 ∧ b ≠ 92 ∧ b ≠ 34 then _ else _) = _
  rw [if_neg (by omega), if_neg (by omega), if_neg (by omega), if_neg (by omega)]
  rfl

theorem strStep_char {b : Nat} (h1 : 0xC2 ≤ b) (sa pre : Bytes) (c : Nat) :
    strStep (sa ++ b :: pre) (pre.length + 1) c =
    if !cont c then .err
    else if pre.length + 2 = want b then
      match plain (pre.length + 2) sa (b :: (pre ++ [c])) with
      | .more s n => .more s n
      | _ => .err
    else .more (sa ++ b :: (pre ++ [c])) (pre.length + 2) := by
  rw [strStep, partStep_eq sa b pre _ c rfl]
  have hb : partBad b (pre.length + 1) c = !cont c := by
    have : b ≠ 92 := by omega
    simp [partBad, this]
  have hf : partFull b (pre.length + 1) = decide (pre.length + 2 = want b) := by
    have : b ≠ 92 := by omega
    simp only [partFull, this, want, ne_eq, not_false_eq_true, decide_true, Bool.true_and, decide_false, Bool.false_and, Bool.or_false]
    by_cases h : 224 ≤ b <;> by_cases h' : 240 ≤ b <;> simp [h, h']
  rw [hb, hf]
  cases hc : !cont c with
  | true => rfl
  | false =>
    simp only [Bool.false_eq_true, if_false, decide_eq_true_eq]
    by_cases hw : pre.length + 2 = want b
    · rw [if_pos hw, if_pos hw]
      cases plain (pre.length + 2) sa (b :: (pre ++ [c])) <;> rfl
    · rw [if_neg hw, if_neg hw]

theorem strStep_zero (sa : Bytes) (b : Nat) : strStep sa 0 b =
    if 32 ≤ b ∧ b < 128 ∧ b ≠ 92 ∧ b ≠ 34 then .more (sa ++ [b]) 0
    else if b = 34 then .done sa
    else if b = 92 ∨ (0xC2 ≤ b ∧ b < 0xF5) then .more (sa ++ [b]) 1
    else .err := rfl

variable {p : P} (hp : p.st.over = false)
include hp

/-- A character that can not be right. -/
theorem bad_char {b c : Nat} (h1 : 0xC2 ≤ b) (h2 : b < 0xF5) (hb : badSecond b c = true) (sa : Bytes) :
    Bad (p.S (sa ++ [b, c]) 2) := by
  have hw : want b = 3 ∨ want b = 4 := by
    simp only [badSecond, decide_eq_true_eq] at hb
    unfold want
    by_cases h : 0xF0 ≤ b
    · right; rw [if_pos (by omega), if_pos h]
    · left; rw [if_pos (by omega), if_neg h]
  refine bad_S hp fun d => ?_
  have hs := strStep_char h1 sa [c] d
  rw [show ([c] : Bytes).length + 1 = 2 from rfl] at hs
  rw [hs]
  cases hd : cont d with
  | false => left; rfl
  | true =>
    simp only [Bool.not_true, Bool.false_eq_true, if_false, List.length_singleton, Nat.reduceAdd]
    rcases hw with hw | hw
    · left
      rw [if_pos hw.symm, plain_lead h1 h2]
      simp [hb]
    · right
      rw [if_neg (by omega)]
      refine ⟨_, _, rfl, bad_S hp fun e => ?_⟩
      have hs := strStep_char h1 sa [c, d] e
      rw [show ([c, d] : Bytes).length + 1 = 3 from rfl] at hs
      left
      rw [show ([c] ++ [d] : Bytes) = [c, d] from rfl, hs]
      cases he : cont e with
      | false => rfl
      | true =>
        simp only [Bool.not_true, Bool.false_eq_true, if_false, List.length_cons, List.length_nil, Nat.reduceAdd]
        rw [if_pos hw.symm, plain_lead h1 h2]
        simp [hb]

/-! ## Strings -/

omit hp in
theorem ref_done (s r bs : Bytes) (h : feedAll p bs = feedAll (if p.st = .objColon then p.key s else p.value (.str s)) r)
    (hl : r <:+ bs) : Ref p bs (P.afterString p (.done s r)) := by
  refine Or.inr (Or.inl ⟨h, hl, fun _ => ?_, ok_no ?_⟩)
  all_goals
    dsimp only [P.afterString]
    split
    · exact key_part _ _
    · exact value_part _ _

omit hp in
theorem S_S (p : P) (a b : Bytes) (n m : Nat) : (p.S a n).S b m = p.S b m := rfl

omit hp in
theorem ref_more (p : P) (s : Bytes) (n : Nat) (bs : Bytes) (q : P) (h : feedAll q bs = (p.S s n, [])) :
    Ref q bs (p.S s n, []) := by
  refine Or.inr (Or.inl ⟨by rw [h]; rfl, by simp, fun h => absurd rfl h, ?_, ?_⟩)
  · intro m hm; cases hm
  · intro m hm; cases hm

theorem plain_ref : ∀ (fuel : Nat) (sa bs : Bytes), bs.length ≤ fuel →
    Ref (p.S sa 0) bs (p.afterString (plain fuel sa bs)) := by
  intro fuel
  induction fuel with
  | zero =>
    intro sa bs hl
    cases bs with
    | nil => exact ref_more p sa 0 [] _ rfl
    | cons b r => simp at hl
  | succ fuel ih =>
    intro sa bs hl
    cases bs with
    | nil => exact ref_more p sa 0 [] _ rfl
    | cons b r =>
      have hl' : r.length ≤ fuel := by simp at hl; exact hl
      have hst := strStep_zero sa b
      by_cases h1 : 32 ≤ b ∧ b < 128 ∧ b ≠ 92 ∧ b ≠ 34
      · rw [if_pos h1] at hst
        have : plain (fuel + 1) sa (b :: r) = plain fuel (sa ++ [b]) r := by
          show (if 32 ≤ b ∧ b < 128 ∧ b ≠ 92 ∧ b ≠ 34 then _ else _) = _
          rw [if_pos h1]
        rw [this]
        refine ref_trans ?_ (by simp) (ih (sa ++ [b]) r hl')
        rw [feedAll_S hp, hst]
      · rw [if_neg h1] at hst
        by_cases h2 : b = 92
        · subst h2
          rw [if_neg (by omega), if_pos (Or.inl rfl)] at hst
          have hf : feedAll (p.S sa 0) (92 :: r) = feedAll (p.S (sa ++ [92]) 1) r := by rw [feedAll_S hp, hst]
          have he := esc_all hp sa r
          unfold EscP at he
          rw [List.nil_append] at he
          rw [plain_esc]
          cases hk : backslash r with
          | part =>
            rw [hk] at he
            exact ref_more p _ _ _ _ (hf.trans he)
          | err =>
            rw [hk] at he
            refine ref_bad ?_
            rw [hf]; exact he
          | ok u r' =>
            rw [hk] at he
            exact ref_trans (hf.trans he.1) (suf_cons he.2) (ih (sa ++ u) r' (Nat.le_trans he.2.length_le hl'))
        · by_cases h3 : b = 34
          · subst h3
            rw [if_pos rfl] at hst
            have : plain (fuel + 1) sa (34 :: r) = .done sa r := rfl
            rw [this]
            exact ref_trans (q := p.S sa 0) rfl List.suffix_rfl
              (ref_done (p := p.S sa 0) sa r _ (by rw [feedAll_S hp, hst]; rfl) (by simp))
          · rw [if_neg h3] at hst
            by_cases h4 : 0xC2 ≤ b ∧ b < 0xF5
            · rw [if_pos (Or.inr h4)] at hst
              have hf : feedAll (p.S sa 0) (b :: r) = feedAll (p.S (sa ++ [b]) 1) r := by rw [feedAll_S hp, hst]
              rw [plain_lead h4.1 h4.2]
              cases r with
              | nil =>
                dsimp only
                by_cases hE : edge b = true
                · rw [if_pos hE]
                  refine ref_ub ⟨b, rfl, of_decide_eq_true hE⟩ ?_
                  rw [hf]
                  show p.st ≠ .final
                  intro h; rw [h] at hp; cases hp
                · rw [if_neg hE]; exact ref_more p _ _ _ _ hf
              | cons c r =>
                dsimp only
                replace hf := hf.trans (feedAll_S hp _ _ _ _)
                have hs := strStep_char h4.1 sa [] c
                rw [show ([] : Bytes).length + 1 = 1 from rfl] at hs
                rw [hs] at hf
                cases hc : cont c with
                | false =>
                  simp only [hc, Bool.not_false, if_true, Bool.true_or] at hf ⊢
                  exact ref_fail hf
                | true =>
                  simp only [hc, Bool.not_true, Bool.false_eq_true, if_false, Bool.false_or, List.length_nil, List.nil_append] at hf ⊢
                  by_cases hw : want b = 2
                  · have hbs : badSecond b c = false := by
                      have : b < 0xE0 := by
                        by_contra h; unfold want at hw; rw [if_pos (by omega)] at hw; omega
                      simp only [badSecond, decide_eq_false_iff_not]; omega
                    rw [if_neg (by simp [hbs]), if_pos hw]
                    rw [if_pos hw.symm, plain_lead h4.1 h4.2] at hf
                    simp only [hc, hbs, hw, Bool.not_true, Bool.or_self, Bool.false_eq_true, if_false, if_true, plain] at hf
                    refine ref_trans hf ?_ (ih (sa ++ [b, c]) r (by simp at hl'; omega))
                    exact suf_cons (suf_cons (by first | exact List.suffix_rfl | exact suf_cons (by first | exact List.suffix_rfl | exact suf_cons List.suffix_rfl)))
                  · rw [if_neg (fun h => hw h.symm)] at hf
                    dsimp only at hf
                    cases hbs : badSecond b c with
                    | true =>
                      refine ref_bad ?_
                      rw [hf]
                      exact (bad_char hp h4.1 h4.2 hbs sa).feedAll r
                    | false =>
                      rw [if_neg (by simp), if_neg hw]
                      cases r with
                      | nil => exact ref_more p _ _ _ _ hf
                      | cons d r =>
                        dsimp only
                        replace hf := hf.trans (feedAll_S hp _ _ _ _)
                        have hs := strStep_char h4.1 sa [c] d
                        rw [show ([c] : Bytes).length + 1 = 0 + 2 from rfl] at hs
                        rw [hs] at hf
                        cases hd : cont d with
                        | false =>
                          simp only [hd, Bool.not_false, if_true] at hf ⊢
                          exact ref_fail hf
                        | true =>
                          simp only [hd, Bool.not_true, Bool.false_eq_true, if_false, List.length_singleton, Nat.reduceAdd,
                            List.singleton_append] at hf ⊢
                          by_cases hw3 : want b = 3
                          · rw [if_pos hw3]
                            rw [if_pos hw3.symm, plain_lead h4.1 h4.2] at hf
                            simp only [hc, hd, hbs, hw3, Bool.not_true, Bool.or_self, Bool.false_eq_true, if_false, if_true,
                              Nat.reduceEqDiff, plain] at hf
                            refine ref_trans hf ?_ (ih (sa ++ [b, c, d]) r (by simp at hl'; omega))
                            exact suf_cons (suf_cons (by first | exact List.suffix_rfl | exact suf_cons (by first | exact List.suffix_rfl | exact suf_cons List.suffix_rfl)))
                          · rw [if_neg hw3]
                            rw [if_neg (fun h => hw3 h.symm)] at hf
                            dsimp only at hf
                            have hw4 : want b = 4 := by
                              unfold want at hw hw3 ⊢
                              by_cases h : 0xF0 ≤ b
                              · rw [if_pos (by omega), if_pos h]
                              · rw [if_neg h] at hw hw3
                                by_cases h' : 0xE0 ≤ b
                                · rw [if_pos h'] at hw3; omega
                                · rw [if_neg h'] at hw; omega
                            cases r with
                            | nil => exact ref_more p _ _ _ _ hf
                            | cons e r =>
                              dsimp only
                              replace hf := hf.trans (feedAll_S hp _ _ _ _)
                              have hs := strStep_char h4.1 sa [c, d] e
                              rw [show ([c, d] : Bytes).length + 1 = 3 from rfl] at hs
                              rw [hs] at hf
                              cases he : cont e with
                              | false =>
                                simp only [he, Bool.not_false, if_true] at hf ⊢
                                exact ref_fail hf
                              | true =>
                                simp only [he, Bool.not_true, Bool.false_eq_true, if_false, List.length_cons, List.length_nil,
                                  Nat.reduceAdd, List.cons_append, List.nil_append] at hf ⊢
                                rw [if_pos hw4.symm, plain_lead h4.1 h4.2] at hf
                                simp only [hc, hd, he, hbs, hw4, Bool.not_true, Bool.or_self, Bool.false_eq_true, if_false,
                                  Nat.reduceEqDiff, plain] at hf
                                refine ref_trans hf ?_ (ih (sa ++ [b, c, d, e]) r (by simp at hl'; omega))
                                exact suf_cons (suf_cons (by first | exact List.suffix_rfl | exact suf_cons (by first | exact List.suffix_rfl | exact suf_cons List.suffix_rfl)))
            · rw [if_neg (by omega)] at hst
              have : plain (fuel + 1) sa (b :: r) = .err := by
                show (if 32 ≤ b ∧ b < 128 ∧ b ≠ 92 ∧ b ≠ 34 then _ else _) = _
                rw [if_neg h1, if_neg h2, if_neg h3, if_pos h4]
              rw [this]
              refine ref_fail (q := p) (r := r) ?_
              rw [feedAll_S hp, hst]

theorem string_ref : ∀ (bs sa : Bytes) (n : Nat), Ref (p.S sa n) bs (p.afterString (consumeString sa n bs)) := by
  intro bs
  induction bs with
  | nil =>
    intro sa n
    cases n with
    | zero => rw [consumeString]; exact plain_ref hp _ sa [] (Nat.le_refl _)
    | succ n => rw [consumeString]; exact ref_more p sa (n + 1) [] _ rfl
  | cons b r ih =>
    intro sa n
    cases n with
    | zero => rw [consumeString]; exact plain_ref hp _ sa _ (Nat.le_refl _)
    | succ n =>
      rw [consumeString]
      have hf := feedAll_S hp sa (n + 1) b r
      rw [strStep] at hf
      cases hk : partStep sa (n + 1) b with
      | none =>
        rw [hk] at hf
        exact ref_fail hf
      | some x =>
        rw [hk] at hf
        exact ref_trans hf (by simp) (ih x.1 x.2)

/-! ## Words -/

omit hp in
theorem ref_value {q : P} {bs r : Bytes} {j : J} (h : feedAll q bs = feedAll (p.value j) r) (hl : r <:+ bs) :
    Ref q bs (p.value j, r) :=
  Or.inr (Or.inl ⟨h, hl, fun _ => value_part _ _, ok_no (value_part _ _)⟩)

/-- `p` in a word. -/
def P.W (p : P) (n : Nat) : P := { p with part := .prim n }

theorem word_ref : ∀ (bs : Bytes) (n : Nat), words.getD n 0 ≠ 0 → Ref (p.W n) bs (p.afterPrimitive (primitive n bs)) := by
  intro bs
  induction bs with
  | nil =>
    intro n hn
    rw [primitive, if_neg hn]
    refine Or.inr (Or.inl ⟨rfl, by simp [P.afterPrimitive], fun h => absurd rfl h, ?_, ?_⟩)
    · intro m hm; cases hm; exact hn
    · intro m hm; cases hm
  | cons b r ih =>
    intro n hn
    rw [primitive, if_neg hn]
    have hv : ∀ j, (p.W n).value j = p.value j := by
      intro j; unfold P.value P.W; cases p.open_ <;> rfl
    have ho : (p.W n).st.over = false := hp
    by_cases hb : words.getD n 0 = b
    · rw [if_pos hb]
      by_cases h0 : words.getD (n + 1) 0 = 0
      · have : primitive (n + 1) r = .done (wordValue (n + 1)) r := by
          cases r with
          | nil => rw [primitive, if_pos h0]
          | cons c r => rw [primitive, if_pos h0]
        rw [this]
        refine ref_value ?_ (by simp)
        have hf : feed (p.W n) b = ((p.W n).value (wordValue (n + 1)), true) := by
          unfold feed P.W; dsimp only; rw [if_pos hb, if_pos h0]
        simp only [feedAll, ho, Bool.false_eq_true, if_false, hf, hv]
      · refine ref_trans ?_ (by simp) (ih (n + 1) h0)
        have hf : feed (p.W n) b = (p.W (n + 1), true) := by
          unfold feed P.W; dsimp only; rw [if_pos hb, if_neg h0]
        simp only [feedAll, ho, Bool.false_eq_true, if_false, hf]
    · rw [if_neg hb]
      have hf : feed (p.W n) b = ((p.W n).fail, true) := by
        unfold feed P.W; dsimp only; rw [if_neg hb]
      refine ref_fail (q := p) (r := r) ?_
      simp only [feedAll, ho, Bool.false_eq_true, if_false, hf]
      rw [feedAll_over rfl]; rfl

/-! ## Numbers -/

omit hp in
theorem endNumber_N (p : P) (s t : Bytes) (n m : Nat) : (p.N s n).endNumber t m = p.endNumber t m := by
  unfold P.endNumber P.N
  by_cases h : m % 2 = 0
  · rw [if_pos h, if_pos h]; rfl
  · rw [if_neg h, if_neg h]
    cases numValue t m with
    | none => rfl
    | some j => dsimp only; unfold P.value; cases p.open_ <;> rfl

theorem feedAll_N (s : Bytes) (n b : Nat) (r : Bytes) : feedAll (p.N s n) (b :: r) =
    match numStep n b with
    | some m => feedAll (p.N (s ++ [b]) m) r
    | none => feedAll (p.endNumber s n) (b :: r) := by
  have ho : (p.N s n).st.over = false := hp
  have hf : feed (p.N s n) b = match numStep n b with
      | some m => (p.N (s ++ [b]) m, true)
      | none =>
        let q := p.endNumber s n
        if q.st.over then (q, false) else ((q.round false b []).1, true) := by
    have := endNumber_N p s s n n
    unfold feed
    show (match numStep n b with | some m => _ | none => let q := (p.N s n).endNumber s n; _) = _
    rw [this]; rfl
  rw [feedAll, if_neg (by simp [ho]), hf]
  cases numStep n b with
  | some m => rfl
  | none =>
    dsimp only
    by_cases hq : (p.endNumber s n).st.over = true
    · rw [if_pos hq, feedAll_over hq]
    · rw [if_neg hq, feedAll, if_neg hq]
      unfold feed
      rw [endNumber_part]

/-- `x` is what is read of a number from `bs` on. -/
def NumOk (p : P) (s : Bytes) (n : Nat) (bs : Bytes) (x : Bytes × Nat × Bytes) : Prop :=
  feedAll (p.N s n) bs = feedAll (p.N (s ++ x.1) x.2.1) x.2.2 ∧ x.2.2 <:+ bs ∧ x.2.1 ≠ 0 ∧
    ∀ b r, x.2.2 = b :: r → numStep x.2.1 b = none

theorem NumOk.cons {s : Bytes} {n m b : Nat} {r : Bytes} {x : Bytes × Nat × Bytes} (h : numStep n b = some m)
    (hx : NumOk p (s ++ [b]) m r x) : NumOk p s n (b :: r) (b :: x.1, x.2) := by
  obtain ⟨h1, h2, h3, h4⟩ := hx
  refine ⟨?_, suf_cons h2, h3, h4⟩
  rw [feedAll_N hp, h]
  dsimp only
  rw [h1]
  simp

omit hp in
theorem NumOk.stop {s : Bytes} {n : Nat} {bs : Bytes} (hn : n ≠ 0) (h : ∀ b r, bs = b :: r → numStep n b = none) :
    NumOk p s n bs ([], n, bs) := ⟨by simp, List.suffix_rfl, hn, h⟩

/-- Digits. -/
theorem NumOk.digits {n : Nat} (hn : ∀ d, isDigit d = true → numStep n d = some n) : ∀ (bs s : Bytes) (x : Bytes × Nat × Bytes),
    (∀ s, NumOk p s n (bs.dropWhile isDigit) x) → NumOk p s n bs (bs.takeWhile isDigit ++ x.1, x.2) := by
  intro bs
  induction bs with
  | nil => intro s x hx; exact hx s
  | cons b r ih =>
    intro s x hx
    by_cases hb : isDigit b = true
    · rw [List.dropWhile_cons_of_pos hb] at hx
      rw [List.takeWhile_cons_of_pos hb]
      exact NumOk.cons hp (hn b hb) (ih _ x hx)
    · rw [List.dropWhile_cons_of_neg hb] at hx
      rw [List.takeWhile_cons_of_neg hb]
      exact hx s

omit hp in
theorem drop_head {bs r : Bytes} {b : Nat} (h : bs.dropWhile isDigit = b :: r) : isDigit b = false := by
  induction bs with
  | nil => cases h
  | cons c bs ih =>
    by_cases hc : isDigit c = true
    · rw [List.dropWhile_cons_of_pos hc] at h; exact ih h
    · rw [List.dropWhile_cons_of_neg hc] at h; cases h; simpa using hc

omit hp in
theorem numStep_digit {n b : Nat} (hb : isDigit b = true) : numStep n b =
    if n = 1 then some 1
    else if n = 2 then some (if b = 48 then 3 else 1)
    else if n = 4 ∨ n = 5 then some 5
    else if n = 6 ∨ n = 8 ∨ n = 9 then some 9
    else none := by unfold numStep; rw [if_pos hb]

theorem num9_ok (s bs : Bytes) : NumOk p s 9 bs (num9 bs) := by
  have := NumOk.digits hp (n := 9) (fun d hd => by rw [numStep_digit hd]; rfl) bs s ([], 9, bs.dropWhile isDigit) fun s =>
    NumOk.stop (by omega) fun b r h => by
      have := drop_head h
      simp [numStep, this]
  rw [List.append_nil] at this
  exact this

theorem num8_ok (s bs : Bytes) : NumOk p s 8 bs (num8 bs) := by
  cases bs with
  | nil => exact NumOk.stop (by omega) fun b r h => by cases h
  | cons b r =>
    unfold num8
    dsimp only
    by_cases hb : isDigit b = true
    · rw [if_pos hb]; exact NumOk.cons hp (by rw [numStep_digit hb]; rfl) (num9_ok hp _ r)
    · rw [if_neg hb]
      refine NumOk.stop (by omega) fun c r' h => ?_
      cases h
      simp [numStep, hb]

theorem num6_ok (s bs : Bytes) : NumOk p s 6 bs (num6 bs) := by
  cases bs with
  | nil => exact NumOk.stop (by omega) fun b r h => by cases h
  | cons b r =>
    unfold num6
    dsimp only
    by_cases hb : b = 43 ∨ b = 45
    · rw [if_pos hb]
      refine NumOk.cons hp (m := 8) ?_ (num8_ok hp _ r)
      rcases hb with rfl | rfl <;> rfl
    · rw [if_neg hb]
      by_cases hd : isDigit b = true
      · have : num8 (b :: r) = (b :: (num9 r).1, (num9 r).2) := by unfold num8; dsimp only; rw [if_pos hd]; rfl
        rw [this]
        exact NumOk.cons hp (by rw [numStep_digit hd]; rfl) (num9_ok hp _ r)
      · have : num8 (b :: r) = ([], 8, b :: r) := by unfold num8; dsimp only; rw [if_neg hd]
        rw [this]
        have h6 : numStep 6 b = none := by simp [numStep, hd, hb]
        have h8 : numStep 8 b = none := by simp [numStep, hd]
        refine ⟨?_, List.suffix_rfl, by simp, fun c r' h => by cases h; exact h8⟩
        dsimp only
        rw [List.append_nil, feedAll_N hp, feedAll_N hp, h6, h8]
        rfl

theorem numExp_ok (s : Bytes) (n : Nat) (hn : n = 1 ∨ n = 2 ∨ n = 3 ∨ n = 5) (bs : Bytes)
    (h : ∀ b r, bs = b :: r → (n = 3 ∨ isDigit b = false) ∧ (n = 5 ∨ b ≠ 46)) : NumOk p s n bs (numExp n bs) := by
  cases bs with
  | nil => exact NumOk.stop (by omega) fun b r h => by cases h
  | cons b r =>
    obtain ⟨hd, h46⟩ := h b r rfl
    unfold numExp
    dsimp only
    by_cases hb : b = 101 ∨ b = 69
    · rw [if_pos hb]
      refine NumOk.cons hp (m := 6) ?_ (num6_ok hp _ r)
      rcases hb with rfl | rfl <;> rcases hn with rfl | rfl | rfl | rfl <;> rfl
    · rw [if_neg hb]
      refine NumOk.stop (by omega) fun c r' h => ?_
      cases h
      by_cases hdd : isDigit b = true
      · rcases hd with rfl | hd
        · rw [numStep_digit hdd]; rfl
        · rw [hd] at hdd; cases hdd
      · have h6 : n ≠ 6 := by omega
        rcases h46 with rfl | h46
        · simp [numStep, hdd, hb]
        · simp [numStep, hdd, hb, h46, h6]

theorem num5_ok (s bs : Bytes) : NumOk p s 5 bs (num5 5 bs) := by
  have := NumOk.digits hp (n := 5) (fun d hd => by rw [numStep_digit hd]; rfl) bs s (numExp 5 (bs.dropWhile isDigit)) fun s =>
    numExp_ok hp s 5 (by omega) _ fun b r h => ⟨Or.inr (drop_head h), Or.inl rfl⟩
  unfold num5
  dsimp only
  cases hd : bs.dropWhile isDigit with
  | nil =>
    rw [hd] at this
    rw [if_neg (by simp)]
    simpa [numExp] using this
  | cons b r =>
    rw [hd] at this
    rw [if_pos (by simp)]
    exact this

theorem num4_ok (s bs : Bytes) : NumOk p s 4 bs (num4 bs) := by
  cases bs with
  | nil => exact NumOk.stop (by omega) fun b r h => by cases h
  | cons b r =>
    unfold num4
    dsimp only
    by_cases hb : isDigit b = true
    · rw [if_pos hb]; exact NumOk.cons hp (by rw [numStep_digit hb]; rfl) (num5_ok hp _ r)
    · rw [if_neg hb]
      have : num5 4 (b :: r) = ([], 4, b :: r) := by simp [num5, hb]
      rw [this]
      refine NumOk.stop (by omega) fun c r' h => ?_
      cases h
      simp [numStep, hb]

theorem num3_ok (s : Bytes) (n : Nat) (hn : n = 1 ∨ n = 2 ∨ n = 3) (bs : Bytes)
    (h : ∀ b r, bs = b :: r → n = 3 ∨ isDigit b = false) : NumOk p s n bs (num3 n bs) := by
  cases bs with
  | nil => exact NumOk.stop (by omega) fun b r h => by cases h
  | cons b r =>
    unfold num3
    dsimp only
    by_cases hb : b = 46
    · rw [if_pos hb]
      subst hb
      refine NumOk.cons hp (m := 4) ?_ (num4_ok hp _ r)
      rcases hn with rfl | rfl | rfl <;> rfl
    · rw [if_neg hb]
      exact numExp_ok hp s n (by omega) _ fun c r' hc => ⟨h c r' hc, Or.inr (by cases hc; exact hb)⟩

theorem num1_ok (s bs : Bytes) : NumOk p s 1 bs (num1 bs) :=
  NumOk.digits hp (n := 1) (fun d hd => by rw [numStep_digit hd]; rfl) bs s (num3 1 (bs.dropWhile isDigit)) fun s =>
    num3_ok hp s 1 (by omega) _ fun b r h => Or.inr (drop_head h)

theorem num2_ok (s bs : Bytes) : NumOk p s 2 bs (num2 bs) := by
  cases bs with
  | nil => exact NumOk.stop (by omega) fun b r h => by cases h
  | cons b r =>
    unfold num2
    dsimp only
    by_cases hb : b = 48
    · rw [if_pos hb]
      subst hb
      exact NumOk.cons hp (m := 3) rfl (num3_ok hp _ 3 (by omega) r fun _ _ _ => Or.inl rfl)
    · rw [if_neg hb]
      by_cases h1 : 49 ≤ b ∧ b ≤ 57
      · rw [if_pos h1]
        refine NumOk.cons hp (m := 1) ?_ (num1_ok hp _ r)
        rw [numStep_digit (by simp [isDigit]; omega)]
        simp [hb]
      · rw [if_neg h1]
        refine num3_ok hp s 2 (by omega) _ fun c r' h => Or.inr ?_
        cases h
        simp only [isDigit, decide_eq_false_iff_not]
        omega

theorem numScan_ok (s : Bytes) (n : Nat) (hn : n ≠ 0) (bs : Bytes) : NumOk p s n bs (numScan n bs) := by
  match n, hn with
  | 1, _ => exact num1_ok hp s bs
  | 2, _ => exact num2_ok hp s bs
  | 3, _ => exact num3_ok hp s 3 (by omega) bs fun _ _ _ => Or.inl rfl
  | 4, _ => exact num4_ok hp s bs
  | 5, _ => exact num5_ok hp s bs
  | 6, _ => exact num6_ok hp s bs
  | 7, _ =>
    refine NumOk.stop (by omega) fun b r _ => ?_
    simp [numStep]
  | 8, _ => exact num8_ok hp s bs
  | 9, _ => exact num9_ok hp s bs
  | n + 10, _ =>
    refine NumOk.stop (by omega) fun b r _ => ?_
    simp [numStep]

end Verif.Json
