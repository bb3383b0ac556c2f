import Verif.Json.Consume

/-!
# `consume` follows the machine: the loop
-/
namespace Verif.Json

theorem number_ref {p : P} (hp : p.st.over = false) (s : Bytes) (n : Nat) (bs : Bytes) (x : Bytes × Nat × Bytes) (hx : NumOk p s n bs x) :
    Ref (p.N s n) bs (if x.2.2 ≠ [] ∨ false = true then (p.endNumber (s ++ x.1) x.2.1, x.2.2)
      else ({ p with part := .num x.2.1, str := s ++ x.1 }, [])) := by
  obtain ⟨h1, h2, h3, h4⟩ := hx
  cases hr : x.2.2 with
  | nil =>
    rw [if_neg (by simp)]
    rw [hr] at h1
    refine Or.inr (Or.inl ⟨h1, by simp, fun h => absurd rfl h, ?_, ?_⟩)
    · intro m hm; cases hm
    · intro m hm; cases hm; exact h3
  | cons b r =>
    rw [if_pos (by simp)]
    have h5 := h4 b r hr
    rw [hr, feedAll_N hp, h5] at h1
    dsimp only at h1
    rw [hr] at h2
    refine Or.inr (Or.inl ⟨h1, h2, fun _ => endNumber_part _ _ _, ok_no (endNumber_part _ _ _)⟩)

/-- A round takes at least one byte. -/
def Ref1 (p : P) (b : Nat) (r : Bytes) (x : P × Bytes) : Prop :=
  (x.1.st = .ub ∧ Lead (b :: r) ∧ (finish (feedAll p (b :: r)).1).st ≠ .final) ∨
  (feedAll p (b :: r) = feedAll x.1 x.2 ∧ x.2 <:+ r ∧ (x.2 ≠ [] → x.1.part = .no) ∧ x.1.Ok) ∨
  (x.1.st = .error ∧ Bad (feedAll p (b :: r)).1)

theorem ref1_of {p q : P} {b : Nat} {r : Bytes} {x : P × Bytes} (h : feedAll p (b :: r) = feedAll q r) (hx : Ref q r x) :
    Ref1 p b r x := by
  rcases hx with hx | ⟨h1, h2, h3⟩ | ⟨h1, h2⟩
  · exact Or.inl ⟨hx.1, hx.2.1.suffix (List.suffix_cons _ _), by rw [h]; exact hx.2.2⟩
  · exact Or.inr (Or.inl ⟨h.trans h1, h2, h3⟩)
  · exact Or.inr (Or.inr ⟨h1, by rw [h]; exact h2⟩)

/-- What follows the first byte of a number. -/
theorem num0_eq {b : Nat} (hb : b = 45 ∨ isDigit b = true) : ∃ n, n ≠ 0 ∧
    ∀ r, num0 (b :: r) = (b :: (numScan n r).1, (numScan n r).2) ∧ (numScan n ([] : Bytes)) = ([], n, []) := by
  by_cases h : b = 45
  · subst h; exact ⟨2, by omega, fun r => ⟨rfl, rfl⟩⟩
  · have hd : isDigit b = true := hb.resolve_left h
    by_cases h0 : b = 48
    · subst h0; exact ⟨3, by omega, fun r => ⟨rfl, rfl⟩⟩
    · refine ⟨1, by omega, fun r => ⟨?_, rfl⟩⟩
      unfold num0 num2
      dsimp only
      simp only [isDigit, decide_eq_true_eq] at hd
      rw [if_neg h, if_neg h0, if_pos (by omega)]
      rfl

theorem round_no {p : P} (hp : p.st.over = false) (hn : p.part = .no) (b : Nat) (r : Bytes) :
    feedAll p (b :: r) = feedAll (p.round false b []).1 r := by
  rw [feedAll, if_neg (by simp [hp])]
  unfold feed
  rw [hn]

/-- What a round does. -/
theorem round_shape {p : P} (hp : p.st.over = false) (hn : p.part = .no) (b : Nat) :
    (∃ q : P, q.part = .no ∧ ∀ c r, p.round c b r = (q, r)) ∨
    (∀ c r, p.round c b r = (p.fail, [])) ∨
    (∃ q : P, q.st.over = false ∧ q.part = .no ∧ ∀ c r, p.round c b r = q.afterString (consumeString [] 0 r)) ∨
    (∀ c r, p.round c b r = p.afterPrimitive (primitive (wordStart b) r)) ∨
    ((b = 45 ∨ isDigit b = true) ∧ ∀ c r, p.round c b r = p.number c [] 0 (b :: r)) := by
  by_cases h1 : b = 32 ∨ b = 10 ∨ b = 13 ∨ b = 9
  · exact Or.inl ⟨p, hn, fun c r => by unfold P.round; rw [if_pos h1]⟩
  by_cases h2 : b = 44
  · by_cases h : p.st = .arrDelim
    · exact Or.inl ⟨{ p with st := .arrVal }, hn, fun c r => by unfold P.round; rw [if_neg h1, if_pos h2, if_pos h]⟩
    · by_cases h' : p.st = .objDelim
      · exact Or.inl ⟨{ p with st := .objKey }, hn, fun c r => by
          unfold P.round; rw [if_neg h1, if_pos h2, if_neg h, if_pos h']⟩
      · exact Or.inr (Or.inl fun c r => by unfold P.round; rw [if_neg h1, if_pos h2, if_neg h, if_neg h'])
  by_cases h3 : b = 58
  · by_cases h : p.st = .objColon
    · exact Or.inl ⟨{ p with st := .objVal }, hn, fun c r => by unfold P.round; rw [if_neg h1, if_neg h2, if_pos h3, if_pos h]⟩
    · exact Or.inr (Or.inl fun c r => by unfold P.round; rw [if_neg h1, if_neg h2, if_pos h3, if_neg h])
  by_cases h4 : b = 123
  · by_cases h : p.st.val = true ∧ p.size ≠ 2048
    · exact Or.inl ⟨p.enter (.obj [] []) .objInit, rfl, fun c r => by
        unfold P.round; rw [if_neg h1, if_neg h2, if_neg h3, if_pos h4, if_pos h]⟩
    · exact Or.inr (Or.inl fun c r => by unfold P.round; rw [if_neg h1, if_neg h2, if_neg h3, if_pos h4, if_neg h])
  by_cases h5 : b = 125
  · by_cases h : p.st = .objInit ∨ p.st = .objDelim
    · exact Or.inl ⟨p.leave, leave_part p, fun c r => by
        unfold P.round; rw [if_neg h1, if_neg h2, if_neg h3, if_neg h4, if_pos h5, if_pos h]⟩
    · exact Or.inr (Or.inl fun c r => by unfold P.round; rw [if_neg h1, if_neg h2, if_neg h3, if_neg h4, if_pos h5, if_neg h])
  by_cases h6 : b = 91
  · by_cases h : p.st.val = true ∧ p.size ≠ 2048
    · exact Or.inl ⟨p.enter (.arr []) .arrInit, rfl, fun c r => by
        unfold P.round; rw [if_neg h1, if_neg h2, if_neg h3, if_neg h4, if_neg h5, if_pos h6, if_pos h]⟩
    · exact Or.inr (Or.inl fun c r => by
        unfold P.round; rw [if_neg h1, if_neg h2, if_neg h3, if_neg h4, if_neg h5, if_pos h6, if_neg h])
  by_cases h7 : b = 93
  · by_cases h : p.st = .arrInit ∨ p.st = .arrDelim
    · exact Or.inl ⟨p.leave, leave_part p, fun c r => by
        unfold P.round; rw [if_neg h1, if_neg h2, if_neg h3, if_neg h4, if_neg h5, if_neg h6, if_pos h7, if_pos h]⟩
    · exact Or.inr (Or.inl fun c r => by
        unfold P.round; rw [if_neg h1, if_neg h2, if_neg h3, if_neg h4, if_neg h5, if_neg h6, if_pos h7, if_neg h])
  by_cases h8 : b = 34
  · by_cases h : p.st.val = true
    · exact Or.inr (Or.inr (Or.inl ⟨p, hp, hn, fun c r => by
        unfold P.round
        rw [if_neg h1, if_neg h2, if_neg h3, if_neg h4, if_neg h5, if_neg h6, if_neg h7, if_pos h8, if_pos h]⟩))
    · by_cases h' : p.st = .objInit ∨ p.st = .objKey
      · exact Or.inr (Or.inr (Or.inl ⟨{ p with st := .objColon }, rfl, hn, fun c r => by
          unfold P.round
          rw [if_neg h1, if_neg h2, if_neg h3, if_neg h4, if_neg h5, if_neg h6, if_neg h7, if_pos h8, if_neg h, if_pos h']⟩))
      · exact Or.inr (Or.inl fun c r => by
          unfold P.round
          rw [if_neg h1, if_neg h2, if_neg h3, if_neg h4, if_neg h5, if_neg h6, if_neg h7, if_pos h8, if_neg h, if_neg h'])
  by_cases h9 : b = 110 ∨ b = 102 ∨ b = 116
  · by_cases h : p.st.val = true
    · exact Or.inr (Or.inr (Or.inr (Or.inl fun c r => by
        unfold P.round
        rw [if_neg h1, if_neg h2, if_neg h3, if_neg h4, if_neg h5, if_neg h6, if_neg h7, if_neg h8, if_pos h9, if_pos h])))
    · exact Or.inr (Or.inl fun c r => by
        unfold P.round
        rw [if_neg h1, if_neg h2, if_neg h3, if_neg h4, if_neg h5, if_neg h6, if_neg h7, if_neg h8, if_pos h9, if_neg h])
  by_cases h10 : b = 45 ∨ isDigit b = true
  · by_cases h : p.st.val = true
    · exact Or.inr (Or.inr (Or.inr (Or.inr ⟨h10, fun c r => by
        unfold P.round
        rw [if_neg h1, if_neg h2, if_neg h3, if_neg h4, if_neg h5, if_neg h6, if_neg h7, if_neg h8, if_neg h9, if_pos h10, if_pos h]⟩)))
    · exact Or.inr (Or.inl fun c r => by
        unfold P.round
        rw [if_neg h1, if_neg h2, if_neg h3, if_neg h4, if_neg h5, if_neg h6, if_neg h7, if_neg h8, if_neg h9, if_pos h10, if_neg h])
  · exact Or.inr (Or.inl fun c r => by
      unfold P.round
      rw [if_neg h1, if_neg h2, if_neg h3, if_neg h4, if_neg h5, if_neg h6, if_neg h7, if_neg h8, if_neg h9, if_neg h10])

theorem word_start (b : Nat) : words.getD (wordStart b) 0 ≠ 0 := by
  unfold wordStart
  split
  · decide
  · split <;> decide

theorem round_ref {p : P} (hp : p.st.over = false) (hn : p.part = .no) (b : Nat) (r : Bytes) : Ref1 p b r (p.round false b r) := by
  have hr := round_no hp hn b r
  rcases round_shape hp hn b with ⟨q, h1, h⟩ | h | ⟨q, h1, h2, h⟩ | h | ⟨hb, h⟩
  · rw [h] at hr ⊢
    exact Or.inr (Or.inl ⟨hr, List.suffix_rfl, fun _ => h1, ok_no h1⟩)
  · rw [h] at hr ⊢
    exact Or.inr (Or.inr ⟨rfl, by rw [hr]; exact (bad_fail p).feedAll r⟩)
  · rw [h] at hr ⊢
    exact ref1_of (q := q.S [] 0) hr (string_ref h1 r [] 0)
  · rw [h] at hr ⊢
    refine ref1_of (q := p.W (wordStart b)) ?_ (word_ref hp r _ (word_start b))
    rw [hr, primitive, if_neg (word_start b)]
    rfl
  · rw [h] at hr ⊢
    obtain ⟨n, hn0, hnum⟩ := num0_eq hb
    have h1 : p.number false [] 0 (b :: r) = (if (numScan n r).2.2 ≠ [] ∨ false = true then
        (p.endNumber ([b] ++ (numScan n r).1) (numScan n r).2.1, (numScan n r).2.2)
        else ({ p with part := .num (numScan n r).2.1, str := [b] ++ (numScan n r).1 }, [])) := by
      unfold P.number
      rw [show numScan 0 (b :: r) = num0 (b :: r) from rfl, (hnum r).1]
      rfl
    rw [h1]
    refine ref1_of (q := p.N [b] n) ?_ (number_ref hp [b] n r _ (numScan_ok hp [b] n hn0 r))
    rw [hr]
    unfold P.number
    rw [show numScan 0 [b] = num0 [b] from rfl, (hnum []).1, (hnum []).2]
    rfl

/-- The end of a chunk: the machine is there too, or it will not succeed. -/
def Fin (p : P) (bs : Bytes) (x : P × Bytes) : Prop :=
  (x.1.st = .ub ∧ Lead bs ∧ (finish (feedAll p bs).1).st ≠ .final) ∨ (x = feedAll p bs ∧ x.1.Ok) ∨ (x.1.st = .error ∧ Bad (feedAll p bs).1)

theorem loop_over {c : Bool} {x : P × Bytes} (h : x.1.st.over = true) (fuel : Nat) : loop c fuel x = x := by
  obtain ⟨p, bs⟩ := x
  cases bs with
  | nil => cases fuel <;> rfl
  | cons b r =>
    cases fuel with
    | zero => rfl
    | succ n => unfold loop; rw [if_pos h]

theorem loop_ref : ∀ (fuel : Nat) (p : P) (bs : Bytes), bs.length ≤ fuel → (bs ≠ [] → p.part = .no) → p.Ok →
    Fin p bs (loop false fuel (p, bs)) := by
  intro fuel
  induction fuel with
  | zero =>
    intro p bs hl hn ho
    cases bs with
    | nil => exact Or.inr (Or.inl ⟨rfl, ho⟩)
    | cons b r => simp at hl
  | succ fuel ih =>
    intro p bs hl hn ho
    cases bs with
    | nil => exact Or.inr (Or.inl ⟨rfl, ho⟩)
    | cons b r =>
      by_cases hp : p.st.over = true
      · rw [loop_over hp]; exact Or.inr (Or.inl ⟨(feedAll_over hp _).symm, ho⟩)
      · rw [loop, if_neg hp]
        simp only [Bool.not_eq_true] at hp
        rcases round_ref hp (hn (by simp)) b r with h | ⟨h1, h2, h3, h4⟩ | h
        · rw [loop_over (by rw [h.1]; rfl)]; exact Or.inl h
        · have := ih (p.round false b r).1 (p.round false b r).2 (by have := h2.length_le; simp at hl; omega) h3 h4
          rcases this with h | h | h
          · exact Or.inl ⟨h.1, h.2.1.suffix (suf_cons h2), by rw [h1]; exact h.2.2⟩
          · exact Or.inr (Or.inl ⟨by rw [h1]; exact h.1, h.2⟩)
          · exact Or.inr (Or.inr ⟨h.1, by rw [h1]; exact h.2⟩)
        · rw [loop_over (by rw [h.1]; rfl)]; exact Or.inr (Or.inr h)

theorem consume_ref {p : P} (ho : p.Ok) (bs : Bytes) : Fin p bs (p.consume bs false) := by
  have go : ∀ x : P × Bytes, Ref p bs x → Fin p bs (loop false bs.length x) := by
    intro x hx
    rcases hx with h | ⟨h1, h2, h3, h4⟩ | h
    · rw [loop_over (by rw [h.1]; rfl)]; exact Or.inl h
    · rcases loop_ref bs.length x.1 x.2 h2.length_le h3 h4 with h | h | h
      · exact Or.inl ⟨h.1, h.2.1.suffix h2, by rw [h1]; exact h.2.2⟩
      · exact Or.inr (Or.inl ⟨by rw [h1]; exact h.1, h.2⟩)
      · exact Or.inr (Or.inr ⟨h.1, by rw [h1]; exact h.2⟩)
    · rw [loop_over (by rw [h.1]; rfl)]; exact Or.inr (Or.inr h)
  unfold P.consume
  by_cases hp : p.st.over = true
  · rw [if_pos hp]; exact Or.inr (Or.inl ⟨(feedAll_over hp _).symm, ho⟩)
  · rw [if_neg hp]
    simp only [Bool.not_eq_true] at hp
    cases hn : p.part with
    | no => exact loop_ref _ p bs (Nat.le_refl _) (fun _ => hn) ho
    | str n =>
      refine go _ ?_
      have : p = p.S p.str n := by unfold P.S; rw [← hn]
      have h := string_ref hp bs p.str n
      rw [← this] at h
      exact h
    | prim n =>
      refine go _ ?_
      have : p = p.W n := by unfold P.W; rw [← hn]
      have h := word_ref hp bs n (ho.1 n hn)
      rw [← this] at h
      exact h
    | num n =>
      refine go _ ?_
      have : p = p.N p.str n := by unfold P.N; rw [← hn]
      have h := number_ref hp p.str n bs _ (numScan_ok hp p.str n (ho.2 n hn) bs)
      rw [← this] at h
      exact h

/-! ## The end of the text -/

/-- With `complete`, a number at the end is done. -/
def finish2 (x : P × Bytes) : P × Bytes := (finish x.1, x.2)

theorem finish_part {p : P} (h : ∀ n, p.part ≠ .num n) : finish p = p := by
  unfold finish
  cases hp : p.part with
  | num n => exact absurd hp (h n)
  | no => rfl
  | str n => rfl
  | prim n => rfl

theorem number_complete {p : P} (hp : p.st.over = false) (s : Bytes) (n : Nat) (bs : Bytes) :
    (p.number true s n bs = p.number false s n bs ∧ (p.number false s n bs).1.part = .no) ∨
    ((p.number false s n bs).2 = [] ∧ p.number true s n bs = finish2 (p.number false s n bs)) := by
  unfold P.number
  dsimp only
  by_cases h : (numScan n bs).2.2 ≠ []
  · left
    rw [if_pos (Or.inl h), if_pos (Or.inl h)]
    exact ⟨rfl, endNumber_part _ _ _⟩
  · right
    rw [if_pos (Or.inr rfl), if_neg (by simpa using h)]
    refine ⟨rfl, ?_⟩
    have h' : (numScan n bs).2.2 = [] := by simpa using h
    unfold finish2 finish
    dsimp only
    rw [if_neg (by simp [hp]), h']
    have := endNumber_N p (s ++ (numScan n bs).1) (s ++ (numScan n bs).1) (numScan n bs).2.1 (numScan n bs).2.1
    rw [show ({ p with part := .num (numScan n bs).2.1, str := s ++ (numScan n bs).1 } : P) =
      p.N (s ++ (numScan n bs).1) (numScan n bs).2.1 from rfl, this]

theorem afterString_part {p : P} (x : SR) :
    ((p.afterString x).2 ≠ [] → (p.afterString x).1.part = .no) ∧ ∀ n, (p.afterString x).1.part ≠ .num n := by
  cases x with
  | more s n => exact ⟨fun h => absurd rfl h, fun m h => by cases h⟩
  | done s r =>
    have : (p.afterString (.done s r)).1.part = .no := by
      dsimp only [P.afterString]; split
      · exact key_part _ _
      · exact value_part _ _
    exact ⟨fun _ => this, fun m h => by rw [this] at h; cases h⟩
  | err => exact ⟨fun _ => rfl, fun m h => by cases h⟩
  | ub => exact ⟨fun _ => rfl, fun m h => by cases h⟩

theorem afterPrimitive_part (p : P) (x : VR) :
    ((p.afterPrimitive x).2 ≠ [] → (p.afterPrimitive x).1.part = .no) ∧ ∀ n, (p.afterPrimitive x).1.part ≠ .num n := by
  cases x with
  | more n => exact ⟨fun h => absurd rfl h, fun m h => by cases h⟩
  | done j r =>
    have : (p.afterPrimitive (.done j r)).1.part = .no := value_part _ _
    exact ⟨fun _ => this, fun m h => by rw [this] at h; cases h⟩
  | err => exact ⟨fun _ => rfl, fun m h => by cases h⟩
  | ub => exact ⟨fun _ => rfl, fun m h => by cases h⟩

theorem round_complete {p : P} (hp : p.st.over = false) (hn : p.part = .no) (b : Nat) (r : Bytes) :
    (p.round true b r = p.round false b r ∧ ((p.round false b r).2 ≠ [] → (p.round false b r).1.part = .no) ∧
      ∀ n, (p.round false b r).1.part ≠ .num n) ∨
    ((p.round false b r).2 = [] ∧ p.round true b r = finish2 (p.round false b r)) := by
  have key : ∀ x : P × Bytes, x.1.part = .no → (x.2 ≠ [] → x.1.part = .no) ∧ ∀ n, x.1.part ≠ .num n :=
    fun x h => ⟨fun _ => h, fun n h' => by rw [h] at h'; cases h'⟩
  rcases round_shape hp hn b with ⟨q, h1, h⟩ | h | ⟨q, h1, h2, h⟩ | h | ⟨hb, h⟩
  · rw [h, h]; exact Or.inl ⟨rfl, key _ h1⟩
  · rw [h, h]; exact Or.inl ⟨rfl, key _ rfl⟩
  · rw [h, h]; exact Or.inl ⟨rfl, afterString_part _⟩
  · rw [h, h]; exact Or.inl ⟨rfl, afterPrimitive_part _ _⟩
  · rw [h, h]
    rcases number_complete hp [] 0 (b :: r) with ⟨h1, h2⟩ | h
    · exact Or.inl ⟨h1, key _ h2⟩
    · exact Or.inr h

theorem loop_nil (c : Bool) (fuel : Nat) (p : P) : loop c fuel (p, []) = (p, []) := by cases fuel <;> rfl

theorem loop_complete : ∀ (fuel : Nat) (p : P) (bs : Bytes), (bs ≠ [] → p.part = .no) → (∀ n, p.part ≠ .num n) →
    loop true fuel (p, bs) = finish2 (loop false fuel (p, bs)) := by
  intro fuel
  induction fuel with
  | zero =>
    intro p bs _ h
    cases bs with
    | nil => simp only [loop_nil, finish2, finish_part h]
    | cons b r => simp only [loop, finish2, finish_part h]
  | succ fuel ih =>
    intro p bs hn h
    cases bs with
    | nil => simp only [loop_nil, finish2, finish_part h]
    | cons b r =>
      by_cases hp : p.st.over = true
      · rw [loop_over hp, loop_over hp]; simp only [finish2, finish_part h]
      · rw [loop, loop, if_neg hp, if_neg hp]
        simp only [Bool.not_eq_true] at hp
        rcases round_complete hp (hn (by simp)) b r with ⟨h1, h2, h3⟩ | ⟨h1, h2⟩
        · rw [h1]; exact ih _ _ h2 h3
        · rw [h2]
          have e : p.round false b r = ((p.round false b r).1, []) := Prod.ext rfl h1
          rw [e, loop_nil]
          exact loop_nil _ _ _

/-- `complete` only says that a number at the end is done. -/
theorem consume_complete {p : P} (bs : Bytes) : p.consume bs true = finish2 (p.consume bs false) := by
  unfold P.consume
  by_cases hp : p.st.over = true
  · rw [if_pos hp, if_pos hp]
    unfold finish2 finish
    cases p.part with
    | num n => dsimp only; rw [if_pos hp]
    | no => rfl
    | str n => rfl
    | prim n => rfl
  · rw [if_neg hp, if_neg hp]
    simp only [Bool.not_eq_true] at hp
    cases hn : p.part with
    | no => exact loop_complete _ p bs (fun _ => hn) fun n h => by rw [hn] at h; cases h
    | str n =>
      have := afterString_part (p := p) (consumeString p.str n bs)
      exact loop_complete _ _ _ this.1 this.2
    | prim n =>
      have := afterPrimitive_part p (primitive n bs)
      exact loop_complete _ _ _ this.1 this.2
    | num n =>
      dsimp only
      rcases number_complete hp p.str n bs with ⟨h1, h2⟩ | ⟨h1, h2⟩
      · rw [h1]; exact loop_complete _ _ _ (fun _ => h2) fun m h => Part.noConfusion (h2.symm.trans h)
      · rw [h2]
        have e : p.number false p.str n bs = ((p.number false p.str n bs).1, []) := Prod.ext rfl h1
        rw [e, loop_nil]
        exact loop_nil _ _ _

end Verif.Json
