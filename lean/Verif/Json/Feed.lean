import Verif.Json.Model

/-!
# The parser, byte by byte

A machine that takes one byte at a time, and that `P.consume` follows however the text is cut into chunks.
-/
namespace Verif.Json

/-- What a byte does to a string. -/
inductive FR where
  | more (s : Bytes) (n : Nat)
  | done (s : Bytes)
  | err

def strStep (sa : Bytes) : Nat → Nat → FR
  | 0, b =>
    if 32 ≤ b ∧ b < 128 ∧ b ≠ 92 ∧ b ≠ 34 then .more (sa ++ [b]) 0
    else if b = 34 then .done sa
    else if b = 92 ∨ (0xC2 ≤ b ∧ b < 0xF5) then .more (sa ++ [b]) 1
    else .err
  | n + 1, b =>
    match partStep sa (n + 1) b with
    | some (s, n') => .more s n'
    | none => .err

/-- What a byte does to a number; `none` if it is not part of it. -/
def numStep (pos b : Nat) : Option Nat :=
  if isDigit b then
    if pos = 1 then some 1
    else if pos = 2 then some (if b = 48 then 3 else 1)
    else if pos = 4 ∨ pos = 5 then some 5
    else if pos = 6 ∨ pos = 8 ∨ pos = 9 then some 9
    else none
  else if b = 46 then (if pos = 1 ∨ pos = 2 ∨ pos = 3 then some 4 else none)
  else if b = 101 ∨ b = 69 then (if pos = 1 ∨ pos = 2 ∨ pos = 3 ∨ pos = 5 then some 6 else none)
  else if b = 43 ∨ b = 45 then (if pos = 6 then some 8 else none)
  else none

/-- One byte, and whether it was used. -/
def feed (p : P) (b : Nat) : P × Bool :=
  match p.part with
  | .no => ((p.round false b []).1, true)
  | .str n =>
    match strStep p.str n b with
    | .more s n => ({ p with part := .str n, str := s }, true)
    | .done s => (if p.st = .objColon then p.key s else p.value (.str s), true)
    | .err => (p.fail, true)
  | .prim n =>
    if words.getD n 0 = b then
      if words.getD (n + 1) 0 = 0 then (p.value (wordValue (n + 1)), true)
      else ({ p with part := .prim (n + 1) }, true)
    else (p.fail, true)
  | .num pos =>
    match numStep pos b with
    | some pos => ({ p with part := .num pos, str := p.str ++ [b] }, true)
    | none =>
      let q := p.endNumber p.str pos
      if q.st.over then (q, false) else ((q.round false b []).1, true)

def feedAll (p : P) : Bytes → P × Bytes
  | [] => (p, [])
  | b :: r => if p.st.over then (p, b :: r) else
    match feed p b with
    | (q, true) => feedAll q r
    | (q, false) => (q, b :: r)

/-- The end of the text: a number is done. -/
def finish (p : P) : P :=
  match p.part with
  | .num pos => if p.st.over then p else p.endNumber p.str pos
  | _ => p

/-- Nothing makes a success of it. -/
def Bad (p : P) : Prop := ∀ bs, (feedAll p bs).1.st ≠ .final

theorem feedAll_over {p : P} (h : p.st.over = true) (bs : Bytes) : feedAll p bs = (p, bs) := by
  cases bs with
  | nil => rfl
  | cons b r => simp [feedAll, h]

theorem feed_false {p q : P} {b : Nat} (h : feed p b = (q, false)) : q.st.over = true := by
  unfold feed at h
  cases hp : p.part with
  | no => simp [hp] at h
  | str n => simp only [hp] at h; split at h <;> simp at h
  | prim n => simp only [hp] at h; split at h <;> (try split at h) <;> simp at h
  | num pos =>
    simp only [hp] at h
    split at h
    · simp at h
    · by_cases ho : (p.endNumber p.str pos).st.over = true
      · rw [if_pos ho] at h; rw [← (Prod.mk.inj h).1]; exact ho
      · rw [if_neg ho] at h; simp at h

theorem feedAll_append (p : P) (a b : Bytes) : feedAll p (a ++ b) =
    (if (feedAll p a).1.st.over = true then ((feedAll p a).1, (feedAll p a).2 ++ b) else feedAll (feedAll p a).1 b) := by
  induction a generalizing p with
  | nil =>
    by_cases h : p.st.over = true
    · rw [List.nil_append, feedAll_over h]; simp [feedAll, h]
    · simp [feedAll, h]
  | cons x r ih =>
    by_cases h : p.st.over = true
    · rw [feedAll_over h, feedAll_over h]; simp [h]
    · cases hq : feed p x with
      | mk q u =>
        cases u with
        | true => simp only [List.cons_append, feedAll, hq, h, Bool.false_eq_true, if_false]; exact ih q
        | false => have := feed_false hq; simp [feedAll, hq, h, this]

/-- If the machine is not over, it has used all. -/
theorem feedAll_rest (p : P) (a : Bytes) : (feedAll p a).1.st.over = true ∨ (feedAll p a).2 = [] := by
  induction a generalizing p with
  | nil => exact Or.inr rfl
  | cons x r ih =>
    by_cases h : p.st.over = true
    · left; rw [feedAll_over h]; exact h
    · cases hq : feed p x with
      | mk q u =>
        cases u with
        | true => simp only [feedAll, hq, h, Bool.false_eq_true, if_false]; exact ih q
        | false => left; simp only [feedAll, hq, h, Bool.false_eq_true, if_false]; exact feed_false hq

theorem Bad.feedAll {p : P} (h : Bad p) (a : Bytes) : Bad (feedAll p a).1 := by
  intro b
  by_cases ho : (Json.feedAll p a).1.st.over = true
  · rw [feedAll_over ho]; exact h a
  · have := h (a ++ b)
    rw [feedAll_append, if_neg ho] at this
    exact this

theorem bad_over {p : P} (h : p.st.over = true) (h' : p.st ≠ .final) : Bad p := by
  intro bs; rw [feedAll_over h]; exact h'

theorem bad_fail (p : P) : Bad p.fail := bad_over rfl (by simp [P.fail])

theorem bad_undef (p : P) : Bad p.undef := bad_over rfl (by simp [P.undef])

/-- Bad if every next byte leads to something bad. -/
theorem bad_step {p : P} (h0 : p.st ≠ .final) (h : ∀ b, Bad (feed p b).1) : Bad p := by
  intro bs
  cases bs with
  | nil => exact h0
  | cons b r =>
    by_cases ho : p.st.over = true
    · rw [feedAll_over ho]; exact h0
    · have hb := h b
      cases hq : feed p b with
      | mk q u =>
        rw [hq] at hb
        cases u with
        | true => simp only [Json.feedAll, hq, ho, Bool.false_eq_true, if_false]; exact hb r
        | false => simp only [Json.feedAll, hq, ho, Bool.false_eq_true, if_false]; exact hb []

end Verif.Json
