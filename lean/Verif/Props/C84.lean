import Verif.Message.Model

/-!
# C84: Messages about options: what is built, and when a byte is written outside
-/
namespace Verif.Props.C84
open Verif.Message

/-- The buffer has 256 bytes or was doubled some times; what is written lies inside. -/
def Good (b : B) : Prop := (∃ j, b.cap = 256 * 2 ^ j) ∧ b.data.length ≤ b.cap

theorem double_ge (want : Nat) : ∀ k n, 0 < n → want ≤ n + k → want ≤ double want k n
  | 0, n, _, h => by simpa [double] using h
  | k + 1, n, h0, h => by
    unfold double
    split
    · exact double_ge want k (n * 2) (by omega) (by omega)
    · omega

theorem double_pow (want : Nat) : ∀ k n, ∃ j, double want k n = n * 2 ^ j
  | 0, n => ⟨0, by simp [double]⟩
  | k + 1, n => by
    unfold double
    split
    · obtain ⟨j, hj⟩ := double_pow want k (n * 2)
      exact ⟨j + 1, by rw [hj, Nat.pow_succ, Nat.mul_assoc, Nat.mul_comm 2]⟩
    · exact ⟨0, by simp⟩

theorem good_init : Good B.init := ⟨⟨0, rfl⟩, Nat.zero_le _⟩

theorem good_pos {b : B} (h : Good b) : 256 ≤ b.cap := by
  obtain ⟨⟨j, hj⟩, _⟩ := h
  have := Nat.one_le_two_pow (n := j)
  omega

theorem ensure_good {b : B} (h : Good b) (n : Nat) :
    Good (b.ensure n) ∧ (b.ensure n).data = b.data ∧ b.data.length + n ≤ (b.ensure n).cap := by
  have hp := good_pos h
  obtain ⟨⟨j, hj⟩, hl⟩ := h
  unfold B.ensure
  split
  · exact ⟨⟨⟨j, hj⟩, hl⟩, rfl, by omega⟩
  · have h1 := double_ge (b.data.length + n) (b.data.length + n) (b.cap * 2) (by omega) (by omega)
    obtain ⟨i, hi⟩ := double_pow (b.data.length + n) (b.data.length + n) (b.cap * 2)
    refine ⟨⟨⟨j + 1 + i, ?_⟩, ?_⟩, rfl, h1⟩
    · show double _ _ _ = _
      rw [hi, hj, Nat.pow_add, Nat.pow_succ, Nat.mul_assoc, Nat.mul_assoc, Nat.mul_assoc]
    · show b.data.length ≤ double _ _ _
      omega

theorem store_good {b : B} (h : Good b) (n : Nat) (s : Bytes) (e : Nat) (hs : s.length + e ≤ n) :
    ∃ b', (b.ensure n).store s e = .ok b' ∧ b'.data = b.data ++ s ∧ Good b' := by
  obtain ⟨⟨hc, _⟩, hd, hr⟩ := ensure_good h n
  refine ⟨_, if_pos (by rw [hd]; omega), by show _ ++ _ = _; rw [hd], hc, ?_⟩
  show ((b.ensure n).data ++ s).length ≤ (b.ensure n).cap
  rw [hd, List.length_append]
  omega

/-- Appending never writes outside, whatever the length, and keeps what is there. -/
theorem append_ok {b : B} (h : Good b) (s : Bytes) : ∃ b', b.append s = .ok b' ∧ b'.data = b.data ++ s ∧ Good b' :=
  store_good h _ s 0 (Nat.le_refl _)

theorem charText_length (c : Nat) : (charText c).length ≤ 4 := by
  unfold charText
  repeat' split
  all_goals simp

/-- Every character is shown with printable characters only. -/
theorem char_printable (c : Nat) : ∀ x ∈ charText c, 32 ≤ x ∧ x ≤ 126 := by
  by_cases h : c < 256
  · exact (by decide +kernel : ∀ c < 256, ∀ x ∈ charText c, 32 ≤ x ∧ x ≤ 126) c h
  · unfold charText
    rw [if_neg (by omega), if_neg (by omega), if_neg (by omega)]
    decide

/-- Reads a character that is shown. -/
def unshow : Bytes → Nat
  | [x] => x.toNat
  | [_, x] => x.toNat - 64
  | [_, x, y, z] => 64 * (x.toNat - 48) + 8 * (y.toNat - 48) + (z.toNat - 48)
  | _ => 0

/-- What is shown tells the byte. -/
theorem char_injective {c d : Nat} (hc : c < 256) (hd : d < 256) (h : charText c = charText d) : c = d := by
  have key : ∀ c < 256, unshow (charText c) = c := by decide +kernel
  rw [← key c hc, ← key d hd, h]

/-- A byte in octal: a backslash and three digits with its value. -/
theorem char_octal {c : Nat} (h1 : 127 ≤ c) (h2 : c ≤ 255) : ∃ x y z : Nat, x < 8 ∧ y < 8 ∧ z < 8 ∧
    64 * x + 8 * y + z = c ∧ charText c = [92, UInt8.ofNat (48 + x), UInt8.ofNat (48 + y), UInt8.ofNat (48 + z)] := by
  refine ⟨c / 64, c / 8 % 8, c % 8, by omega, by omega, by omega, by omega, ?_⟩
  unfold charText
  rw [if_neg (by omega), if_neg (by omega), if_pos h2]

theorem char_ok {b : B} (h : Good b) {c : Nat} (hc : c < 127 ∨ 255 < c) :
    ∃ b', b.char c = .ok b' ∧ b'.data = b.data ++ charText c ∧ Good b' := by
  unfold B.char
  rw [if_neg (by omega)]
  exact store_good h 4 _ 0 (charText_length c)

/-- A character that is shown in octal is written outside the buffer exactly if four bytes are left: `sprintf` needs five. -/
theorem char_ub_iff {b : B} (h : Good b) (c : Nat) :
    b.char c = .ub ↔ (127 ≤ c ∧ c ≤ 255) ∧ b.data.length + 4 = b.cap := by
  by_cases hc : 127 ≤ c ∧ c ≤ 255
  · have hl : (charText c).length = 4 := by
      unfold charText
      rw [if_neg (by omega), if_neg (by omega), if_pos hc.2]
      rfl
    have hp := good_pos h
    have hle := h.2
    obtain ⟨_, hd, hr⟩ := ensure_good h 4
    unfold B.char B.store
    rw [if_pos hc, hd, hl]
    by_cases hs : b.cap - b.data.length ≥ 4
    · have he : b.ensure 4 = b := if_pos hs
      rw [he]
      by_cases hx : b.data.length + 4 + 1 ≤ b.cap
      · rw [if_pos hx]
        exact ⟨fun e => by (cases e), fun e => by omega⟩
      · rw [if_neg hx]
        exact ⟨fun _ => ⟨hc, by omega⟩, fun _ => rfl⟩
    · have he : (b.ensure 4).cap = double (b.data.length + 4) (b.data.length + 4) (b.cap * 2) := by
        unfold B.ensure
        rw [if_neg hs]
      obtain ⟨i, hi⟩ := double_pow (b.data.length + 4) (b.data.length + 4) (b.cap * 2)
      have h2 : b.cap * 2 ≤ b.cap * 2 * 2 ^ i := Nat.le_mul_of_pos_right _ (Nat.two_pow_pos i)
      rw [if_pos (by omega)]
      exact ⟨fun e => by (cases e), fun e => by omega⟩
  · obtain ⟨b', h1, _⟩ := char_ok h (c := c) (by omega)
    rw [h1]
    exact ⟨fun e => by (cases e), fun e => absurd e.1 hc⟩

/-- What a format means: text stands for itself, conversions for their arguments. -/
inductive Means : Bytes → List Arg → Bytes → Prop
  | nil (as) : Means [] as []
  | lit {x r as o} : x ≠ 37 → Means r as o → Means (x :: r) as (x :: o)
  | str {r as o} (t) : Means r as o → Means (37 :: 115 :: r) (.s t :: as) (t ++ o)
  | chr {r as o} (c) : Means r as o → Means (37 :: 99 :: r) (.c c :: as) (charText c ++ o)
  | percent {r as o} : Means r as o → Means (37 :: 37 :: r) as (37 :: o)
  | quote {x r as o} : x ∈ [60, 44, 62] → Means r as o → Means (37 :: x :: r) as (39 :: o)
  | other {x r as o} : x ∉ [115, 99, 67, 100, 79, 86, 37, 60, 44, 62] → Means r as o →
      Means (37 :: x :: r) as (37 :: x :: o)

/-- No argument is shown in octal. -/
def Plain (as : List Arg) : Prop := ∀ c, .c c ∈ as → c < 127 ∨ 255 < c

theorem step {b : B} (h : Good b) (pre : Bytes) (y : UInt8) (r : Bytes) (as as' : List Arg) (t o : Bytes)
    (hi : ∀ b, Good b → ∃ b', b.item y as = .ok (b', as') ∧ b'.data = b.data ++ t ∧ Good b')
    (ih : ∀ b, Good b → ∃ b', b.format [] r as' = .ok b' ∧ b'.data = b.data ++ ([] ++ o) ∧ Good b') :
    ∃ b', b.format pre (37 :: y :: r) as = .ok b' ∧ b'.data = b.data ++ (pre ++ (t ++ o)) ∧ Good b' := by
  obtain ⟨b1, e1, d1, g1⟩ := append_ok h pre
  obtain ⟨b2, e2, d2, g2⟩ := hi b1 g1
  obtain ⟨b3, e3, d3, g3⟩ := ih b2 g2
  refine ⟨b3, ?_, by rw [d3, d2, d1]; simp, g3⟩
  rw [B.format, if_pos rfl, e1]
  show (b1.item y as).bind _ = _
  rw [e2]
  exact e3

/-- The message is what the format means, behind what was there, and no byte is written outside. -/
theorem format_means {fmt : Bytes} {as : List Arg} {o : Bytes} (hm : Means fmt as o) :
    Plain as → ∀ (b : B) (pre : Bytes), Good b →
      ∃ b', b.format pre fmt as = .ok b' ∧ b'.data = b.data ++ (pre ++ o) ∧ Good b' := by
  induction hm with
  | nil as =>
    intro _ b pre h
    rw [B.format]
    simpa using append_ok h pre
  | @lit x r as o hx hr ih =>
    intro hp b pre h
    cases r with
    | nil =>
      cases hr
      rw [B.format, if_neg hx]
      exact append_ok h _
    | cons y r =>
      rw [B.format, if_neg hx]
      simpa using ih hp b (pre ++ [x]) h
  | @str r as o t _ ih =>
    intro hp b pre h
    refine step h pre _ r _ as t o (fun b g => ?_) (fun b g => ih (fun c hc => hp c (.tail _ hc)) b [] g)
    obtain ⟨b', e, d, g'⟩ := append_ok g t
    exact ⟨b', by simp [B.item, e, Out.bind], d, g'⟩
  | @chr r as o c _ ih =>
    intro hp b pre h
    refine step h pre _ r _ as _ o (fun b g => ?_) (fun b g => ih (fun c hc => hp c (.tail _ hc)) b [] g)
    obtain ⟨b', e, d, g'⟩ := char_ok g (hp c (.head _))
    exact ⟨b', by simp [B.item, e, Out.bind], d, g'⟩
  | @percent r as o _ ih =>
    intro hp b pre h
    refine step h pre _ r _ as [37] o (fun b g => ?_) (fun b g => ih hp b [] g)
    obtain ⟨b', e, d, g'⟩ := store_good g 1 [37] 0 (Nat.le_refl _)
    exact ⟨b', by simp [B.item, e, Out.bind], d, g'⟩
  | @quote x r as o hx _ ih =>
    intro hp b pre h
    refine step h pre _ r _ as [39] o (fun b g => ?_) (fun b g => ih hp b [] g)
    obtain ⟨b', e, d, g'⟩ := append_ok g [39]
    refine ⟨b', ?_, d, g'⟩
    simp only [List.mem_cons, List.not_mem_nil, or_false] at hx
    rcases hx with rfl | rfl | rfl <;> simp [B.item, e, Out.bind]
  | @other x r as o hx _ ih =>
    intro hp b pre h
    refine step h pre _ r _ as [37, x] o (fun b g => ?_) (fun b g => ih hp b [] g)
    obtain ⟨b', e, d, g'⟩ := store_good g 2 [37, x] 0 (Nat.le_refl _)
    refine ⟨b', ?_, d, g'⟩
    simp only [List.mem_cons, List.not_mem_nil, or_false, not_or] at hx
    simp [B.item, hx, e, Out.bind]

/-- A format that ends with a single percent sign: what stands before it comes twice. -/
theorem trailing_twice (p : Bytes) (hp : 37 ∉ p) (as : List Arg) :
    ∀ (b : B) (pre : Bytes), Good b → ∃ b', b.format pre (p ++ [37]) as = .ok b' ∧
      b'.data = b.data ++ (pre ++ p ++ [37] ++ (pre ++ p ++ [37])) := by
  induction p with
  | nil =>
    intro b pre h
    obtain ⟨b1, e1, d1, g1⟩ := append_ok h pre
    obtain ⟨b2, e2, d2, g2⟩ := append_ok g1 [37]
    obtain ⟨b3, e3, d3, _⟩ := append_ok g2 (pre ++ [37])
    refine ⟨b3, ?_, by rw [d3, d2, d1]; simp⟩
    show b.format pre [37] as = _
    rw [B.format, if_pos rfl, e1]
    show (b1.append [37]).bind _ = _
    rw [e2]
    exact e3
  | cons x p ih =>
    intro b pre h
    have hx : x ≠ 37 := fun e => hp (e ▸ .head _)
    have := ih (fun hc => hp (.tail _ hc)) b (pre ++ [x]) h
    have e : b.format pre (x :: p ++ [37]) as = b.format (pre ++ [x]) (p ++ [37]) as := by
      cases p <;> (show B.format _ _ (_ :: _ :: _) _ = _; rw [B.format, if_neg hx]; rfl)
    rw [e]
    simpa using this

/-- The zero byte behind the message is written outside exactly if the message fills the buffer. -/
theorem text_ub_iff {b : B} (h : Good b) : b.text = .ub ↔ b.data.length = b.cap := by
  have := h.2
  unfold B.text
  split
  · exact ⟨fun e => by (cases e), fun e => by omega⟩
  · exact ⟨fun _ => by omega, fun _ => rfl⟩

/-- That needs a length of 256 or a double of it; any other message is returned whole. -/
theorem text_ok {b : B} (h : Good b) (hl : ∀ j, b.data.length ≠ 256 * 2 ^ j) : b.text = .ok b.data := by
  have h2 := h.2
  obtain ⟨j, hj⟩ := h.1
  exact if_pos (by have := hl j; omega)

/-- `Clp_OptionError` up to `do_error` (/repo/clp.c:2287-2291) of a parser without a program name: the format, a newline, and
the text. -/
def message (fmt : Bytes) (as : List Arg) : Out Bytes :=
  (B.init.format [] fmt as).bind fun b => (b.append [10]).bind B.text

/-- A message `%s` of 255 bytes makes the zero byte go outside the buffer: one byte behind the array on the stack. -/
theorem message_255 (t : Bytes) (ht : t.length = 255) : message [37, 115] [.s t] = .ub := by
  have e0 : B.init.append [] = .ok B.init := rfl
  have e1 : B.init.append t = .ok ⟨256, t⟩ := by
    unfold B.append B.ensure
    rw [if_pos (by show 256 - 0 ≥ _; omega)]
    exact if_pos (by show 0 + _ + 0 ≤ 256; omega)
  have e2 : (⟨256, t⟩ : B).append [10] = .ok ⟨256, t ++ [10]⟩ := by
    unfold B.append B.ensure
    rw [if_pos (by show 256 - t.length ≥ 1; omega)]
    exact if_pos (by show t.length + 1 + 0 ≤ 256; omega)
  have e3 : (⟨256, t⟩ : B).append [] = .ok ⟨256, t⟩ := by
    unfold B.append B.ensure
    rw [if_pos (by show 256 - t.length ≥ 0; omega)]
    unfold B.store
    rw [if_pos (by show t.length + 0 + 0 ≤ 256; omega)]
    simp
  have e4 : B.init.format [] [37, 115] [.s t] = .ok ⟨256, t⟩ := by
    rw [B.format, if_pos rfl, e0]
    show (B.init.item 115 [.s t]).bind _ = _
    have : B.init.item 115 [.s t] = .ok (⟨256, t⟩, []) := by simp [B.item, e1, Out.bind]
    rw [this]
    show B.format ⟨256, t⟩ [] [] [] = _
    rw [B.format]
    exact e3
  unfold message
  rw [e4]
  show ((⟨256, t⟩ : B).append [10]).bind _ = _
  rw [e2]
  exact if_neg (by show ¬ (t ++ [10]).length + 1 ≤ 256; simp [ht])

/-- Any other length is returned whole. -/
theorem message_ok {fmt : Bytes} {as : List Arg} {o : Bytes} (hm : Means fmt as o) (hp : Plain as)
    (hl : ∀ j, o.length + 1 ≠ 256 * 2 ^ j) : message fmt as = .ok (o ++ [10]) := by
  obtain ⟨b1, e1, d1, g1⟩ := format_means hm hp B.init [] good_init
  obtain ⟨b2, e2, d2, g2⟩ := append_ok g1 [10]
  have hd : b2.data = o ++ [10] := by rw [d2, d1]; simp [B.init]
  unfold message
  rw [e1]
  show (b1.append [10]).bind _ = _
  rw [e2, ← hd]
  exact text_ok g2 (fun j => by rw [hd]; simpa using hl j)

/-- `no %<%s%>, %c%%`. -/
example : Means [110, 111, 32, 37, 60, 37, 115, 37, 62, 37, 99, 37, 37] [.s [120, 121], .c 7]
    [110, 111, 32, 39, 120, 121, 39, 94, 71, 37] :=
  .lit (by decide) (.lit (by decide) (.lit (by decide) (.quote (by decide) (.str [120, 121]
    (.quote (by decide) (.chr 7 (.percent (.nil _))))))))

example : charText 200 = [92, 51, 49, 48] := by decide

/-- A buffer with exactly four bytes left. -/
example (t : Bytes) (ht : t.length = 252) : (⟨256, t⟩ : B).char 200 = .ub :=
  (char_ub_iff ⟨⟨0, rfl⟩, by show t.length ≤ 256; omega⟩ 200).2 ⟨by decide, by show t.length + 4 = 256; omega⟩

/-- `ab%` gives `ab%ab%`. -/
example : ∃ b', B.init.format [] [97, 98, 37] [] = .ok b' ∧ b'.data = [97, 98, 37, 97, 98, 37] :=
  trailing_twice [97, 98] (by decide) [] B.init [] good_init

end Verif.Props.C84
