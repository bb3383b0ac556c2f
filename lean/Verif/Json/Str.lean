import Verif.Json.Round

/-!
# Texts that are one string
-/
namespace Verif.Json

/-- The outcome of a parse of a text that begins with a quote. -/
theorem parse_quote (x : Bytes) : parse (34 :: x) = match consumeString [] 0 x with
    | .done s r => (match dropWs r with
      | [] => .ok (.str s)
      | _ => .fail)
    | .ub => .ub
    | _ => .fail := by
  have e : P.consume {} (34 :: x) true = P.afterString {} (consumeString [] 0 x) := by
    have e1 : P.consume {} (34 :: x) true = loop true x.length (P.afterString {} (consumeString [] 0 x)) := rfl
    rw [e1]
    cases consumeString [] 0 x with
    | more s n => exact loop_nil _ _ _
    | done s r => exact loop_over rfl _
    | err => exact loop_nil _ _ _
    | ub => exact loop_nil _ _ _
  unfold parse
  rw [e]
  cases consumeString [] 0 x with
  | more s n => rfl
  | done s r =>
    dsimp only [P.afterString]
    rw [if_neg (by decide)]
    rw [show P.value {} (.str s) = { st := .final, res := .str s } from rfl]
    dsimp only
    cases dropWs r <;> rfl
  | err => rfl
  | ub => rfl

theorem parse_string {x s : Bytes} (h : consumeString [] 0 x = .done s []) : parse (34 :: x) = .ok (.str s) := by
  rw [parse_quote, h]
  rfl

/-- A hexadecimal digit. -/
def hexDigit (upper : Bool) (d : Nat) : Nat :=
  ((if upper then ['0', '1', '2', '3', '4', '5', '6', '7', '8', '9', 'A', 'B', 'C', 'D', 'E', 'F']
    else ['0', '1', '2', '3', '4', '5', '6', '7', '8', '9', 'a', 'b', 'c', 'd', 'e', 'f']).getD d ' ').toNat

/-- Four digits, each with its case. -/
def hex4 (v : Nat) (u1 u2 u3 u4 : Bool) : Bytes :=
  [hexDigit u1 (v / 4096 % 16), hexDigit u2 (v / 256 % 16), hexDigit u3 (v / 16 % 16), hexDigit u4 (v % 16)]

theorem hex_hexDigit (u : Bool) {d : Nat} (h : d < 16) : hex (hexDigit u d) = some d := by
  revert d; cases u <;> decide

theorem hexUp_hexDigit {d : Nat} (h : d < 16) : hexUp (hexDigit true d) = some d := by
  revert d; decide

theorem hexs_hex4 {v : Nat} (hv : v < 65536) (u1 u2 u3 u4 : Bool) (r : Bytes) : hexs hex 4 0 (hex4 v u1 u2 u3 u4 ++ r) = .ok v r := by
  unfold hex4
  simp only [List.cons_append, List.nil_append, hexs, hex_hexDigit _ (show v / 4096 % 16 < 16 by omega),
    hex_hexDigit _ (show v / 256 % 16 < 16 by omega), hex_hexDigit _ (show v / 16 % 16 < 16 by omega),
    hex_hexDigit _ (show v % 16 < 16 by omega)]
  congr 1
  omega

theorem hexsUp_hex4 {v : Nat} (hv : v < 65536) (r : Bytes) : hexs hexUp 4 0 (hex4 v true true true true ++ r) = .ok v r := by
  unfold hex4
  simp only [List.cons_append, List.nil_append, hexs, hexUp_hexDigit (show v / 4096 % 16 < 16 by omega),
    hexUp_hexDigit (show v / 256 % 16 < 16 by omega), hexUp_hexDigit (show v / 16 % 16 < 16 by omega),
    hexUp_hexDigit (show v % 16 < 16 by omega)]
  congr 1
  omega

/-- What the parser makes of `\u` and a character right. -/
def EscapeOk (c : Char) : Prop := c.toNat ≠ 0 ∧ ¬ (0x800 ≤ c.toNat ∧ c.toNat < 0x8000) ∧ c.toNat ≠ 0xFFFE ∧ c.toNat ≠ 0xFFFF

/-- The ways to write a character in a string, RFC 8259, section 7, as far as the parser gets them right. -/
inductive Spelled : Char → Bytes → Prop where
  /-- As it is. -/
  | raw (c : Char) (h : 32 ≤ c.toNat ∧ c ≠ '"' ∧ c ≠ '\\') : Spelled c (chr c)
  /-- A backslash and a letter. -/
  | short (c d : Char) (h : (d, c) ∈ [('"', '"'), ('\\', '\\'), ('/', '/'), ('b', '\x08'), ('f', '\x0c'), ('n', '\n'), ('r', '\r'), ('t', '\t')]) :
      Spelled c (92 :: chr d)
  /-- `\u` and four digits. -/
  | unicode (c : Char) (hc : c.toNat < 0x10000) (h : EscapeOk c) (u1 u2 u3 u4 : Bool) : Spelled c (92 :: 117 :: hex4 c.toNat u1 u2 u3 u4)
  /-- Twice `\u`, for the halves of a surrogate pair; the digits of the second half are capital letters. -/
  | pair (c : Char) (hc : 0x10000 ≤ c.toNat) (u1 u2 u3 u4 : Bool) :
      Spelled c (92 :: 117 :: (hex4 (0xD800 + (c.toNat - 0x10000) / 0x400) u1 u2 u3 u4 ++
        92 :: 117 :: hex4 (0xDC00 + (c.toNat - 0x10000) % 0x400) true true true true))

theorem fin_char {c : Char} (h : EscapeOk c) (r : Bytes) : fin c.toNat r = .ok (chr c) r := by
  unfold fin; rw [(append_iff c).2 h]

theorem spelled_ne {c : Char} {w : Bytes} (h : Spelled c w) : 1 ≤ w.length := by
  cases h <;> first | exact chr_ne _ | simp

theorem plain_spelled {c : Char} {w : Bytes} (h : Spelled c w) (fuel : Nat) (sa r : Bytes) :
    plain (fuel + 1) sa (w ++ r) = plain fuel (sa ++ chr c) r := by
  have bs : ∀ l : Bytes, backslash (l ++ r) = .ok (chr c) r → plain (fuel + 1) sa (92 :: l ++ r) = plain fuel (sa ++ chr c) r := by
    intro l hl
    show plain (fuel + 1) sa (92 :: (l ++ r)) = _
    rw [plain_backslash, hl]
  cases h with
  | raw h =>
    refine plain_chr h.1 (fun e => h.2.2 ?_) (fun e => h.2.1 ?_) _ _ _
    · exact Char.toNat_inj.1 (by rw [e]; rfl)
    · exact Char.toNat_inj.1 (by rw [e]; rfl)
  | short d h =>
    refine bs _ ?_
    simp only [List.mem_cons, Prod.mk.injEq, List.not_mem_nil, or_false] at h
    rcases h with ⟨rfl, rfl⟩ | ⟨rfl, rfl⟩ | ⟨rfl, rfl⟩ | ⟨rfl, rfl⟩ | ⟨rfl, rfl⟩ | ⟨rfl, rfl⟩ | ⟨rfl, rfl⟩ | ⟨rfl, rfl⟩ <;> rfl
  | unicode hc h u1 u2 u3 u4 =>
    refine bs _ ?_
    have hr := char_range c
    rw [← fin_char h r]
    exact backslash_hex (by omega) (by omega) _ r (hexs_hex4 hc u1 u2 u3 u4 r)
  | pair hc u1 u2 u3 u4 =>
    refine bs _ ?_
    have hr := char_range c
    have h : EscapeOk c := ⟨by omega, by omega, by omega, by omega⟩
    rw [← fin_char h r]
    have := backslash_pair (u := 0xD800 + (c.toNat - 0x10000) / 0x400) (w := 0xDC00 + (c.toNat - 0x10000) % 0x400) (by omega) (by omega)
      (hex4 (0xD800 + (c.toNat - 0x10000) / 0x400) u1 u2 u3 u4) (hex4 (0xDC00 + (c.toNat - 0x10000) % 0x400) true true true true) r
      (hexs_hex4 (by omega) _ _ _ _ _) (hexsUp_hex4 (by omega) _)
    simp only [List.cons_append, List.append_assoc]
    rw [this]
    refine congrArg (fin · r) ?_
    omega

/-- However the characters are written. -/
theorem plain_spelling : ∀ (xs : List (Char × Bytes)), (∀ x ∈ xs, Spelled x.1 x.2) → ∀ (fuel : Nat) (sa r : Bytes),
    (xs.flatMap Prod.snd).length < fuel → plain fuel sa (xs.flatMap Prod.snd ++ 34 :: r) = .done (sa ++ utf8 (xs.map Prod.fst)) r := by
  intro xs
  induction xs with
  | nil =>
    intro _ fuel sa r hf
    cases fuel with
    | zero => simp at hf
    | succ fuel =>
      simp only [List.flatMap_nil, List.nil_append, List.map_nil]
      rw [show utf8 [] = [] from rfl, List.append_nil]
      exact plain_quote _ _ _
  | cons x xs ih =>
    intro h fuel sa r hf
    cases fuel with
    | zero => simp at hf
    | succ fuel =>
      have hx := h x (by simp)
      have hl := spelled_ne hx
      simp only [List.flatMap_cons, List.length_append] at hf
      simp only [List.flatMap_cons, List.map_cons]
      rw [utf8_cons, List.append_assoc, plain_spelled hx, ih (fun x hx => h x (by simp [hx])) fuel _ r (by omega), List.append_assoc]

theorem parse_spelling {xs : List (Char × Bytes)} (h : ∀ x ∈ xs, Spelled x.1 x.2) :
    parse (34 :: (xs.flatMap Prod.snd ++ [34])) = .ok (.str (utf8 (xs.map Prod.fst))) := by
  refine parse_string ?_
  rw [consumeString, plain_spelling xs h _ [] [] (by simp), List.nil_append]

theorem parse_raw {t : Bytes} (h1 : 34 ∉ t) (h2 : 92 ∉ t) : (∃ j, parse (34 :: (t ++ [34])) = .ok j) ↔
    ∃ cs : List Char, t = utf8 cs ∧ ∀ c ∈ cs, 32 ≤ c.toNat := by
  constructor
  · rintro ⟨j, h⟩
    rw [parse_quote] at h
    cases hc : consumeString [] 0 (t ++ [34]) with
    | done s r =>
      rw [consumeString] at hc
      obtain ⟨cs, h3, h4, _⟩ := plain_inv _ [] t s r h1 h2 hc
      exact ⟨cs, h3, fun c hc => (h4 c hc).1⟩
    | more s n => rw [hc] at h; cases h
    | err => rw [hc] at h; cases h
    | ub => rw [hc] at h; cases h
  · rintro ⟨cs, rfl, h⟩
    refine ⟨.str (utf8 cs), parse_string ?_⟩
    rw [consumeString, plain_utf8 cs (fun c hc => ⟨h c hc, ?_, ?_⟩) _ [] [] (by simp), List.nil_append]
    · intro e
      refine h2 (List.mem_flatMap.2 ⟨c, hc, ?_⟩)
      rcases chr_eq c with ⟨_, e'⟩ | ⟨_, _, _⟩ | ⟨_, _, _⟩ | ⟨_, _⟩
      · rw [e', e]; simp
      all_goals omega
    · intro e
      refine h1 (List.mem_flatMap.2 ⟨c, hc, ?_⟩)
      rcases chr_eq c with ⟨_, e'⟩ | ⟨_, _, _⟩ | ⟨_, _, _⟩ | ⟨_, _⟩
      · rw [e', e]; simp
      all_goals omega

theorem parse_raw_value {t : Bytes} (h1 : 34 ∉ t) (h2 : 92 ∉ t) {j : J} (h : parse (34 :: (t ++ [34])) = .ok j) : j = .str t := by
  obtain ⟨cs, e, h3⟩ := (parse_raw h1 h2).1 ⟨j, h⟩
  rw [parse_quote] at h
  cases hc : consumeString [] 0 (t ++ [34]) with
  | done s r =>
    rw [hc] at h
    rw [consumeString] at hc
    obtain ⟨_, _, _, h4, rfl⟩ := plain_inv _ [] t s r h1 h2 hc
    rw [List.nil_append] at h4
    subst h4
    cases h
    rfl
  | more s n => rw [hc] at h; cases h
  | err => rw [hc] at h; cases h
  | ub => rw [hc] at h; cases h

/-- One escape. -/
theorem parse_escape {c : Char} (hc : c.toNat < 0x10000) (u1 u2 u3 u4 : Bool) :
    parse (34 :: 92 :: 117 :: (hex4 c.toNat u1 u2 u3 u4 ++ [34])) = .ok (.str (chr c)) ↔ EscapeOk c := by
  constructor
  · intro h
    have hr := char_range c
    have hb : backslash (117 :: (hex4 c.toNat u1 u2 u3 u4 ++ [34])) = fin c.toNat [34] :=
      backslash_hex (by omega) (by omega) _ _ (hexs_hex4 hc u1 u2 u3 u4 _)
    rw [parse_quote] at h
    have hcs : consumeString [] 0 (92 :: 117 :: (hex4 c.toNat u1 u2 u3 u4 ++ [34])) =
        match appendUtf8 c.toNat with | some u => .done u [] | none => .err := by
      rw [consumeString, List.length_cons, plain_backslash, hb]
      unfold fin
      cases appendUtf8 c.toNat with
      | none => rfl
      | some u => exact plain_quote _ _ _
    rw [hcs] at h
    refine (append_iff c).1 ?_
    cases ha : appendUtf8 c.toNat with
    | none => rw [ha] at h; cases h
    | some u => rw [ha] at h; cases h; rfl
  · intro h
    have := parse_spelling (xs := [(c, 92 :: 117 :: hex4 c.toNat u1 u2 u3 u4)]) (by
      intro x hx; simp only [List.mem_cons, List.not_mem_nil, or_false] at hx; subst hx; exact .unicode c hc h u1 u2 u3 u4)
    simpa [utf8] using this

end Verif.Json
