import Verif.Json.Utf8

/-!
# Escapes
-/
namespace Verif.Json

/-- What `appendUtf8` gets right. -/
theorem append_iff (c : Char) : appendUtf8 c.toNat = some (chr c) ↔
    c.toNat ≠ 0 ∧ ¬ (0x800 ≤ c.toNat ∧ c.toNat < 0x8000) ∧ c.toNat ≠ 0xFFFE ∧ c.toNat ≠ 0xFFFF := by
  have hr := char_range c
  have hor : ∀ x, x < 32 → (192 ||| x) % 256 = 192 + x := by decide
  unfold appendUtf8
  rcases chr_eq c with ⟨h, e⟩ | ⟨h, h', e⟩ | ⟨h, h', e⟩ | ⟨h, e⟩
  · rw [e]
    by_cases h0 : c.toNat = 0
    · rw [if_pos h0]; simp [h0]
    · rw [if_neg h0, if_pos h]; simp; omega
  · rw [e, if_neg (by omega), if_neg (by omega), if_pos (by omega), hor _ (by omega)]
    simp; omega
  · rw [e, if_neg (by omega), if_neg (by omega)]
    by_cases h2 : c.toNat < 0x8000
    · rw [if_pos h2]; simp; omega
    · rw [if_neg h2, if_pos (by omega)]
      by_cases h3 : (0xD800 ≤ c.toNat ∧ c.toNat < 0xE000) ∨ 0xFFFD < c.toNat
      · rw [if_pos h3]; simp; omega
      · rw [if_neg h3]; simp; omega
  · rw [e, if_neg (by omega), if_neg (by omega), if_neg (by omega), if_neg (by omega), if_pos (by omega)]
    simp; omega

theorem hex_nibble {n : Nat} (h : n < 16) : hex (nibble n) = some n ∧ hexUp (nibble n) = some n := by
  revert n; decide

/-- The digits of a number below 65536. -/
theorem hexs_nibbles {f : Nat → Option Nat} (hf : ∀ n, n < 16 → f (nibble n) = some n) {v : Nat} (hv : v < 65536) (r : Bytes) :
    hexs f 4 0 (nibble (v / 4096) :: nibble (v / 256 % 16) :: nibble (v / 16 % 16) :: nibble (v % 16) :: r) = .ok v r := by
  simp only [hexs, hf _ (show v / 4096 < 16 by omega), hf _ (show v / 256 % 16 < 16 by omega), hf _ (show v / 16 % 16 < 16 by omega),
    hf _ (show v % 16 < 16 by omega)]
  congr 1
  omega

/-- `\u` and four digits. -/
theorem backslash_hex {v : Nat} (hv : v < 65536) (hs : ¬ (0xD800 ≤ v ∧ v < 0xE000)) (ds r : Bytes) (hd : hexs hex 4 0 (ds ++ r) = .ok v r) :
    backslash (117 :: (ds ++ r)) = fin v r := by
  unfold backslash
  dsimp only
  rw [if_neg (by omega), if_neg (by omega), if_neg (by omega), if_neg (by omega), if_neg (by omega), if_neg (by omega), if_pos rfl, hd]
  dsimp only
  rw [if_neg hs]

/-- Two halves. -/
theorem backslash_pair {u w : Nat} (hu : 0xD800 ≤ u ∧ u < 0xDC00) (hw : 0xDC00 ≤ w ∧ w < 0xE000) (ds es r : Bytes)
    (hd : hexs hex 4 0 (ds ++ 92 :: 117 :: (es ++ r)) = .ok u (92 :: 117 :: (es ++ r))) (he : hexs hexUp 4 0 (es ++ r) = .ok w r) :
    backslash (117 :: (ds ++ 92 :: 117 :: (es ++ r))) = fin (0x10000 + (u - 0xD800) * 0x400 + (w - 0xDC00)) r := by
  unfold backslash
  dsimp only
  rw [if_neg (by omega), if_neg (by omega), if_neg (by omega), if_neg (by omega), if_neg (by omega), if_neg (by omega), if_pos rfl, hd]
  dsimp only
  rw [if_pos (by omega), if_neg (by omega), if_neg (by simp), if_neg (by simp), he]
  dsimp only
  rw [if_pos hw]

theorem plain_backslash (fuel : Nat) (sa r : Bytes) : plain (fuel + 1) sa (92 :: r) = match backslash r with
    | .part => .more (sa ++ 92 :: r) (r.length + 1)
    | .err => .err
    | .ok u r => plain fuel (sa ++ u) r := by
  show (if 32 ≤ 92 ∧ 92 < 128 ∧ 92 ≠ 92 ∧ 92 ≠ 34 then _ else _) = _
  rw [if_neg (by omega), if_pos rfl]
  rfl

/-- A byte as it is printed. -/
theorem plain_esc1 {b : Nat} (h0 : b ≠ 0) (h : b < 128) (fuel : Nat) (sa r : Bytes) :
    plain (fuel + 1) sa (esc b ++ r) = plain fuel (sa ++ [b]) r := by
  have hfin : ∀ r, fin b r = .ok [b] r := by
    intro r; unfold fin appendUtf8; rw [if_neg h0, if_pos (by omega)]
  have bs : ∀ l : Bytes, backslash (l ++ r) = .ok [b] r → plain (fuel + 1) sa (92 :: l ++ r) = plain fuel (sa ++ [b]) r := by
    intro l hl
    show plain (fuel + 1) sa (92 :: (l ++ r)) = _
    rw [plain_backslash, hl]
  by_cases h1 : 32 ≤ b ∧ b ≠ 92 ∧ b ≠ 34 ∧ b ≠ 47
  · rw [show esc b = [b] by unfold esc; rw [if_pos h1]]
    exact plain_ascii ⟨h1.1, h, h1.2.1, h1.2.2.1⟩ _ _ _
  by_cases h2 : b = 92 ∨ b = 34 ∨ b = 47
  · have e : esc b = [92, b] := by rcases h2 with rfl | rfl | rfl <;> rfl
    rw [e]
    refine bs [b] ?_
    rw [← hfin]
    rcases h2 with rfl | rfl | rfl <;> rfl
  by_cases h3 : b = 8 ∨ b = 12 ∨ b = 10 ∨ b = 13 ∨ b = 9
  · rcases h3 with rfl | rfl | rfl | rfl | rfl
    · refine bs [98] ?_; rw [← hfin]; rfl
    · refine bs [102] ?_; rw [← hfin]; rfl
    · refine bs [110] ?_; rw [← hfin]; rfl
    · refine bs [114] ?_; rw [← hfin]; rfl
    · refine bs [116] ?_; rw [← hfin]; rfl
  · have e : esc b = uEsc b := by
      unfold esc
      rw [if_neg h1, if_neg (by omega), if_neg (by omega), if_neg (by omega), if_neg (by omega), if_neg (by omega), if_neg h2]
    rw [e]
    refine bs (117 :: [nibble (b / 4096), nibble (b / 256 % 16), nibble (b / 16 % 16), nibble (b % 16)]) ?_
    rw [← hfin]
    refine backslash_hex (by omega) (by omega) _ r ?_
    exact hexs_nibbles (fun n hn => (hex_nibble hn).1) (by omega) r

theorem encode_other {b : Nat} (h : b ≠ 0xE2) (r : Bytes) : encode (b :: r) = esc b ++ encode r := by
  rw [encode]
  intro c r' hb
  exact absurd hb h

theorem esc_128 {b : Nat} (h : 128 ≤ b) : esc b = [b] := by
  unfold esc; rw [if_pos (by omega)]

theorem encode_three {b c d : Nat} (hb : 224 ≤ b) (hc : 128 ≤ c ∧ c < 192) (hd : 128 ≤ d ∧ d < 192)
    (h : ¬ (b = 0xE2 ∧ c = 0x80 ∧ (d = 0xA8 ∨ d = 0xA9))) (r : Bytes) : encode (b :: c :: d :: r) = b :: c :: d :: encode r := by
  have h2 : encode (c :: d :: r) = c :: d :: encode r := by
    rw [encode_other (by omega), encode_other (by omega), esc_128 hc.1, esc_128 hd.1]; rfl
  by_cases h1 : b = 0xE2
  · subst h1
    by_cases h3 : c = 0x80
    · subst h3
      rw [encode, if_neg (fun h' => h ⟨rfl, rfl, h'⟩), h2]
      rfl
    · have : encode (0xE2 :: c :: d :: r) = esc 0xE2 ++ encode (c :: d :: r) := by
        rw [encode]
        intro c' r' _ e
        cases e
        exact h3 rfl
      rw [this, h2]
      rfl
  · rw [encode_other h1, h2, esc_128 (by omega)]; rfl

/-- A character as it is printed. -/
def printed (c : Char) : Bytes := if c.toNat < 128 then esc c.toNat else chr c

theorem encode_chr {c : Char} (h : c.toNat ≠ 0x2028 ∧ c.toNat ≠ 0x2029) (r : Bytes) : encode (chr c ++ r) = printed c ++ encode r := by
  have hr := char_range c
  unfold printed
  rcases chr_eq c with ⟨h1, e⟩ | ⟨h1, h2, e⟩ | ⟨h1, h2, e⟩ | ⟨h1, e⟩
  · rw [if_pos (by omega), e]; exact encode_other (by omega) r
  · rw [if_neg (by omega), e]
    show encode (_ :: _ :: r) = _ :: _ :: encode r
    rw [encode_other (by omega), encode_other (by omega), esc_128 (by omega), esc_128 (by omega)]
    rfl
  · rw [if_neg (by omega), e]
    exact encode_three (by omega) (by omega) (by omega) (by omega) r
  · rw [if_neg (by omega), e]
    show encode (_ :: _ :: _ :: _ :: r) = _ :: _ :: _ :: _ :: encode r
    rw [encode_other (by omega), encode_other (by omega), encode_other (by omega), encode_other (by omega),
      esc_128 (by omega), esc_128 (by omega), esc_128 (by omega), esc_128 (by omega)]
    rfl

theorem plain_printed {c : Char} (h : c.toNat ≠ 0) (fuel : Nat) (sa r : Bytes) :
    plain (fuel + 1) sa (printed c ++ r) = plain fuel (sa ++ chr c) r := by
  unfold printed
  by_cases h1 : c.toNat < 128
  · rw [if_pos h1]
    rcases chr_eq c with ⟨_, e⟩ | ⟨_, _, e⟩ | ⟨_, _, e⟩ | ⟨_, e⟩
    · rw [e]; exact plain_esc1 h h1 _ _ _
    all_goals omega
  · rw [if_neg h1]; exact plain_chr (by omega) (by omega) (by omega) _ _ _

/-- Characters that are printed and read as they are. -/
def Good (c : Char) : Prop := c.toNat ≠ 0 ∧ c.toNat ≠ 0x2028 ∧ c.toNat ≠ 0x2029

theorem printed_ne (c : Char) : 1 ≤ (printed c).length := by
  unfold printed
  split
  · unfold esc uEsc; repeat' split
    all_goals simp
  · exact chr_ne c

/-- Strings are read as they were printed. -/
theorem plain_encode : ∀ (cs : List Char), (∀ c ∈ cs, Good c) → ∀ (fuel : Nat) (sa r : Bytes),
    (encode (utf8 cs)).length < fuel → plain fuel sa (encode (utf8 cs) ++ 34 :: r) = .done (sa ++ utf8 cs) r := by
  intro cs
  induction cs with
  | nil =>
    intro _ fuel sa r hf
    cases fuel with
    | zero => simp at hf
    | succ fuel =>
      rw [show utf8 [] = [] from rfl, show encode [] = [] by rw [encode], List.nil_append, List.append_nil]
      exact plain_quote _ _ _
  | cons c cs ih =>
    intro h fuel sa r hf
    cases fuel with
    | zero => simp at hf
    | succ fuel =>
      have hc := h c (by simp)
      have hl := printed_ne c
      rw [utf8_cons, encode_chr hc.2, List.length_append] at hf
      rw [utf8_cons, encode_chr hc.2, List.append_assoc, plain_printed hc.1, ih (fun c hc => h c (by simp [hc])) fuel _ r (by omega),
        List.append_assoc]

theorem read_encode {cs : List Char} (h : ∀ c ∈ cs, Good c) (r : Bytes) :
    consumeString [] 0 (encode (utf8 cs) ++ 34 :: r) = .done (utf8 cs) r := by
  rw [consumeString, plain_encode cs h _ [] r (by simp), List.nil_append]

end Verif.Json
