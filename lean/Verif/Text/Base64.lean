import Verif.Text.Natural
import Mathlib.Data.List.TakeWhile
import Mathlib.Data.Nat.Bitwise
import Mathlib.Tactic.NormNum

/-!
# Base 64

`String_base::encode_base64` and `decode_base64`, /repo/string_base.hh:579-636, with their tables, /repo/string.cc:88-105.

Simplifications:
* Bytes are numbers; those that are given to the code are below 256.
* `unsigned` has 32 bits.
* What is written is collected; `C64` shows that it fits in what was reserved.  Lengths are such that the expressions of
  /repo/string_base.hh:581 and /repo/string_base.hh:608 do not overflow.
-/
namespace Verif.Text

/-- `base64_encoding_table`, /repo/string.cc:88. -/
def encTable : Bytes := [65, 66, 67, 68, 69, 70, 71, 72, 73, 74, 75, 76, 77, 78, 79, 80, 81, 82, 83, 84, 85, 86, 87, 88, 89, 90,
  97, 98, 99, 100, 101, 102, 103, 104, 105, 106, 107, 108, 109, 110, 111, 112, 113, 114, 115, 116, 117, 118, 119, 120, 121, 122,
  48, 49, 50, 51, 52, 53, 54, 55, 56, 57, 43, 47]

/-- `base64_decoding_map`, /repo/string.cc:89-105; bytes from 123 on have 0. -/
def decTable : Bytes := [0, 0, 0, 0, 0, 0, 0, 0, 0, 0, 0, 0, 0, 0, 0, 0,
  0, 0, 0, 0, 0, 0, 0, 0, 0, 0, 0, 0, 0, 0, 0, 0,
  0, 0, 0, 0, 0, 0, 0, 0, 0, 0, 0, 63, 0, 0, 0, 64,
  53, 54, 55, 56, 57, 58, 59, 60, 61, 62, 0, 0, 0, 0, 0, 0,
  0, 1, 2, 3, 4, 5, 6, 7, 8, 9, 10, 11, 12, 13, 14, 15,
  16, 17, 18, 19, 20, 21, 22, 23, 24, 25, 26, 0, 0, 0, 0, 0,
  0, 27, 28, 29, 30, 31, 32, 33, 34, 35, 36, 37, 38, 39, 40, 41,
  42, 43, 44, 45, 46, 47, 48, 49, 50, 51, 52, 0, 0, 0, 0, 0]

def enc (v : Nat) : Nat := encTable.getD v 0

/-- A digit of the encoding, with 0 for any other byte. -/
def dec (c : Nat) : Nat := decTable.getD c 0

/-- `encode_base64`, /repo/string_base.hh:579-604. -/
def encodeBase64 (pad : Bool) : Bytes → Bytes
  | a :: b :: c :: s =>
    let x := (a <<< 16) ||| (b <<< 8) ||| c
    enc (x >>> 18) :: enc ((x >>> 12) &&& 63) :: enc ((x >>> 6) &&& 63) :: enc (x &&& 63) :: encodeBase64 pad s
  | [a, b] =>
    let x := (a <<< 16) ||| (b <<< 8)
    [enc (x >>> 18), enc ((x >>> 12) &&& 63), enc ((x >>> 6) &&& 63)] ++ if pad then [61] else []
  | [a] =>
    let x := a <<< 16
    [enc (x >>> 18), enc ((x >>> 12) &&& 63)] ++ if pad then [61, 61] else []
  | [] => []

/-- `((unsigned) base64_decoding_map[c] - 1) << n` in 32 bits, /repo/string_base.hh:613-616. -/
def digit (c n : Nat) : Nat := (((dec c + 4294967295) % 4294967296) <<< n) % 4294967296

/-- The loop and the end of `decode_base64`, /repo/string_base.hh:612-635, without the `=` at the end.  `none`: it returns false. -/
def decodeDigits : Bytes → Option Bytes
  | a :: b :: c :: d :: s =>
    let x := digit a 18 ||| digit b 12 ||| digit c 6 ||| digit d 0
    if 2147483648 ≤ x then none
    else (decodeDigits s).map fun r => (x >>> 16) % 256 :: (x >>> 8) % 256 :: x % 256 :: r
  | [a, b, c] =>
    let x := digit a 18 ||| digit b 12 ||| digit c 6
    if 2147483648 ≤ x then none else some [(x >>> 16) % 256, (x >>> 8) % 256]
  | [a, b] =>
    let x := digit a 18 ||| digit b 12 ||| 0
    if 2147483648 ≤ x then none else some [(x >>> 16) % 256]
  | [_] => none
  | [] => some []

/-- `decode_base64`, /repo/string_base.hh:606-636. -/
def decodeBase64 (s : Bytes) : Option Bytes := decodeDigits (s.reverse.dropWhile (· == 61)).reverse

/-! ## Digits -/

theorem dec_enc {v : Nat} (h : v < 64) : dec (enc v) = v + 1 := by
  have : ∀ v : Fin 64, dec (enc v.val) = v.val + 1 := by decide
  exact this ⟨v, h⟩

theorem enc_mem {v : Nat} (h : v < 64) : enc v ∈ encTable := by
  have : ∀ v : Fin 64, enc v.val ∈ encTable := by decide
  exact this ⟨v, h⟩

theorem enc_ne {v : Nat} (h : v < 64) : enc v ≠ 61 := by
  have : ∀ v : Fin 64, enc v.val ≠ 61 := by decide
  exact this ⟨v, h⟩

theorem dec_zero (c : Nat) : dec c = 0 ↔ c ∉ encTable := by
  by_cases h : c < 128
  · have : ∀ c : Fin 128, dec c.val = 0 ↔ c.val ∉ encTable := by decide
    exact this ⟨c, h⟩
  · have h1 : dec c = 0 := by
      unfold dec
      rw [List.getD_eq_getElem?_getD, List.getElem?_eq_none (by simp [decTable]; omega)]
      rfl
    have h2 : c ∉ encTable := by
      intro hc
      have : ∀ c ∈ encTable, c < 128 := by decide
      exact h (this c hc)
    simp [h1, h2]

theorem dec_le (c : Nat) : dec c ≤ 64 := by
  by_cases h : c < 128
  · have : ∀ c : Fin 128, dec c.val ≤ 64 := by decide
    exact this ⟨c, h⟩
  · unfold dec
    rw [List.getD_eq_getElem?_getD, List.getElem?_eq_none (by simp [decTable]; omega)]
    simp

/-- A good digit, shifted. -/
theorem digit_good {c v n : Nat} (h : dec c = v + 1) (hn : n ≤ 18) : digit c n = v * 2 ^ n := by
  have hv : v < 64 := by have := dec_le c; omega
  unfold digit
  rw [h, show (v + 1 + 4294967295) % 4294967296 = v by omega, Nat.shiftLeft_eq]
  apply Nat.mod_eq_of_lt
  have : 2 ^ n ≤ 2 ^ 18 := Nat.pow_le_pow_right (by omega) hn
  calc v * 2 ^ n ≤ 63 * 2 ^ 18 := Nat.mul_le_mul (by omega) this
    _ < 4294967296 := by norm_num

/-- A bad digit sets the sign. -/
theorem digit_bad {c n : Nat} (h : dec c = 0) (hn : n ≤ 18) : (digit c n).testBit 31 = true := by
  unfold digit
  rw [h]
  have : ∀ n : Fin 19, Nat.testBit ((((0 + 4294967295) % 4294967296) <<< n.val) % 4294967296) 31 = true := by decide
  exact this ⟨n, by omega⟩

theorem big_of_bit {x : Nat} (h : x.testBit 31 = true) : 2147483648 ≤ x := by
  have := Nat.ge_two_pow_of_testBit h
  simpa using this

theorem or_shift {a b : Nat} (i : Nat) (h : b < 2 ^ i) : a * 2 ^ i ||| b = a * 2 ^ i + b := by
  rw [Nat.mul_comm]
  exact (Nat.two_pow_add_eq_or_of_lt h a).symm

theorem or_four {a b c d : Nat} (hb : b < 64) (hc : c < 64) (hd : d < 64) :
    a * 2 ^ 18 ||| b * 2 ^ 12 ||| c * 2 ^ 6 ||| d * 2 ^ 0 = a * 262144 + b * 4096 + c * 64 + d := by
  rw [Nat.or_assoc, Nat.or_assoc, Nat.pow_zero, Nat.mul_one, or_shift 6 (by omega : d < 2 ^ 6), or_shift 12 (by omega : c * 2 ^ 6 + d < 2 ^ 12),
    or_shift 18 (by omega : b * 2 ^ 12 + (c * 2 ^ 6 + d) < 2 ^ 18)]
  norm_num
  omega

theorem or_three {a b c : Nat} (hb : b < 64) (hc : c < 64) :
    a * 2 ^ 18 ||| b * 2 ^ 12 ||| c * 2 ^ 6 = a * 262144 + b * 4096 + c * 64 := by
  have := or_four (a := a) hb hc (by omega : 0 < 64)
  simpa using this

theorem or_two {a b : Nat} (hb : b < 64) : a * 2 ^ 18 ||| b * 2 ^ 12 ||| 0 = a * 262144 + b * 4096 := by
  have := or_three (a := a) hb (by omega : 0 < 64)
  simpa using this

theorem bytes_three {a b c : Nat} (hb : b < 256) (hc : c < 256) : (a <<< 16) ||| (b <<< 8) ||| c = a * 65536 + b * 256 + c := by
  rw [Nat.shiftLeft_eq, Nat.shiftLeft_eq, Nat.or_assoc, or_shift 8 (by omega : c < 2 ^ 8),
    or_shift 16 (by omega : b * 2 ^ 8 + c < 2 ^ 16)]
  norm_num
  omega

theorem bytes_two {a b : Nat} (hb : b < 256) : (a <<< 16) ||| (b <<< 8) = a * 65536 + b * 256 := by
  have := bytes_three (a := a) hb (by omega : 0 < 256)
  simpa using this

theorem and63 (x : Nat) : x &&& 63 = x % 64 := Nat.and_two_pow_sub_one_eq_mod x 6

/-! ## Round trip -/

theorem decode_encode_digits {n : Nat} : ∀ {s : Bytes}, s.length ≤ n → (∀ c ∈ s, c < 256) →
    decodeDigits (encodeBase64 false s) = some s ∧ (∀ c ∈ encodeBase64 false s, c ∈ encTable) := by
  induction n using Nat.strong_induction_on with
  | _ n ih =>
    intro s hl hs
    match s with
    | [] => exact ⟨rfl, by simp [encodeBase64]⟩
    | [a] =>
      have ha := hs a (by simp)
      have e : encodeBase64 false [a] = [enc (a * 65536 / 262144), enc (a * 65536 / 4096 % 64)] := by
        simp only [encodeBase64, Nat.shiftLeft_eq, Nat.shiftRight_eq_div_pow, and63, Bool.false_eq_true, if_false, List.append_nil]
      rw [e]
      have v0 : a * 65536 / 262144 < 64 := by omega
      have v1 : a * 65536 / 4096 % 64 < 64 := by omega
      refine ⟨?_, by intro c hc; simp only [List.mem_cons, List.not_mem_nil, or_false] at hc; rcases hc with rfl | rfl <;> exact enc_mem ‹_›⟩
      simp only [decodeDigits]
      rw [digit_good (dec_enc v0) (by omega), digit_good (dec_enc v1) (by omega), or_two v1, if_neg (by omega), Nat.shiftRight_eq_div_pow]
      simp only [Option.some.injEq, List.cons.injEq, and_true]
      omega
    | [a, b] =>
      have ha := hs a (by simp)
      have hb := hs b (by simp)
      have e : encodeBase64 false [a, b] = [enc ((a * 65536 + b * 256) / 262144), enc ((a * 65536 + b * 256) / 4096 % 64),
          enc ((a * 65536 + b * 256) / 64 % 64)] := by
        simp only [encodeBase64, bytes_two hb, Nat.shiftRight_eq_div_pow, and63, Bool.false_eq_true, if_false, List.append_nil]
      rw [e]
      have v0 : (a * 65536 + b * 256) / 262144 < 64 := by omega
      have v1 : (a * 65536 + b * 256) / 4096 % 64 < 64 := by omega
      have v2 : (a * 65536 + b * 256) / 64 % 64 < 64 := by omega
      refine ⟨?_, by
        intro c hc; simp only [List.mem_cons, List.not_mem_nil, or_false] at hc; rcases hc with rfl | rfl | rfl <;> exact enc_mem ‹_›⟩
      simp only [decodeDigits]
      rw [digit_good (dec_enc v0) (by omega), digit_good (dec_enc v1) (by omega), digit_good (dec_enc v2) (by omega), or_three v1 v2,
        if_neg (by omega), Nat.shiftRight_eq_div_pow, Nat.shiftRight_eq_div_pow]
      simp only [Option.some.injEq, List.cons.injEq, and_true]
      omega
    | a :: b :: c :: s =>
      have ha := hs a (by simp)
      have hb := hs b (by simp)
      have hc := hs c (by simp)
      have e : encodeBase64 false (a :: b :: c :: s) = enc ((a * 65536 + b * 256 + c) / 262144) ::
          enc ((a * 65536 + b * 256 + c) / 4096 % 64) :: enc ((a * 65536 + b * 256 + c) / 64 % 64) ::
          enc ((a * 65536 + b * 256 + c) % 64) :: encodeBase64 false s := by
        simp only [encodeBase64, bytes_three hb hc, Nat.shiftRight_eq_div_pow, and63]
      rw [e]
      have v0 : (a * 65536 + b * 256 + c) / 262144 < 64 := by omega
      have v1 : (a * 65536 + b * 256 + c) / 4096 % 64 < 64 := by omega
      have v2 : (a * 65536 + b * 256 + c) / 64 % 64 < 64 := by omega
      have v3 : (a * 65536 + b * 256 + c) % 64 < 64 := by omega
      obtain ⟨i1, i2⟩ := ih s.length (by simp only [List.length_cons] at hl; omega) (le_refl s.length)
        (fun c hc => hs c (List.mem_cons_of_mem _ (List.mem_cons_of_mem _ (List.mem_cons_of_mem _ hc))))
      refine ⟨?_, by
        intro c hc
        simp only [List.mem_cons] at hc
        rcases hc with rfl | rfl | rfl | rfl | hc
        · exact enc_mem v0
        · exact enc_mem v1
        · exact enc_mem v2
        · exact enc_mem v3
        · exact i2 c hc⟩
      simp only [decodeDigits]
      rw [digit_good (dec_enc v0) (by omega), digit_good (dec_enc v1) (by omega), digit_good (dec_enc v2) (by omega),
        digit_good (dec_enc v3) (by omega), or_four v1 v2 v3, if_neg (by omega), Nat.shiftRight_eq_div_pow, Nat.shiftRight_eq_div_pow, i1]
      simp only [Option.map_some, Option.some.injEq, List.cons.injEq, and_true]
      omega

/-- Padding adds `=` at the end alone. -/
theorem encode_pad {n : Nat} : ∀ {s : Bytes}, s.length ≤ n →
    ∃ k, k ≤ 2 ∧ encodeBase64 true s = encodeBase64 false s ++ List.replicate k 61 ∧ (encodeBase64 true s).length = (s.length + 2) / 3 * 4 := by
  induction n using Nat.strong_induction_on with
  | _ n ih =>
    intro s hl
    match s with
    | [] => exact ⟨0, by omega, rfl, rfl⟩
    | [a] => exact ⟨2, by omega, rfl, by simp [encodeBase64]⟩
    | [a, b] => exact ⟨1, by omega, rfl, by simp [encodeBase64]⟩
    | a :: b :: c :: s =>
      obtain ⟨k, hk, h1, h2⟩ := ih s.length (by simp only [List.length_cons] at hl; omega) (le_refl s.length)
      refine ⟨k, hk, ?_, ?_⟩
      · simp only [encodeBase64, h1, List.cons_append]
      · simp only [encodeBase64, List.length_cons, h2]; omega

theorem strip_pad {t : Bytes} (k : Nat) (h : 61 ∉ t) : ((t ++ List.replicate k 61).reverse.dropWhile (· == 61)).reverse = t := by
  rw [List.reverse_append, List.reverse_replicate, List.dropWhile_append_of_pos (by
    intro c hc; rw [List.eq_of_mem_replicate hc]; rfl)]
  have : t.reverse.dropWhile (· == 61) = t.reverse := by
    have h' : 61 ∉ t.reverse := by simpa using h
    generalize t.reverse = r at h'
    cases r with
    | nil => rfl
    | cons x r =>
      have : x ≠ 61 := fun hx => h' (by rw [hx]; exact List.mem_cons_self)
      simp [this]
  rw [this, List.reverse_reverse]

theorem decode_encode (pad : Bool) {s : Bytes} (hs : ∀ c ∈ s, c < 256) : decodeBase64 (encodeBase64 pad s) = some s := by
  obtain ⟨h1, h2⟩ := decode_encode_digits (le_refl _) hs
  have h61 : 61 ∉ encodeBase64 false s := fun h => absurd (h2 _ h) (by decide)
  unfold decodeBase64
  cases pad with
  | false =>
    have := strip_pad 0 h61
    rw [List.replicate_zero, List.append_nil] at this
    rw [this]; exact h1
  | true =>
    obtain ⟨k, -, hk, -⟩ := encode_pad (le_refl s.length)
    rw [hk, strip_pad k h61]; exact h1

/-! ## What is accepted -/

theorem decode_accepts_digits {n : Nat} : ∀ {s : Bytes}, s.length ≤ n →
    ((decodeDigits s).isSome = true ↔ (∀ c ∈ s, c ∈ encTable) ∧ s.length % 4 ≠ 1) := by
  induction n using Nat.strong_induction_on with
  | _ n ih =>
    intro s hl
    have good : ∀ {c}, c ∈ encTable → ∃ v, v < 64 ∧ dec c = v + 1 := by
      intro c hc
      have h0 : dec c ≠ 0 := fun h => (dec_zero c).1 h hc
      exact ⟨dec c - 1, by have := dec_le c; omega, by omega⟩
    have bit : ∀ {x y : Nat}, x.testBit 31 = true → (x ||| y).testBit 31 = true := by
      intro x y h; rw [Nat.testBit_or, h]; rfl
    have bit' : ∀ {x y : Nat}, y.testBit 31 = true → (x ||| y).testBit 31 = true := by
      intro x y h; rw [Nat.testBit_or, h, Bool.or_true]
    match s with
    | [] => simp [decodeDigits]
    | [a] => simp [decodeDigits]
    | [a, b] =>
      simp only [decodeDigits]
      by_cases ha : a ∈ encTable
      · by_cases hb : b ∈ encTable
        · obtain ⟨v, hv, e⟩ := good ha
          obtain ⟨w, hw, e'⟩ := good hb
          rw [digit_good e (by omega), digit_good e' (by omega), or_two hw, if_neg (by omega)]
          simp [ha, hb]
        · rw [if_pos (big_of_bit (bit (bit' (digit_bad ((dec_zero b).2 hb) (by omega)))))]
          simp [hb]
      · rw [if_pos (big_of_bit (bit (bit (digit_bad ((dec_zero a).2 ha) (by omega)))))]
        simp [ha]
    | [a, b, c] =>
      simp only [decodeDigits]
      by_cases ha : a ∈ encTable
      · by_cases hb : b ∈ encTable
        · by_cases hc : c ∈ encTable
          · obtain ⟨v, hv, e⟩ := good ha
            obtain ⟨w, hw, e'⟩ := good hb
            obtain ⟨x, hx, e''⟩ := good hc
            rw [digit_good e (by omega), digit_good e' (by omega), digit_good e'' (by omega), or_three hw hx, if_neg (by omega)]
            simp [ha, hb, hc]
          · rw [if_pos (big_of_bit (bit' (digit_bad ((dec_zero c).2 hc) (by omega))))]
            simp [hc]
        · rw [if_pos (big_of_bit (bit (bit' (digit_bad ((dec_zero b).2 hb) (by omega)))))]
          simp [hb]
      · rw [if_pos (big_of_bit (bit (bit (digit_bad ((dec_zero a).2 ha) (by omega)))))]
        simp [ha]
    | a :: b :: c :: d :: s =>
      simp only [decodeDigits]
      by_cases ha : a ∈ encTable
      · by_cases hb : b ∈ encTable
        · by_cases hc : c ∈ encTable
          · by_cases hd : d ∈ encTable
            · obtain ⟨v, hv, e⟩ := good ha
              obtain ⟨w, hw, e'⟩ := good hb
              obtain ⟨x, hx, e''⟩ := good hc
              obtain ⟨y, hy, e3⟩ := good hd
              rw [digit_good e (by omega), digit_good e' (by omega), digit_good e'' (by omega), digit_good e3 (by omega), or_four hw hx hy,
                if_neg (by omega)]
              rw [Option.isSome_map, ih s.length (by simp only [List.length_cons] at hl; omega) (le_refl s.length)]
              simp only [List.mem_cons, forall_eq_or_imp, ha, hb, hc, hd, true_and, List.length_cons]
              have : (s.length + 1 + 1 + 1 + 1) % 4 = s.length % 4 := by omega
              rw [this]
            · rw [if_pos (big_of_bit (bit' (digit_bad ((dec_zero d).2 hd) (by omega))))]
              simp [hd]
          · rw [if_pos (big_of_bit (bit (bit' (digit_bad ((dec_zero c).2 hc) (by omega)))))]
            simp [hc]
        · rw [if_pos (big_of_bit (bit (bit (bit' (digit_bad ((dec_zero b).2 hb) (by omega))))))]
          simp [hb]
      · rw [if_pos (big_of_bit (bit (bit (bit (digit_bad ((dec_zero a).2 ha) (by omega))))))]
        simp [ha]

/-- What is decoded has three bytes for four digits. -/
theorem decode_length {n : Nat} : ∀ {s r : Bytes}, s.length ≤ n → decodeDigits s = some r → r.length = s.length * 3 / 4 := by
  induction n using Nat.strong_induction_on with
  | _ n ih =>
    intro s r hl h
    match s with
    | [] => simp only [decodeDigits, Option.some.injEq] at h; subst h; rfl
    | [a] => simp [decodeDigits] at h
    | [a, b] =>
      simp only [decodeDigits] at h
      split at h
      · cases h
      · simp only [Option.some.injEq] at h; subst h; simp
    | [a, b, c] =>
      simp only [decodeDigits] at h
      split at h
      · cases h
      · simp only [Option.some.injEq] at h; subst h; simp
    | a :: b :: c :: d :: s =>
      simp only [decodeDigits] at h
      split at h
      · cases h
      · rw [Option.map_eq_some_iff] at h
        obtain ⟨r', h1, rfl⟩ := h
        have := ih s.length (by simp only [List.length_cons] at hl; omega) (le_refl s.length) h1
        simp only [List.length_cons, this]; omega

end Verif.Text
