import Verif.Key.Lemmas
/-
C05: cutting keys into 8-byte slices preserves byte-lexicographic order and identity.
The specification is `LexLt` (Verif.Key.Order), which knows nothing about slices.
-/
namespace Verif.Props.C05
open Verif.Key

/-! ### The slice functions of the code compute `slice` -/

theorem make_eq (m : Mem) (s : Int) (n : Nat) :
    make m s n = BitVec.ofNat 64 (leNat (pad8 (bytesAt m s n))) := by
  unfold make pad8
  by_cases h0 : (n : Int) ≤ 0
  · have : n = 0 := by omega
    subst this
    simp [bytesAt, leNat]
  · rw [if_neg h0]
    by_cases h8 : (8 : Int) ≤ n
    · rw [if_pos h8]
      have h8' : 8 ≤ n := by omega
      unfold load64
      rw [show n = 8 + (n - 8) by omega, bytesAt_add]
      rw [List.take_left' (by simp)]
      simp
    · rw [if_neg h8]
      rw [List.take_of_length_le (by simp; omega)]
      simp

/-- For every memory contents, address and length: both the plain and the sloppy comparable
slice of the string stored there equal the specification `slice` of its bytes.  In
particular the bytes the sloppy version reads before the string do not matter. -/
theorem slice_is_code (m : Mem) (s : Int) (n : Nat) :
    (makeComparable m s n).toNat = slice (bytesAt m s n) ∧
    (makeComparableSloppy m s n).toNat = slice (bytesAt m s n) := by
  have h1 : makeComparable m s n = BitVec.ofNat 64 (slice (bytesAt m s n)) := by
    unfold makeComparable slice
    rw [make_eq, bswap_of_leNat (pad8_length _)]
  have h2 : makeSloppy m s n = make m s n := by
    unfold makeSloppy make
    split
    · rfl
    · split
      · rfl
      · next h0 h8 =>
        have hn : n < 8 := by omega
        apply BitVec.eq_of_toNat_eq
        rw [BitVec.toNat_ushiftRight, toNat_load64, Nat.shiftRight_eq_div_pow, BitVec.toNat_ofNat]
        simp only [Int.toNat_natCast]
        rw [show 8 = (8 - n) + n by omega, bytesAt_add]
        simp only [show 8 - n + n = 8 by omega]
        rw [show s - (8 - (n : Int)) + ((8 - n : Nat) : Int) = s by omega]
        have := leNat_div (bytesAt m (s - (8 - (n : Int))) (8 - n)) (bytesAt m s n)
        rw [bytesAt_length] at this
        rw [show 2 ^ (8 * (8 - n)) = 256 ^ (8 - n) by rw [Nat.pow_mul], this, leNat_append,
          leNat_replicate_zero, Nat.mul_zero, Nat.add_zero]
        symm
        apply Nat.mod_eq_of_lt
        have h := leNat_lt (bytesAt m s n)
        rw [bytesAt_length] at h
        have : 256 ^ n ≤ 256 ^ 8 := Nat.pow_le_pow_right (by omega) (by omega)
        omega
  have h3 : makeComparableSloppy m s n = makeComparable m s n := by
    unfold makeComparableSloppy makeComparable; rw [h2]
  rw [h3, h1, BitVec.toNat_ofNat]
  have := slice_lt (bytesAt m s n)
  exact ⟨Nat.mod_eq_of_lt this, Nat.mod_eq_of_lt this⟩

/-- Unparsing a slice with a known length gives back the bytes it was made from. -/
theorem unparse_slice (k : Bytes) (buflen : Nat) :
    unparseLen buflen (BitVec.ofNat 64 (slice k)) k.length = (k.take 8).take buflen := by
  unfold unparseLen slice
  have h : BitVec.ofNat 64 (beNat (pad8 k)) = BitVec.ofNat 64 (leNat (pad8 k).reverse) := rfl
  rw [h, bswap_of_leNat (by rw [List.length_reverse, pad8_length])]
  unfold beNat
  rw [List.reverse_reverse, store64_of_leNat (pad8_length k)]
  unfold pad8
  rw [List.take_append_of_le_length (by rw [List.length_take]; omega), List.take_take,
    List.take_take, List.take_eq_take_min (l := k)]
  rw [List.take_eq_take_min (l := k) (i := min buflen 8)]
  congr 1; omega

/-- Unparsing without a length gives the first eight bytes with trailing zero bytes
removed. -/
theorem unparse_trim (k : Bytes) :
    unparseTrim 8 (BitVec.ofNat 64 (slice k)) = ((pad8 k).reverse.dropWhile (· == 0)).reverse := by
  unfold unparseTrim slice
  have h : BitVec.ofNat 64 (beNat (pad8 k)) = BitVec.ofNat 64 (leNat (pad8 k).reverse) := rfl
  rw [h, bswap_of_leNat (by rw [List.length_reverse, pad8_length])]
  unfold beNat
  rw [List.reverse_reverse, store64_of_leNat (pad8_length k)]
  dsimp only
  obtain ⟨t, ht⟩ := List.dropWhile_suffix (l := (pad8 k).reverse) (· == 0)
  have hp : pad8 k = ((pad8 k).reverse.dropWhile (· == 0)).reverse ++ t.reverse := by
    rw [← List.reverse_append, ht, List.reverse_reverse]
  have hlen : ((pad8 k).reverse.dropWhile (· == 0)).reverse.length ≤ 8 := by
    have := congrArg List.length hp
    rw [pad8_length, List.length_append] at this
    omega
  rw [Nat.min_eq_left hlen]
  conv => lhs; arg 2; rw [hp]
  rw [List.take_left]

/-! ### One layer -/

theorem cmp3_neg {a b : Nat} : cmp3 a b < 0 ↔ a < b := by unfold cmp3; repeat (first | omega | split)
theorem cmp3_zero {a b : Nat} : cmp3 a b = 0 ↔ a = b := by unfold cmp3; repeat (first | omega | split)
theorem cmp3_pos {a b : Nat} : 0 < cmp3 a b ↔ b < a := by unfold cmp3; repeat (first | omega | split)

theorem compareKeys_neg {a b : Bytes} :
    compareKeys a b < 0 ↔
      slice a < slice b ∨ (slice a = slice b ∧ a.length ≤ 8 ∧ a.length < b.length) := by
  unfold compareKeys Key.compare
  have h1 := @cmp3_neg (slice a) (slice b)
  have h2 := @cmp3_zero (slice a) (slice b)
  dsimp only
  split
  · have : slice a = slice b := h2.mp ‹_›
    split
    · split <;> omega
    · omega
  · rw [h1]; omega

theorem compareKeys_zero {a b : Bytes} :
    compareKeys a b = 0 ↔
      slice a = slice b ∧ (a.length = b.length ∨ (8 < a.length ∧ 8 < b.length)) := by
  unfold compareKeys Key.compare
  have h2 := @cmp3_zero (slice a) (slice b)
  dsimp only
  split
  · have : slice a = slice b := h2.mp ‹_›
    split
    · split <;> omega
    · omega
  · omega

/-- One layer's comparison never contradicts byte order, and it says "equal" only for equal
short keys or for two long keys with the same first eight bytes. -/
theorem layer_order (a b : Bytes) :
    (compareKeys a b < 0 → LexLt a b) ∧ (0 < compareKeys a b → LexLt b a) ∧
    (compareKeys a b = 0 →
      (a = b ∧ a.length ≤ 8) ∨ (8 < a.length ∧ 8 < b.length ∧ a.take 8 = b.take 8)) := by
  have neg : ∀ a b : Bytes, compareKeys a b < 0 → LexLt a b := by
    intro a b h
    rcases compareKeys_neg.mp h with h | ⟨h1, h2, h3⟩
    · exact lexLt_of_slice_lt h
    · exact lexLt_of_pad_eq (pad_eq_of_slice_eq h1) h2 h3
  have zero : compareKeys a b = 0 →
      (a = b ∧ a.length ≤ 8) ∨ (8 < a.length ∧ 8 < b.length ∧ a.take 8 = b.take 8) := by
    intro h
    obtain ⟨h1, h2⟩ := compareKeys_zero.mp h
    have hp := pad_eq_of_slice_eq h1
    by_cases hl : a.length ≤ 8
    · refine Or.inl ⟨eq_of_pad_eq hp hl (by omega), hl⟩
    · exact Or.inr ⟨by omega, by omega, take_eq_of_pad_eq hp (by omega) (by omega)⟩
  refine ⟨neg a b, ?_, zero⟩
  intro h
  rcases Nat.lt_trichotomy (slice a) (slice b) with hs | hs | hs
  · have := compareKeys_neg.mpr (Or.inl hs); omega
  · have hz : ¬ compareKeys a b = 0 := by omega
    have hn : ¬ compareKeys a b < 0 := by omega
    rw [compareKeys_zero] at hz
    rw [compareKeys_neg] at hn
    exact lexLt_of_pad_eq (pad_eq_of_slice_eq hs.symm) (by omega) (by omega)
  · exact lexLt_of_slice_lt hs

/-! ### Whole keys -/

theorem lexLt_of_take_drop {a b : Bytes} (ht : a.take 8 = b.take 8)
    (h : LexLt (a.drop 8) (b.drop 8)) : LexLt a b := by
  rw [← List.take_append_drop 8 a, ← List.take_append_drop 8 b, ht, lexLt_append_left]
  exact h

/-- The trie's slice-by-slice comparison decides byte-lexicographic order and equality of
whole keys, for all byte strings of all lengths. -/
theorem trieCompare_spec (a b : Bytes) :
    (trieCompare a b < 0 ↔ LexLt a b) ∧ (trieCompare a b = 0 ↔ a = b) ∧
    (0 < trieCompare a b ↔ LexLt b a) := by
  suffices h : (trieCompare a b < 0 → LexLt a b) ∧ (trieCompare a b = 0 → a = b) ∧
      (0 < trieCompare a b → LexLt b a) by
    obtain ⟨h1, h2, h3⟩ := h
    refine ⟨⟨h1, ?_⟩, ⟨h2, ?_⟩, ⟨h3, ?_⟩⟩
    · intro hl
      rcases Int.lt_trichotomy (trieCompare a b) 0 with h | h | h
      · exact h
      · rw [h2 h] at hl; exact absurd hl (lexLt_irrefl _)
      · exact absurd hl (lexLt_asymm (h3 h))
    · intro he
      subst he
      rcases Int.lt_trichotomy (trieCompare a a) 0 with h | h | h
      · exact absurd (h1 h) (lexLt_irrefl _)
      · exact h
      · exact absurd (h3 h) (lexLt_irrefl _)
    · intro hl
      rcases Int.lt_trichotomy (trieCompare a b) 0 with h | h | h
      · exact absurd hl (lexLt_asymm (h1 h))
      · rw [h2 h] at hl; exact absurd hl (lexLt_irrefl _)
      · exact h
  fun_induction trieCompare a b with
  | case1 a b c h ih =>
    have hz := (layer_order a b).2.2 h.1
    have ht : a.take 8 = b.take 8 := by
      rcases hz with h' | h'
      · omega
      · exact h'.2.2
    obtain ⟨i1, i2, i3⟩ := ih
    refine ⟨fun hh => lexLt_of_take_drop ht (i1 hh), ?_, fun hh => lexLt_of_take_drop ht.symm (i3 hh)⟩
    intro hh
    rw [← List.take_append_drop 8 a, ← List.take_append_drop 8 b, ht, i2 hh]
  | case2 a b c h =>
    have l := layer_order a b
    refine ⟨l.1, ?_, l.2.1⟩
    intro h0
    rcases l.2.2 h0 with h' | h'
    · exact h'.1
    · exact absurd ⟨h0, h'.1, h'.2.1⟩ h

/-- Two keys are the same byte string exactly when the trie considers them equal; in
particular keys differing only in trailing zero bytes are different. -/
theorem identity (a b : Bytes) : trieCompare a b = 0 ↔ a = b := (trieCompare_spec a b).2.1

/-- The documentation of `make_comparable` says equal slices mean equal prefixes; that is
false when one string is shorter than eight bytes and padded by zeros, which is why the
tree also compares lengths. -/
theorem make_comparable_doc_false :
    ¬ ∀ a b : Bytes, slice a = slice b → a.take 8 = b.take 8 := by
  intro h
  have := h [97] [97, 0] (by decide)
  exact absurd this (by decide)

/-! Non-trivial instances: trailing zeros, and a difference in the second slice. -/
example : trieCompare [97] [97, 0] < 0 := by
  rw [(trieCompare_spec _ _).1]; simp
example : 0 < trieCompare [1,2,3,4,5,6,7,8,9] [1,2,3,4,5,6,7,8] := by
  rw [(trieCompare_spec _ _).2.2]; simp

end Verif.Props.C05
