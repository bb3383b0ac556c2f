import Verif.Range.Tree
import Verif.Range.Scans

/-!
# The order of keys and their positions
-/
namespace Verif.Range

open Verif.Key
open Verif.Trie (ikeyBytes)

/-- `k` comes before `k'` in the direction of the scan. -/
def KBefore (fwd : Bool) (k k' : Bytes) : Prop := if fwd then LexLt k k' else LexLt k' k

/-- The scan is to visit key `κ` if it is there. -/
def Start.Wants (fwd : Bool) : Start → Bytes → Prop
  | .all, κ => κ ≠ []
  | .key k e, κ => KBefore fwd k κ ∨ κ = k ∧ e = true

theorem Before.trans {fwd : Bool} {p q r : Nat} (h1 : Before fwd p q) (h2 : Before fwd q r) : Before fwd p r := by
  cases fwd <;> simp only [Before, Bool.false_eq_true, if_false, if_true] at * <;> omega

theorem Before.tri (fwd : Bool) (p q : Nat) : Before fwd p q ∨ p = q ∨ Before fwd q p := by
  cases fwd <;> simp only [Before, Bool.false_eq_true, if_false, if_true] <;> omega

theorem KBefore.trans {fwd : Bool} {a b c : Bytes} (h1 : KBefore fwd a b) (h2 : KBefore fwd b c) : KBefore fwd a c := by
  cases fwd
  · exact lexLt_trans (b := b) h2 h1
  · exact lexLt_trans (b := b) h1 h2

theorem KBefore.irrefl (fwd : Bool) (a : Bytes) : ¬ KBefore fwd a a := by
  cases fwd <;> exact lexLt_irrefl a

theorem KBefore.tri (fwd : Bool) (a b : Bytes) : KBefore fwd a b ∨ a = b ∨ KBefore fwd b a := by
  cases fwd
  · rcases lexLt_trichotomy a b with h | h | h
    · exact Or.inr (Or.inr h)
    · exact Or.inr (Or.inl h)
    · exact Or.inl h
  · exact lexLt_trichotomy a b

theorem kbefore_append {fwd : Bool} (p a b : Bytes) : KBefore fwd (p ++ a) (p ++ b) ↔ KBefore fwd a b := by
  cases fwd
  · exact lexLt_append_left p b a
  · exact lexLt_append_left p a b

theorem pos_div (k : Bytes) : pos k / 16 = slice k := by unfold pos; omega
theorem pos_mod (k : Bytes) : pos k % 16 = min k.length 9 := by unfold pos; omega
theorem pos_lt (k : Bytes) : pos k < 16 * 2 ^ 64 := by
  have := slice_lt k
  unfold pos; omega

theorem lexLt_of_pos {a b : Bytes} (h : pos a < pos b) : LexLt a b := by
  unfold pos at h
  rcases Nat.lt_trichotomy (slice a) (slice b) with h1 | h1 | h1
  · exact lexLt_of_slice_lt h1
  · exact lexLt_of_pad_eq (pad_eq_of_slice_eq h1) (by omega) (by omega)
  · omega

theorem kbefore_of_pos {fwd : Bool} {a b : Bytes} (h : Before fwd (pos a) (pos b)) : KBefore fwd a b := by
  cases fwd <;> exact lexLt_of_pos h

theorem eq_of_pos {a b : Bytes} (h : pos a = pos b) (hl : a.length ≤ 8) : a = b := by
  have h1 : slice a = slice b := by rw [← pos_div, ← pos_div, h]
  have h2 : min a.length 9 = min b.length 9 := by rw [← pos_mod, ← pos_mod, h]
  exact eq_of_pad_eq (pad_eq_of_slice_eq h1) hl (by omega)

theorem take_of_pos {a b : Bytes} (h : pos a = pos b) (hl : 8 < a.length) : 8 < b.length ∧ a.take 8 = b.take 8 := by
  have h1 : slice a = slice b := by rw [← pos_div, ← pos_div, h]
  have h2 : min a.length 9 = min b.length 9 := by rw [← pos_mod, ← pos_mod, h]
  have h3 : 8 < b.length := by omega
  exact ⟨h3, take_eq_of_pad_eq (pad_eq_of_slice_eq h1) (by omega) (by omega)⟩

/-- Keys at the same position compare as what follows the slice. -/
theorem kbefore_drop {fwd : Bool} {a b : Bytes} (h : pos a = pos b) : KBefore fwd a b ↔ KBefore fwd (a.drop 8) (b.drop 8) := by
  by_cases hl : a.length ≤ 8
  · rw [eq_of_pos h hl]
    exact ⟨fun h => absurd h (KBefore.irrefl _ _), fun h => absurd h (KBefore.irrefl _ _)⟩
  · obtain ⟨_, h1⟩ := take_of_pos h (by omega)
    conv_lhs => rw [← List.take_append_drop 8 a, ← List.take_append_drop 8 b, h1]
    exact kbefore_append _ _ _

theorem eq_of_drop {a b : Bytes} (h : pos a = pos b) (hd : a.drop 8 = b.drop 8) : a = b := by
  by_cases hl : a.length ≤ 8
  · exact eq_of_pos h hl
  · rw [← List.take_append_drop 8 a, ← List.take_append_drop 8 b, (take_of_pos h (by omega)).2, hd]

theorem keyAt_pos (k : Bytes) : keyAt (pos k) = k.take 8 := by
  unfold keyAt
  rw [pos_div, pos_mod, Trie.ikeyBytes_slice]
  by_cases h : k.length ≤ 8
  · rw [Nat.min_eq_left (by omega), Trie.pad8_take h, List.take_of_length_le h]
  · rw [Nat.min_eq_right (by omega), Trie.pad8_full (by omega), List.take_take]
    rfl

/-- The key for a position in a layer, with what follows. -/
theorem Slot.pos {p : Nat} (h : Slot p) {κ : Bytes} (hκ : κ ≠ []) : pos (keyAt p ++ κ) = p ∧ (keyAt p).length = 8 := by
  obtain ⟨k, hk, rfl⟩ := h
  have h1 : keyAt (16 * slice k + 9) = k := by
    unfold keyAt
    rw [show (16 * slice k + 9) / 16 = slice k by omega, show (16 * slice k + 9) % 16 = 9 by omega, Trie.ikeyBytes_slice,
      Trie.pad8_full (by omega), List.take_take, List.take_of_length_le (by omega)]
  rw [h1]
  refine ⟨?_, hk⟩
  unfold Range.pos
  rw [Trie.slice_append hk, List.length_append, hk]
  have : 0 < κ.length := List.length_pos_iff.2 hκ
  omega

theorem Slot.mod {p : Nat} (h : Slot p) : p % 16 = 9 := by
  obtain ⟨k, hk, rfl⟩ := h
  omega

theorem Slot.long {k : Bytes} (h : Slot (Range.pos k)) : 8 < k.length := by
  have h1 := h.mod
  rw [pos_mod] at h1
  omega

end Verif.Range
