import Verif.Key.Model
import Verif.Key.Order
/-
Arithmetic of byte strings as little- and big-endian numbers, and the relation between
slices and byte-lexicographic order.
-/
namespace Verif.Key

theorem leNat_append (xs ys : Bytes) : leNat (xs ++ ys) = leNat xs + 256 ^ xs.length * leNat ys := by
  induction xs with
  | nil => simp [leNat]
  | cons x xs ih =>
    simp only [List.cons_append, leNat, ih, List.length_cons, Nat.pow_succ]
    rw [Nat.mul_add, Nat.mul_comm (256 ^ xs.length) 256, Nat.mul_assoc, Nat.add_assoc]

theorem leNat_lt (xs : Bytes) : leNat xs < 256 ^ xs.length := by
  induction xs with
  | nil => simp [leNat]
  | cons x xs ih =>
    have := x.toNat_lt
    simp only [leNat, List.length_cons, Nat.pow_succ]
    omega

theorem leNat_inj {xs ys : Bytes} (hl : xs.length = ys.length) (h : leNat xs = leNat ys) :
    xs = ys := by
  induction xs generalizing ys with
  | nil => cases ys with
    | nil => rfl
    | cons => simp at hl
  | cons x xs ih => cases ys with
    | nil => simp at hl
    | cons y ys =>
      simp only [leNat] at h
      have h1 := x.toNat_lt; have h2 := y.toNat_lt
      have hx : x = y := UInt8.toNat_inj.mp (by omega)
      have ht : leNat xs = leNat ys := by omega
      rw [hx, ih (by simpa using hl) ht]

theorem leNat_replicate_zero (n : Nat) : leNat (List.replicate n 0) = 0 := by
  induction n with
  | zero => rfl
  | succ n ih => simp [List.replicate_succ, leNat, ih]

theorem leNat_div (xs ys : Bytes) : leNat (xs ++ ys) / 256 ^ xs.length = leNat ys := by
  rw [leNat_append, Nat.add_mul_div_left _ _ (Nat.pos_of_ne_zero (by simp)),
    Nat.div_eq_of_lt (leNat_lt xs), Nat.zero_add]

theorem leNat_mod (xs ys : Bytes) : leNat (xs ++ ys) % 256 ^ xs.length = leNat xs := by
  rw [leNat_append, Nat.add_mul_mod_self_left, Nat.mod_eq_of_lt (leNat_lt xs)]

@[simp] theorem bytesAt_length (m : Mem) (a : Int) (n : Nat) : (bytesAt m a n).length = n := by
  simp [bytesAt]

theorem bytesAt_add (m : Mem) (a : Int) (n k : Nat) :
    bytesAt m a (n + k) = bytesAt m a n ++ bytesAt m (a + n) k := by
  apply List.ext_getElem
  · simp
  · intro i h1 h2
    simp only [bytesAt, List.getElem_map, List.getElem_range, List.getElem_append, List.length_map,
      List.length_range]
    split
    · rfl
    · congr 1; omega

theorem toNat_load64 (m : Mem) (a : Int) : (load64 m a).toNat = leNat (bytesAt m a 8) := by
  unfold load64
  rw [BitVec.toNat_ofNat]
  apply Nat.mod_eq_of_lt
  have := leNat_lt (bytesAt m a 8)
  rw [bytesAt_length] at this
  exact this

theorem store64_of_leNat {bs : Bytes} (h : bs.length = 8) :
    store64 (BitVec.ofNat 64 (leNat bs)) = bs := by
  have hlt := leNat_lt bs
  rw [h] at hlt
  unfold store64
  rw [BitVec.toNat_ofNat, Nat.mod_eq_of_lt (show leNat bs < 2 ^ 64 from hlt)]
  apply List.ext_getElem
  · simp [h]
  · intro i h1 h2
    simp only [List.getElem_map, List.getElem_range]
    apply UInt8.toNat_inj.mp
    rw [UInt8.toNat_ofNat']
    have e : bs = bs.take i ++ bs[i] :: bs.drop (i + 1) := by
      rw [List.getElem_cons_drop, List.take_append_drop]
    have hl : (bs.take i).length = i := by rw [List.length_take]; omega
    have : leNat bs / 256 ^ i = leNat (bs[i] :: bs.drop (i + 1)) := by
      conv => lhs; rw [e]
      have := leNat_div (bs.take i) (bs[i] :: bs.drop (i + 1))
      rwa [hl] at this
    rw [this]
    simp only [leNat]
    have := (bs[i]).toNat_lt
    omega

theorem store64_length (w : BitVec 64) : (store64 w).length = 8 := by simp [store64]

theorem bswap_of_leNat {bs : Bytes} (h : bs.length = 8) :
    bswap (BitVec.ofNat 64 (leNat bs)) = BitVec.ofNat 64 (beNat bs) := by
  unfold bswap beNat
  rw [store64_of_leNat h]

/-! ### `pad`: slices by recursion -/

/-- `pad8` generalised to any width, by recursion. -/
def pad : Nat → Bytes → Bytes
  | 0, _ => []
  | n + 1, [] => 0 :: pad n []
  | n + 1, x :: xs => x :: pad n xs

theorem pad_eq (n : Nat) (k : Bytes) : pad n k = k.take n ++ List.replicate (n - k.length) 0 := by
  induction n generalizing k with
  | zero => simp [pad]
  | succ n ih =>
    cases k with
    | nil => simp [pad, ih, List.replicate_succ]
    | cons x xs => simp [pad, ih]

theorem pad8_eq (k : Bytes) : pad8 k = pad 8 k := by rw [pad_eq]; rfl

@[simp] theorem pad_length (n : Nat) (k : Bytes) : (pad n k).length = n := by
  induction n generalizing k with
  | zero => rfl
  | succ n ih => cases k <;> simp [pad, ih]

theorem pad8_length (k : Bytes) : (pad8 k).length = 8 := by rw [pad8_eq, pad_length]

theorem beNat_lt (xs : Bytes) : beNat xs < 256 ^ xs.length := by
  have := leNat_lt xs.reverse; rwa [List.length_reverse] at this

theorem beNat_cons (x : UInt8) (xs : Bytes) :
    beNat (x :: xs) = x.toNat * 256 ^ xs.length + beNat xs := by
  unfold beNat
  rw [List.reverse_cons, leNat_append]
  simp only [leNat, List.length_reverse, Nat.mul_zero, Nat.add_zero]
  rw [Nat.mul_comm, Nat.add_comm]

theorem beNat_inj {xs ys : Bytes} (hl : xs.length = ys.length) (h : beNat xs = beNat ys) :
    xs = ys := by
  have := leNat_inj (xs := xs.reverse) (ys := ys.reverse) (by simp [hl]) h
  exact List.reverse_inj.mp this

/-- On strings of equal length, big-endian value order is lexicographic order. -/
theorem beNat_lt_iff {xs ys : Bytes} (hl : xs.length = ys.length) :
    beNat xs < beNat ys ↔ LexLt xs ys := by
  induction xs generalizing ys with
  | nil => cases ys with
    | nil => simp
    | cons => simp at hl
  | cons x xs ih => cases ys with
    | nil => simp at hl
    | cons y ys =>
      have hl' : xs.length = ys.length := by simpa using hl
      rw [beNat_cons, beNat_cons, lexLt_cons_cons, ← ih hl', hl']
      have h1 := beNat_lt xs; have h2 := beNat_lt ys
      rw [hl'] at h1
      rw [UInt8.lt_iff_toNat_lt, ← UInt8.toNat_inj]
      generalize 256 ^ ys.length = P at *
      generalize x.toNat = a at *
      generalize y.toNat = b at *
      constructor
      · intro h
        rcases Nat.lt_trichotomy a b with hab | hab | hab
        · exact Or.inl hab
        · subst hab; exact Or.inr ⟨rfl, by omega⟩
        · have : b * P + P ≤ a * P := by
            rw [← Nat.succ_mul]; exact Nat.mul_le_mul_right P hab
          omega
      · rintro (hab | ⟨rfl, h⟩)
        · have : a * P + P ≤ b * P := by
            rw [← Nat.succ_mul]; exact Nat.mul_le_mul_right P hab
          omega
        · omega

theorem slice_lt (k : Bytes) : slice k < 2 ^ 64 := by
  have := beNat_lt (pad8 k); rw [pad8_length] at this; exact this

theorem lexLt_of_pad {n : Nat} {a b : Bytes} (h : LexLt (pad n a) (pad n b)) : LexLt a b := by
  induction n generalizing a b with
  | zero => exact absurd h (lexLt_irrefl _)
  | succ n ih =>
    cases a with
    | nil =>
      cases b with
      | nil => exact absurd h (lexLt_irrefl _)
      | cons => trivial
    | cons x xs =>
      cases b with
      | nil =>
        simp only [pad, lexLt_cons_cons] at h
        rcases h with h | ⟨_, h⟩
        · rw [UInt8.lt_iff_toNat_lt] at h; simp at h
        · exact absurd (ih h) (lexLt_nil_right _)
      | cons y ys =>
        simp only [pad, lexLt_cons_cons] at h ⊢
        rcases h with h | ⟨h1, h⟩
        · exact Or.inl h
        · exact Or.inr ⟨h1, ih h⟩

theorem lexLt_of_pad_eq {n : Nat} {a b : Bytes} (h : pad n a = pad n b) (hl : a.length ≤ n)
    (hlt : a.length < b.length) : LexLt a b := by
  induction n generalizing a b with
  | zero =>
    cases a with
    | nil => cases b with
      | nil => simp at hlt
      | cons => trivial
    | cons => simp at hl
  | succ n ih =>
    cases a with
    | nil => cases b with
      | nil => simp at hlt
      | cons => trivial
    | cons x xs => cases b with
      | nil => simp at hlt
      | cons y ys =>
        simp only [pad, List.cons.injEq] at h
        exact Or.inr ⟨h.1, ih h.2 (by simpa using hl) (by simpa using hlt)⟩

theorem eq_of_pad_eq {n : Nat} {a b : Bytes} (h : pad n a = pad n b) (hl : a.length ≤ n)
    (hlt : a.length = b.length) : a = b := by
  rw [pad_eq, pad_eq] at h
  have := List.append_inj_left h (by simp [hlt])
  rwa [List.take_of_length_le hl, List.take_of_length_le (by omega)] at this

theorem take_eq_of_pad_eq {n : Nat} {a b : Bytes} (h : pad n a = pad n b) (ha : n ≤ a.length)
    (hb : n ≤ b.length) : a.take n = b.take n := by
  rw [pad_eq, pad_eq] at h
  exact List.append_inj_left h (by simp; omega)

theorem pad_eq_of_slice_eq {a b : Bytes} (h : slice a = slice b) : pad 8 a = pad 8 b := by
  rw [← pad8_eq, ← pad8_eq]
  exact beNat_inj (by rw [pad8_length, pad8_length]) h

theorem lexLt_of_slice_lt {a b : Bytes} (h : slice a < slice b) : LexLt a b := by
  unfold slice at h
  rw [beNat_lt_iff (by rw [pad8_length, pad8_length]), pad8_eq, pad8_eq] at h
  exact lexLt_of_pad h

theorem slice_take8 (a : Bytes) : slice (a.take 8) = slice a := by
  have : pad8 (a.take 8) = pad8 a := by
    unfold pad8
    rw [List.take_take, Nat.min_self, List.length_take]
    congr 2; omega
  unfold slice; rw [this]

end Verif.Key
