import Verif.Permuter.Model

/-! Bit-level lemmas about the permuter model: every operation is described nibble by
nibble, for all 64-bit words. -/

set_option linter.unusedSectionVars false

namespace Verif.Permuter

/-- Nibble `k` of a word (nibble 0 is the size, nibble `i+1` is element `i`). -/
def nib (x : Word) (k : Nat) : Nat := (x >>> (4 * k) &&& 15#64).toNat

theorem size_eq_nib (x : Word) : size x = nib x 0 := by
  simp [size, nib]

theorem get_eq_nib (x : Word) (i : Nat) : get x i = nib x (i + 1) := by
  simp only [get, nib, Nat.mul_add, Nat.mul_one]

theorem testBit_15 (b : Nat) : Nat.testBit 15 b = decide (b < 4) := by
  have := Nat.testBit_two_pow_sub_one 4 b
  simpa using this

theorem nib_testBit (x : Word) (k b : Nat) :
    (nib x k).testBit b = (decide (b < 4) && x.getLsbD (4 * k + b)) := by
  unfold nib
  rw [BitVec.testBit_toNat, BitVec.getLsbD_and, BitVec.getLsbD_ushiftRight, BitVec.getLsbD_ofNat,
    testBit_15]
  by_cases h : b < 4
  · have : b < 64 := by omega
    simp [h, this]
  · simp [h]

theorem nib_lt (x : Word) (k : Nat) : nib x k < 16 := by
  unfold nib
  rw [BitVec.toNat_and]
  exact Nat.lt_of_le_of_lt Nat.and_le_right (by decide)

theorem nib_eq_of {x y : Word} {k m : Nat}
    (h : ∀ b, b < 4 → x.getLsbD (4 * k + b) = y.getLsbD (4 * m + b)) : nib x k = nib y m := by
  apply Nat.eq_of_testBit_eq
  intro b
  rw [nib_testBit, nib_testBit]
  by_cases hb : b < 4
  · simp [hb, h b hb]
  · simp [hb]

theorem nib_eq_of_nat {x : Word} {k n : Nat} (hn : n < 16)
    (h : ∀ b, b < 4 → x.getLsbD (4 * k + b) = n.testBit b) : nib x k = n := by
  apply Nat.eq_of_testBit_eq
  intro b
  rw [nib_testBit]
  by_cases hb : b < 4
  · simp [hb, h b hb]
  · have : n.testBit b = false := by
      apply Nat.testBit_lt_two_pow
      calc n < 2 ^ 4 := hn
        _ ≤ 2 ^ b := Nat.pow_le_pow_right (by decide) (by omega)
    simp [hb, this]

/-- Two words agree iff all sixteen nibbles agree. -/
theorem eq_of_nib {x y : Word} (h : ∀ k, k < 16 → nib x k = nib y k) : x = y := by
  apply BitVec.eq_of_getLsbD_eq
  intro i hi
  have h1 := h (i / 4) (by omega)
  have h2 := congrArg (fun n => Nat.testBit n (i % 4)) h1
  simp only [nib_testBit] at h2
  have h3 : i % 4 < 4 := by omega
  have h4 : 4 * (i / 4) + i % 4 = i := by omega
  simpa [h3, h4] using h2

/-- The mask `(2^m << n) - 1` has exactly the low `m+n` bits set. -/
theorem getLsbD_mask (c : Word) (m n j : Nat) (hc : c.toNat = 2 ^ m) (hj : j < 64) :
    ((c <<< n) - 1#64).getLsbD j = decide (j < m + n) := by
  have hm : m < 64 := by
    have := c.isLt
    rw [hc] at this
    exact (Nat.pow_lt_pow_iff_right (by decide)).1 this
  by_cases h : m + n < 64
  · have e : ((c <<< n) - 1#64).toNat = 2 ^ (m + n) - 1 := by
      have hs : (c <<< n).toNat = 2 ^ (m + n) := by
        rw [BitVec.toNat_shiftLeft, hc, Nat.shiftLeft_eq, ← Nat.pow_add, Nat.mod_eq_of_lt]
        exact Nat.pow_lt_pow_right (by decide) h
      have hp : 0 < 2 ^ (m + n) := Nat.pow_pos (by decide)
      have hlt : 2 ^ (m + n) < 2 ^ 64 := Nat.pow_lt_pow_right (by decide) h
      rw [BitVec.toNat_sub, hs]
      simp only [BitVec.toNat_ofNat]
      omega
    rw [← BitVec.testBit_toNat, e, Nat.testBit_two_pow_sub_one]
  · have e : c <<< n = 0#64 := by
      apply BitVec.eq_of_toNat_eq
      rw [BitVec.toNat_shiftLeft, hc, Nat.shiftLeft_eq, ← Nat.pow_add]
      simp only [BitVec.toNat_ofNat]
      rw [Nat.zero_mod]
      exact Nat.mod_eq_zero_of_dvd (Nat.pow_dvd_pow 2 (by omega))
    rw [e]
    have h1 : (0#64 - 1#64) = BitVec.allOnes 64 := by decide
    rw [h1, BitVec.getLsbD_allOnes]
    have : j < m + n := by omega
    simp [hj, this]

theorem mask16 (n j : Nat) (hj : j < 64) :
    ((16#64 <<< n) - 1#64).getLsbD j = decide (j < 4 + n) :=
  getLsbD_mask _ 4 n j (by decide) hj

theorem mask256 (n j : Nat) (hj : j < 64) :
    ((256#64 <<< n) - 1#64).getLsbD j = decide (j < 8 + n) :=
  getLsbD_mask _ 8 n j (by decide) hj

theorem size_eq_mod (x : Word) : size x = x.toNat % 16 := by
  unfold size
  rw [BitVec.toNat_and]
  exact Nat.and_two_pow_sub_one_eq_mod x.toNat 4

/-- Incrementing the word increments the size nibble and nothing else. -/
theorem getLsbD_succ (x : Word) (h : size x < 15) (j : Nat) (hj : 4 ≤ j) :
    (x + 1#64).getLsbD j = x.getLsbD j := by
  rw [size_eq_mod] at h
  rw [← BitVec.testBit_toNat, ← BitVec.testBit_toNat]
  have hx := x.isLt
  have e : (x + 1#64).toNat = x.toNat + 1 := by
    rw [BitVec.toNat_add]
    simp only [BitVec.toNat_ofNat]
    omega
  have hj' : j = 4 + (j - 4) := by omega
  rw [e, hj', ← Nat.testBit_shiftRight, ← Nat.testBit_shiftRight]
  congr 1
  rw [Nat.shiftRight_eq_div_pow, Nat.shiftRight_eq_div_pow]
  omega

theorem size_succ (x : Word) (h : size x < 15) : nib (x + 1#64) 0 = size x + 1 := by
  rw [← size_eq_nib, size_eq_mod, size_eq_mod]
  rw [size_eq_mod] at h
  rw [BitVec.toNat_add]
  simp only [BitVec.toNat_ofNat]
  omega

theorem getLsbD_pred (x : Word) (h : 0 < size x) (j : Nat) (hj : 4 ≤ j) :
    (x - 1#64).getLsbD j = x.getLsbD j := by
  rw [size_eq_mod] at h
  rw [← BitVec.testBit_toNat, ← BitVec.testBit_toNat]
  have hx := x.isLt
  have e : (x - 1#64).toNat = x.toNat - 1 := by
    rw [BitVec.toNat_sub]
    simp only [BitVec.toNat_ofNat]
    omega
  have hj' : j = 4 + (j - 4) := by omega
  rw [e, hj', ← Nat.testBit_shiftRight, ← Nat.testBit_shiftRight]
  congr 1
  rw [Nat.shiftRight_eq_div_pow, Nat.shiftRight_eq_div_pow]
  omega

theorem size_pred (x : Word) (h : 0 < size x) : nib (x - 1#64) 0 = size x - 1 := by
  rw [← size_eq_nib, size_eq_mod, size_eq_mod]
  rw [size_eq_mod] at h
  have hx := x.isLt
  rw [BitVec.toNat_sub]
  simp only [BitVec.toNat_ofNat]
  omega

theorem nib0_bits {x y : Word} (h : ∀ b, b < 4 → x.getLsbD b = y.getLsbD b) :
    nib x 0 = nib y 0 := nib_eq_of (by simpa using h)

theorem getLsbD_ofNat_nib {v : Nat} (hv : v < 16) (k s : Nat) (hs : s < 64) :
    (BitVec.ofNat 64 v <<< (4 * k)).getLsbD s
      = (decide (4 * k ≤ s) && decide (s < 4 * k + 4) && v.testBit (s - 4 * k)) := by
  rw [BitVec.getLsbD_shiftLeft, BitVec.getLsbD_ofNat]
  by_cases h1 : s < 4 * k
  · have : ¬ (4 * k ≤ s) := by omega
    simp [h1, this]
  · have h1' : 4 * k ≤ s := by omega
    have h2 : s - 4 * k < 64 := by omega
    by_cases h3 : s < 4 * k + 4
    · simp [h1, h1', h2, h3, hs]
    · have : v.testBit (s - 4 * k) = false := by
        apply Nat.testBit_lt_two_pow
        calc v < 2 ^ 4 := hv
          _ ≤ 2 ^ (s - 4 * k) := Nat.pow_le_pow_right (by decide) (by omega)
      simp [this]

/-! ### insert_from_back -/

section insert
variable (x : Word) (i : Nat) (hi : i < 15) (hs : size x < 15)
include hi hs

theorem insert_bits (j : Nat) (hj : j < 64) :
    (insertFromBack x i).1.getLsbD j =
      if j < 4 + 4 * i then (x + 1#64).getLsbD j
      else if j < 8 + 4 * i then x.getLsbD (60 + (j - (4 * i + 4)))
      else x.getLsbD (j - 4) := by
  have hb : back x < 16 := by unfold back; rw [get_eq_nib]; exact nib_lt _ _
  simp only [insertFromBack, BitVec.getLsbD_or, BitVec.getLsbD_and, BitVec.getLsbD_not,
    mask16 _ _ hj, mask256 _ _ hj]
  have e : 4 * i + 4 = 4 * (i + 1) := by omega
  rw [e, getLsbD_ofNat_nib hb _ _ hj, BitVec.getLsbD_shiftLeft]
  have hbt : ∀ b, (back x).testBit b = (decide (b < 4) && x.getLsbD (60 + b)) := by
    intro b
    unfold back
    rw [get_eq_nib, nib_testBit]
    simp [W]
  rw [hbt]
  by_cases h1 : j < 4 + 4 * i
  · have a1 : ¬ (4 * (i + 1) ≤ j) := by omega
    have a2 : j < 8 + 4 * i := by omega
    simp [h1, a1, a2]
  · by_cases h2 : j < 8 + 4 * i
    · have a1 : 4 * (i + 1) ≤ j := by omega
      have a2 : j < 4 * (i + 1) + 4 := by omega
      have a3 : j - 4 * (i + 1) < 4 := by omega
      simp [h1, h2, a1, a2, a3]
    · have a2 : ¬ (j < 4 * (i + 1) + 4) := by omega
      have a4 : ¬ (j < 4) := by omega
      simp [h1, h2, a2, a4, hj]

theorem insert_size : size (insertFromBack x i).1 = size x + 1 := by
  rw [size_eq_nib, ← size_succ x hs]
  apply nib0_bits
  intro b hb
  rw [insert_bits x i hi hs b (by omega), if_pos (by omega)]

theorem insert_get (j : Nat) (hj : j < 15) :
    get (insertFromBack x i).1 j =
      if j < i then get x j else if j = i then back x else get x (j - 1) := by
  unfold back
  simp only [get_eq_nib]
  by_cases h1 : j < i
  · rw [if_pos h1]
    apply nib_eq_of
    intro b hb
    rw [insert_bits x i hi hs _ (by omega), if_pos (by omega)]
    exact getLsbD_succ x hs _ (by omega)
  · rw [if_neg h1]
    by_cases h2 : j = i
    · subst h2
      rw [if_pos rfl]
      apply nib_eq_of
      intro b hb
      rw [insert_bits x j hi hs _ (by omega), if_neg (by omega), if_pos (by omega)]
      congr 1
      simp only [W]; omega
    · rw [if_neg h2]
      apply nib_eq_of
      intro b hb
      rw [insert_bits x i hi hs _ (by omega), if_neg (by omega), if_neg (by omega)]
      congr 1
      omega

end insert

/-! ### insert_selected -/

section insertSelected
variable (x : Word) (di si : Nat) (hd : di ≤ si) (hsi : si < 15) (hs : size x < 15)
include hd hsi hs

theorem insertSelected_bits (j : Nat) (hj : j < 64) :
    (insertSelected x di si).getLsbD j =
      if j < 4 + 4 * di then (x + 1#64).getLsbD j
      else if j < 8 + 4 * di then x.getLsbD (4 * si + 4 + (j - (4 * di + 4)))
      else if j < 8 + 4 * si then x.getLsbD (j - 4)
      else x.getLsbD j := by
  have hb : get x si < 16 := by rw [get_eq_nib]; exact nib_lt _ _
  simp only [insertSelected, BitVec.getLsbD_or, BitVec.getLsbD_and, BitVec.getLsbD_not,
    mask16 _ _ hj, mask256 _ _ hj]
  have e : 4 * di + 4 = 4 * (di + 1) := by omega
  rw [e, getLsbD_ofNat_nib hb _ _ hj, BitVec.getLsbD_shiftLeft]
  have hbt : ∀ b, (get x si).testBit b = (decide (b < 4) && x.getLsbD (4 * si + 4 + b)) := by
    intro b
    rw [get_eq_nib, nib_testBit]
    simp [Nat.mul_add]
  rw [hbt]
  by_cases h1 : j < 4 + 4 * di
  · have a1 : ¬ (4 * (di + 1) ≤ j) := by omega
    have a2 : j < 8 + 4 * di := by omega
    have a3 : j < 8 + 4 * si := by omega
    simp [h1, a1, a2, a3]
  · by_cases h2 : j < 8 + 4 * di
    · have a1 : 4 * (di + 1) ≤ j := by omega
      have a2 : j < 4 * (di + 1) + 4 := by omega
      have a3 : j - 4 * (di + 1) < 4 := by omega
      have a4 : j < 8 + 4 * si := by omega
      simp [h1, h2, a1, a2, a3, a4]
    · have a2 : ¬ (j < 4 * (di + 1) + 4) := by omega
      have a4 : ¬ (j < 4) := by omega
      by_cases h3 : j < 8 + 4 * si
      · simp [h1, h2, h3, a2, a4, hj]
      · simp [h1, h2, h3, a2, hj]

theorem insertSelected_size : size (insertSelected x di si) = size x + 1 := by
  rw [size_eq_nib, ← size_succ x hs]
  apply nib0_bits
  intro b hb
  rw [insertSelected_bits x di si hd hsi hs b (by omega), if_pos (by omega)]

theorem insertSelected_get (j : Nat) (hj : j < 15) :
    get (insertSelected x di si) j =
      if j < di then get x j else if j = di then get x si
      else if j ≤ si then get x (j - 1) else get x j := by
  simp only [get_eq_nib]
  by_cases h1 : j < di
  · rw [if_pos h1]
    apply nib_eq_of
    intro b hb
    rw [insertSelected_bits x di si hd hsi hs _ (by omega), if_pos (by omega)]
    exact getLsbD_succ x hs _ (by omega)
  · rw [if_neg h1]
    by_cases h2 : j = di
    · subst h2
      rw [if_pos rfl]
      apply nib_eq_of
      intro b hb
      rw [insertSelected_bits x j si hd hsi hs _ (by omega), if_neg (by omega), if_pos (by omega)]
      congr 1
      omega
    · rw [if_neg h2]
      by_cases h3 : j ≤ si
      · rw [if_pos h3]
        apply nib_eq_of
        intro b hb
        rw [insertSelected_bits x di si hd hsi hs _ (by omega), if_neg (by omega),
          if_neg (by omega), if_pos (by omega)]
        congr 1
        omega
      · rw [if_neg h3]
        apply nib_eq_of
        intro b hb
        rw [insertSelected_bits x di si hd hsi hs _ (by omega), if_neg (by omega),
          if_neg (by omega), if_neg (by omega)]

end insertSelected

/-! ### remove -/

theorem rotMask_bits (n s j : Nat) (hj : j < 64) :
    (((16#64 <<< n) - 1#64) <<< s).getLsbD j = (decide (s ≤ j) && decide (j < 4 + n + s)) := by
  rw [BitVec.getLsbD_shiftLeft]
  by_cases h1 : j < s
  · have : ¬ (s ≤ j) := by omega
    simp [h1, this]
  · have h1' : s ≤ j := by omega
    rw [mask16 _ _ (by omega)]
    by_cases h2 : j < 4 + n + s
    · have : j - s < 4 + n := by omega
      simp [h1, h1', h2, hj, this]
    · have : ¬ (j - s < 4 + n) := by omega
      simp [h2, this]

section remove
variable (x : Word) (i : Nat) (hi : i < size x)
include hi

theorem remove_bits (j : Nat) (hj : j < 64) :
    (remove x i).getLsbD j =
      if j < 4 * (i + 1) then (x - 1#64).getLsbD j
      else if j < 4 * size x then x.getLsbD (j + 4)
      else if j < 4 * size x + 4 then x.getLsbD (j - 4 * (size x - i - 1))
      else x.getLsbD j := by
  have hsz : size x < 16 := by rw [size_eq_nib]; exact nib_lt _ _
  unfold remove
  have hsd : (x &&& 15#64).toNat = size x := rfl
  rw [hsd]
  by_cases h0 : size x = i + 1
  · rw [if_pos h0]
    have hp : 0 < size x := by omega
    by_cases h1 : j < 4 * (i + 1)
    · rw [if_pos h1]
    · rw [if_neg h1, if_neg (by omega), getLsbD_pred x hp _ (by omega)]
      split
      · congr 1; omega
      · rfl
  · rw [if_neg h0]
    have hp : 0 < size x := by omega
    have hM : ∀ j, ((((16#64 <<< (4 * (size x - i - 1))) - 1#64) <<< (4 * (i + 1))).getLsbD j)
        = (decide (j < 64) && decide (4 * (i + 1) ≤ j) && decide (j < 4 * size x + 4)) := by
      intro j
      by_cases hj : j < 64
      · rw [rotMask_bits _ _ _ hj]
        have : (j < 4 + 4 * (size x - i - 1) + 4 * (i + 1)) = (j < 4 * size x + 4) := by
          apply propext; omega
        simp [hj, this]
      · rw [BitVec.getLsbD_of_ge _ _ (by omega)]; simp [hj]
    dsimp only
    generalize ((16#64 <<< (4 * (size x - i - 1))) - 1#64) <<< (4 * (i + 1)) = M at hM ⊢
    simp only [BitVec.getLsbD_or, BitVec.getLsbD_and, BitVec.getLsbD_not,
      BitVec.getLsbD_ushiftRight, BitVec.getLsbD_shiftLeft, hM, hj, decide_true, Bool.true_and]
    by_cases h1 : j < 4 * (i + 1)
    · have a1 : ¬ (4 * (i + 1) ≤ j) := by omega
      simp [h1, a1]
    · have a1 : 4 * (i + 1) ≤ j := by omega
      rw [if_neg h1]
      by_cases h2 : j < 4 * size x
      · rw [if_pos h2]
        have b1 : j < 4 * size x + 4 := by omega
        have b2 : 4 * (i + 1) ≤ 4 + j := by omega
        have b3 : 4 + j < 64 := by omega
        have b4 : ¬ (4 * (i + 1) ≤ j - 4 * (size x - i - 1)) := by omega
        have b5 : 4 + j < 4 * size x + 4 := by omega
        simp only [a1, b1, b2, b3, b4, b5, decide_true, decide_false]
        simp [Nat.add_comm]
      · rw [if_neg h2]
        by_cases h3 : j < 4 * size x + 4
        · rw [if_pos h3]
          have b3 : ¬ (4 + j < 4 * size x + 4) := by omega
          have b5 : ¬ (j < 4 * (size x - i - 1)) := by omega
          have b6 : 4 * (i + 1) ≤ j - 4 * (size x - i - 1) := by omega
          have b7 : j - 4 * (size x - i - 1) < 4 * size x + 4 := by omega
          have b8 : j - 4 * (size x - i - 1) < 64 := by omega
          simp only [a1, h3, b3, b5, b6, b7, b8, decide_true, decide_false]
          simp
        · rw [if_neg h3]
          simp only [h3, decide_false]
          simp
          exact getLsbD_pred x hp _ (by omega)

theorem remove_size : size (remove x i) = size x - 1 := by
  rw [size_eq_nib, ← size_pred x (by omega)]
  apply nib0_bits
  intro b hb
  rw [remove_bits x i hi b (by omega), if_pos (by omega)]

theorem remove_get (j : Nat) (hj : j < 15) :
    get (remove x i) j =
      if j < i then get x j else if j + 1 < size x then get x (j + 1)
      else if j + 1 = size x then get x i else get x j := by
  have hsz : size x < 16 := by rw [size_eq_nib]; exact nib_lt _ _
  simp only [get_eq_nib]
  by_cases h1 : j < i
  · rw [if_pos h1]
    apply nib_eq_of
    intro b hb
    rw [remove_bits x i hi _ (by omega), if_pos (by omega)]
    exact getLsbD_pred x (by omega) _ (by omega)
  · rw [if_neg h1]
    by_cases h2 : j + 1 < size x
    · rw [if_pos h2]
      apply nib_eq_of
      intro b hb
      rw [remove_bits x i hi _ (by omega), if_neg (by omega), if_pos (by omega)]
      congr 1
      try omega
    · rw [if_neg h2]
      by_cases h3 : j + 1 = size x
      · rw [if_pos h3]
        apply nib_eq_of
        intro b hb
        rw [remove_bits x i hi _ (by omega), if_neg (by omega), if_neg (by omega),
          if_pos (by omega)]
        congr 1
        omega
      · rw [if_neg h3]
        apply nib_eq_of
        intro b hb
        rw [remove_bits x i hi _ (by omega), if_neg (by omega), if_neg (by omega),
          if_neg (by omega)]

end remove

/-! ### remove_to_back -/

theorem and_fullmask (x : Word) : x &&& ((16#64 <<< (4 * W)) - 1#64) = x := by
  have : (16#64 <<< (4 * W)) - 1#64 = BitVec.allOnes 64 := by decide
  rw [this, BitVec.and_allOnes]

section removeToBack
variable (x : Word) (i : Nat) (hi : i < size x)
include hi

theorem removeToBack_bits (j : Nat) (hj : j < 64) :
    (removeToBack x i).getLsbD j =
      if j < 4 * (i + 1) then (x - 1#64).getLsbD j
      else if j < 60 then x.getLsbD (j + 4)
      else x.getLsbD (j - 4 * (14 - i)) := by
  have hsz : size x < 16 := by rw [size_eq_nib]; exact nib_lt _ _
  unfold removeToBack
  simp only [and_fullmask, BitVec.getLsbD_or, BitVec.getLsbD_and, BitVec.getLsbD_not,
    mask16 _ _ hj, BitVec.getLsbD_ushiftRight, BitVec.getLsbD_shiftLeft, hj, decide_true,
    Bool.true_and, W]
  by_cases h1 : j < 4 * (i + 1)
  · have a1 : j < 4 + 4 * i := by omega
    rw [if_pos h1]
    by_cases h2 : j < 4 * (15 - i - 1)
    · simp [a1, h2]
    · rw [mask16 _ _ (by omega)]
      have a2 : j - 4 * (15 - i - 1) < 4 + 4 * i := by omega
      simp [a1, a2]
  · have a1 : ¬ (j < 4 + 4 * i) := by omega
    rw [if_neg h1]
    by_cases h3 : j < 60
    · rw [if_pos h3]
      by_cases h2 : j < 4 * (15 - i - 1)
      · simp [a1, h2, Nat.add_comm]
      · rw [mask16 _ _ (by omega)]
        have a2 : j - 4 * (15 - i - 1) < 4 + 4 * i := by omega
        simp [a1, a2, Nat.add_comm]
    · rw [if_neg h3]
      have h2 : ¬ (j < 4 * (15 - i - 1)) := by omega
      rw [mask16 _ _ (by omega)]
      have a2 : ¬ (j - 4 * (15 - i - 1) < 4 + 4 * i) := by omega
      have a3 : x.getLsbD (4 + j) = false := BitVec.getLsbD_of_ge _ _ (by omega)
      have a4 : 15 - i - 1 = 14 - i := by omega
      have a5 : j - 4 * (14 - i) < 64 := by omega
      rw [a4] at h2 a2
      simp only [a4, a1, h2, a2, a3, a5, decide_true, decide_false]
      simp

theorem removeToBack_size : size (removeToBack x i) = size x - 1 := by
  rw [size_eq_nib, ← size_pred x (by omega)]
  apply nib0_bits
  intro b hb
  rw [removeToBack_bits x i hi b (by omega), if_pos (by omega)]

theorem removeToBack_get (j : Nat) (hj : j < 15) :
    get (removeToBack x i) j =
      if j < i then get x j else if j < 14 then get x (j + 1) else get x i := by
  have hsz : size x < 16 := by rw [size_eq_nib]; exact nib_lt _ _
  simp only [get_eq_nib]
  by_cases h1 : j < i
  · rw [if_pos h1]
    apply nib_eq_of
    intro b hb
    rw [removeToBack_bits x i hi _ (by omega), if_pos (by omega)]
    exact getLsbD_pred x (by omega) _ (by omega)
  · rw [if_neg h1]
    by_cases h2 : j < 14
    · rw [if_pos h2]
      apply nib_eq_of
      intro b hb
      rw [removeToBack_bits x i hi _ (by omega), if_neg (by omega), if_pos (by omega)]
      congr 1
      try omega
    · rw [if_neg h2]
      apply nib_eq_of
      intro b hb
      rw [removeToBack_bits x i hi _ (by omega), if_neg (by omega), if_neg (by omega)]
      congr 1
      omega

end removeToBack

/-! ### rotate -/

theorem rotMask_i (i j : Nat) (hj : j < 64) :
    ((if i = W then 0#64 else 16#64 <<< (4 * i)) - 1#64).getLsbD j = decide (j < 4 + 4 * i) := by
  split
  · next h =>
    have h1 : (0#64 - 1#64) = BitVec.allOnes 64 := by decide
    rw [h1, BitVec.getLsbD_allOnes]
    have : j < 4 + 4 * i := by simp [W] at h; omega
    simp [hj, this]
  · exact mask16 _ _ hj

section rotate
variable (x : Word) (i k : Nat) (hik : i ≤ k) (hk : k ≤ 15)
include hik hk

theorem rotate_bits (j : Nat) (hj : j < 64) :
    (rotate x i k).getLsbD j =
      if j < 4 + 4 * i then x.getLsbD j
      else if j < 64 - 4 * (k - i) then x.getLsbD (j + 4 * (k - i))
      else x.getLsbD (j - 4 * (15 - k)) := by
  unfold rotate
  have hm : ∀ m, m < 64 →
      ((if i = W then 0#64 else 16#64 <<< (4 * i)) - 1#64).getLsbD m = decide (m < 4 + 4 * i) :=
    fun m h => rotMask_i i m h
  dsimp only
  generalize (if i = W then 0#64 else 16#64 <<< (4 * i)) - 1#64 = M at hm ⊢
  simp only [and_fullmask, BitVec.getLsbD_or, BitVec.getLsbD_and, BitVec.getLsbD_not,
    BitVec.getLsbD_ushiftRight, BitVec.getLsbD_shiftLeft, hj, decide_true,
    Bool.true_and, hm _ hj]
  have hm2 := hm (j - 4 * (15 - k)) (by omega)
  rw [hm2]
  have a5 : j - 4 * (15 - k) < 64 := by omega
  by_cases h1 : j < 4 + 4 * i
  · rw [if_pos h1]
    have a2 : j - 4 * (15 - k) < 4 + 4 * i := by omega
    simp [h1, a2]
  · rw [if_neg h1]
    by_cases h3 : j < 64 - 4 * (k - i)
    · rw [if_pos h3]
      have a2 : j - 4 * (15 - k) < 4 + 4 * i ∨ j < 4 * (15 - k) := by omega
      rcases a2 with a2 | a2
      · simp [h1, a2, Nat.add_comm]
      · simp [h1, a2, Nat.add_comm]
    · rw [if_neg h3]
      have h2 : ¬ (j < 4 * (15 - k)) := by omega
      have a2 : ¬ (j - 4 * (15 - k) < 4 + 4 * i) := by omega
      have a3 : x.getLsbD (4 * (k - i) + j) = false := BitVec.getLsbD_of_ge _ _ (by omega)
      simp only [h1, h2, a2, a3, a5, decide_true, decide_false]
      simp

theorem rotate_size : size (rotate x i k) = size x := by
  rw [size_eq_nib, size_eq_nib]
  apply nib0_bits
  intro b hb
  rw [rotate_bits x i k hik hk b (by omega), if_pos (by omega)]

theorem rotate_get (j : Nat) (hj : j < 15) :
    get (rotate x i k) j =
      if j < i then get x j else if j + (k - i) < 15 then get x (j + (k - i))
      else get x (j - (15 - k)) := by
  simp only [get_eq_nib]
  by_cases h1 : j < i
  · rw [if_pos h1]
    apply nib_eq_of
    intro b hb
    rw [rotate_bits x i k hik hk _ (by omega), if_pos (by omega)]
  · rw [if_neg h1]
    by_cases h2 : j + (k - i) < 15
    · rw [if_pos h2]
      apply nib_eq_of
      intro b hb
      rw [rotate_bits x i k hik hk _ (by omega), if_neg (by omega), if_pos (by omega)]
      congr 1
      omega
    · rw [if_neg h2]
      apply nib_eq_of
      intro b hb
      rw [rotate_bits x i k hik hk _ (by omega), if_neg (by omega), if_neg (by omega)]
      congr 1
      omega

end rotate

/-! ### exchange -/

theorem testBit_240 (b : Nat) : Nat.testBit 240 b = (decide (4 ≤ b) && decide (b < 8)) := by
  have e : (240 : Nat) = 15 <<< 4 := by decide
  rw [e, Nat.testBit_shiftLeft, testBit_15]
  by_cases h : b ≥ 4
  · by_cases h2 : b < 8
    · have : b - 4 < 4 := by omega
      simp [h, h2, this]
    · have : ¬ (b - 4 < 4) := by omega
      simp [h2, this]
  · simp [h]

theorem diff_bits (x : Word) (i j s : Nat) (hs : s < 64) :
    (((x >>> (4 * i)) ^^^ (x >>> (4 * j))) &&& 240#64).getLsbD s =
      (decide (4 ≤ s) && decide (s < 8) && (x.getLsbD (4 * i + s) ^^ x.getLsbD (4 * j + s))) := by
  rw [BitVec.getLsbD_and, BitVec.getLsbD_xor, BitVec.getLsbD_ushiftRight,
    BitVec.getLsbD_ushiftRight, BitVec.getLsbD_ofNat, testBit_240]
  by_cases h : 4 ≤ s <;> by_cases h2 : s < 8 <;> simp [h, h2, hs]

theorem exchange_bits (x : Word) (i j s : Nat) (hs : s < 64) :
    (exchange x i j).getLsbD s =
      (x.getLsbD s ^^
        ((decide (4 * i + 4 ≤ s) && decide (s < 4 * i + 8)
            && (x.getLsbD s ^^ x.getLsbD (4 * j + (s - 4 * i))))
         || (decide (4 * j + 4 ≤ s) && decide (s < 4 * j + 8)
            && (x.getLsbD (4 * i + (s - 4 * j)) ^^ x.getLsbD s)))) := by
  unfold exchange
  simp only [BitVec.getLsbD_xor, BitVec.getLsbD_or, BitVec.getLsbD_shiftLeft, hs, decide_true,
    Bool.true_and]
  have one : ∀ a : Nat, (!decide (s < 4 * a) &&
      (((x >>> (4 * i)) ^^^ (x >>> (4 * j))) &&& 240#64).getLsbD (s - 4 * a)) =
      (decide (4 * a + 4 ≤ s) && decide (s < 4 * a + 8)
        && (x.getLsbD (4 * i + (s - 4 * a)) ^^ x.getLsbD (4 * j + (s - 4 * a)))) := by
    intro a
    by_cases h : s < 4 * a
    · have : ¬ (4 * a + 4 ≤ s) := by omega
      simp [h, this]
    · rw [diff_bits _ _ _ _ (by omega)]
      have e1 : (4 ≤ s - 4 * a) = (4 * a + 4 ≤ s) := by apply propext; omega
      have e2 : (s - 4 * a < 8) = (s < 4 * a + 8) := by apply propext; omega
      simp [h, e1, e2]
  rw [one i, one j]
  congr 1
  congr 1
  · by_cases h : 4 * i + 4 ≤ s
    · have : 4 * i + (s - 4 * i) = s := by omega
      rw [this]
    · simp [h]
  · by_cases h : 4 * j + 4 ≤ s
    · have : 4 * j + (s - 4 * j) = s := by omega
      rw [this]
    · simp [h]

theorem exchange_size (x : Word) (i j : Nat) : size (exchange x i j) = size x := by
  rw [size_eq_nib, size_eq_nib]
  apply nib0_bits
  intro b hb
  rw [exchange_bits x i j b (by omega)]
  have h1 : ¬ (4 * i + 4 ≤ b) := by omega
  have h2 : ¬ (4 * j + 4 ≤ b) := by omega
  simp [h1, h2]

theorem exchange_get (x : Word) (i j m : Nat) (hm : m < 15) :
    get (exchange x i j) m =
      if m = i then get x j else if m = j then get x i else get x m := by
  simp only [get_eq_nib]
  by_cases h1 : m = i
  · subst h1
    rw [if_pos rfl]
    apply nib_eq_of
    intro b hb
    rw [exchange_bits x m j _ (by omega)]
    have a1 : 4 * m + 4 ≤ 4 * (m + 1) + b := by omega
    have a2 : 4 * (m + 1) + b < 4 * m + 8 := by omega
    have a3 : 4 * j + (4 * (m + 1) + b - 4 * m) = 4 * (j + 1) + b := by omega
    rw [a3]
    by_cases h2 : m = j
    · subst h2
      rw [a3]; simp
    · have a4 : ¬ (4 * j + 4 ≤ 4 * (m + 1) + b ∧ 4 * (m + 1) + b < 4 * j + 8) := by omega
      have a5 : (decide (4 * j + 4 ≤ 4 * (m + 1) + b) && decide (4 * (m + 1) + b < 4 * j + 8))
          = false := by
        rw [← Bool.decide_and]; exact decide_eq_false a4
      rw [a5]
      simp [a1, a2]
  · rw [if_neg h1]
    have a4 : ∀ b, b < 4 → (decide (4 * i + 4 ≤ 4 * (m + 1) + b)
        && decide (4 * (m + 1) + b < 4 * i + 8)) = false := by
      intro b hb
      rw [← Bool.decide_and]; apply decide_eq_false; omega
    by_cases h2 : m = j
    · subst h2
      rw [if_pos rfl]
      apply nib_eq_of
      intro b hb
      rw [exchange_bits x i m _ (by omega), a4 b hb]
      have a1 : 4 * m + 4 ≤ 4 * (m + 1) + b := by omega
      have a2 : 4 * (m + 1) + b < 4 * m + 8 := by omega
      have a3 : 4 * i + (4 * (m + 1) + b - 4 * m) = 4 * (i + 1) + b := by omega
      rw [a3]
      simp [a1, a2]
      cases x.getLsbD (4 * (m + 1) + b) <;> cases x.getLsbD (4 * (i + 1) + b) <;> rfl
    · rw [if_neg h2]
      apply nib_eq_of
      intro b hb
      rw [exchange_bits x i j _ (by omega), a4 b hb]
      have a5 : (decide (4 * j + 4 ≤ 4 * (m + 1) + b) && decide (4 * (m + 1) + b < 4 * j + 8))
          = false := by
        rw [← Bool.decide_and]; apply decide_eq_false; omega
      rw [a5]
      simp

/-! ### constructors, set_size -/

theorem setSize_size (x : Word) (n : Nat) (hn : n < 16) : size (setSize x n) = n := by
  rw [size_eq_nib]
  apply nib_eq_of_nat hn
  intro b hb
  have : b < 64 := by omega
  simp only [setSize, BitVec.getLsbD_or, BitVec.getLsbD_and, BitVec.getLsbD_not,
    BitVec.getLsbD_ofNat, testBit_15]
  simp [hb, this]

theorem setSize_get (x : Word) (n : Nat) (hn : n < 16) (j : Nat) (hj : j < 15) :
    get (setSize x n) j = get x j := by
  simp only [get_eq_nib]
  apply nib_eq_of
  intro b hb
  have h1 : 4 * (j + 1) + b < 64 := by omega
  have h2 : ¬ (4 * (j + 1) + b < 4) := by omega
  have : n.testBit (4 * (j + 1) + b) = false := by
    apply Nat.testBit_lt_two_pow
    calc n < 2 ^ 4 := hn
      _ ≤ 2 ^ (4 * (j + 1) + b) := Nat.pow_le_pow_right (by decide) (by omega)
  simp only [setSize, BitVec.getLsbD_or, BitVec.getLsbD_and, BitVec.getLsbD_not,
    BitVec.getLsbD_ofNat, testBit_15]
  simp [h1, h2, this]

theorem makeEmpty_size : size makeEmpty = 0 := by decide

theorem makeEmpty_get (j : Nat) (hj : j < 15) : get makeEmpty j = 14 - j := by
  have : ∀ j : Fin 15, get makeEmpty j = 14 - j := by decide
  exact this ⟨j, hj⟩

theorem makeSorted_size (n : Nat) (hn : n ≤ 15) : size (makeSorted n) = n := by
  have : ∀ n : Fin 16, size (makeSorted n) = n := by decide
  exact this ⟨n, by omega⟩

theorem makeSorted_get (n : Nat) (hn : n ≤ 15) (j : Nat) (hj : j < 15) :
    get (makeSorted n) j = if j < n then j else 14 - (j - n) := by
  have : ∀ (n : Fin 16) (j : Fin 15),
      get (makeSorted n) j = if j.val < n.val then j.val else 14 - (j.val - n.val) := by decide
  exact this ⟨n, by omega⟩ ⟨j, hj⟩

end Verif.Permuter

namespace Verif.Permuter

/-! ### exchange_values -/

theorem nib_xor (x y : Word) (k : Nat) : nib (x ^^^ y) k = nib x k ^^^ nib y k := by
  apply Nat.eq_of_testBit_eq
  intro b
  rw [Nat.testBit_xor, nib_testBit, nib_testBit, nib_testBit, BitVec.getLsbD_xor]
  by_cases h : b < 4 <;> simp [h]

theorem nib_shl4_zero (x : Word) : nib (x <<< 4) 0 = 0 := by
  apply nib_eq_of_nat (by decide)
  intro b hb
  simp [BitVec.getLsbD_shiftLeft, hb]

theorem nib_shl4_succ (x : Word) (k : Nat) (hk : k < 15) : nib (x <<< 4) (k + 1) = nib x k := by
  apply nib_eq_of
  intro b hb
  rw [BitVec.getLsbD_shiftLeft]
  have h1 : 4 * (k + 1) + b < 64 := by omega
  have h2 : ¬ (4 * (k + 1) + b < 4) := by omega
  have h3 : 4 * (k + 1) + b - 4 = 4 * k + b := by omega
  simp [h1, h2, h3]

theorem nib_ofNat_zero (n : Nat) (hn : n < 16) : nib (BitVec.ofNat 64 n) 0 = n := by
  apply nib_eq_of_nat hn
  intro b hb
  have : b < 64 := by omega
  rw [BitVec.getLsbD_ofNat]; simp [this]

theorem nib_ofNat_succ (n k : Nat) (hn : n < 16) : nib (BitVec.ofNat 64 n) (k + 1) = 0 := by
  apply nib_eq_of_nat (by decide)
  intro b hb
  have : n.testBit (4 * (k + 1) + b) = false := by
    apply Nat.testBit_lt_two_pow
    calc n < 2 ^ 4 := hn
      _ ≤ 2 ^ (4 * (k + 1) + b) := Nat.pow_le_pow_right (by decide) (by omega)
  rw [BitVec.getLsbD_ofNat]; simp [this]

/-- The correction nibble computed for a slot value `v`. -/
def corr (a b v : Nat) : Nat := if v = a ∨ v = b then a ^^^ b else 0

theorem corr_lt (a b v : Nat) (ha : a < 16) (hb : b < 16) : corr a b v < 16 := by
  unfold corr
  split
  · exact Nat.xor_lt_two_pow (n := 4) ha hb
  · decide

theorem xor_corr (a b v : Nat) :
    v ^^^ corr a b v = if v = a then b else if v = b then a else v := by
  unfold corr
  by_cases h1 : v = a
  · subst h1
    rw [if_pos (Or.inl rfl), if_pos rfl, ← Nat.xor_assoc, Nat.xor_self, Nat.zero_xor]
  · by_cases h2 : v = b
    · subst h2
      rw [if_pos (Or.inr rfl), if_neg h1, if_pos rfl, Nat.xor_comm a, ← Nat.xor_assoc,
        Nat.xor_self, Nat.zero_xor]
    · rw [if_neg (by simp [h1, h2]), if_neg h1, if_neg h2, Nat.xor_zero]

theorem exchangeValues_loop (x : Word) (a b : Nat) (ha : a < 16) (hb : b < 16) (k : Nat)
    (hk : k ≤ 15) :
    (Nat.repeat (exchangeValuesStep a b) k (0#64, x)).2 = x <<< (4 * k) ∧
    ∀ m, m < 16 → nib (Nat.repeat (exchangeValuesStep a b) k (0#64, x)).1 m =
      if 1 ≤ m ∧ m ≤ k then corr a b (nib x (15 - k + m)) else 0 := by
  induction k with
  | zero =>
    constructor
    · simp [Nat.repeat]
    · intro m hm
      rw [if_neg (by omega)]
      simp [Nat.repeat, nib]
  | succ k ih =>
    obtain ⟨ih1, ih2⟩ := ih (by omega)
    simp only [Nat.repeat]
    generalize hs : Nat.repeat (exchangeValuesStep a b) k (0#64, x) = s at ih1 ih2
    have hv : ((s.2 >>> (4 * W)) &&& 15#64).toNat = nib x (15 - k) := by
      have : ((s.2 >>> (4 * W)) &&& 15#64).toNat = nib s.2 15 := rfl
      rw [this, ih1]
      apply nib_eq_of
      intro c hc
      rw [BitVec.getLsbD_shiftLeft]
      have h1 : 4 * 15 + c < 64 := by omega
      have h2 : ¬ (4 * 15 + c < 4 * k) := by omega
      have h3 : 4 * 15 + c - 4 * k = 4 * (15 - k) + c := by omega
      simp only [h1, h2, h3, decide_true, decide_false]; simp
    constructor
    · simp only [exchangeValuesStep, ih1]
      rw [← BitVec.shiftLeft_add]
      congr 1
    · intro m hm
      simp only [exchangeValuesStep, hv]
      have hc : (if nib x (15 - k) = a ∨ nib x (15 - k) = b then BitVec.ofNat 64 (a ^^^ b) else 0#64)
          = BitVec.ofNat 64 (corr a b (nib x (15 - k))) := by
        unfold corr; split <;> rfl
      rw [hc]
      have hlt := corr_lt a b (nib x (15 - k)) ha hb
      cases m with
      | zero => rw [nib_shl4_zero, if_neg (by omega)]
      | succ m =>
        rw [nib_shl4_succ _ _ (by omega), nib_xor, ih2 m (by omega)]
        cases m with
        | zero =>
          rw [nib_ofNat_zero _ hlt, if_neg (by omega), if_pos (by omega), Nat.zero_xor]
          congr 2
          omega
        | succ m =>
          rw [nib_ofNat_succ _ _ hlt, Nat.xor_zero]
          by_cases h : m + 1 ≤ k
          · rw [if_pos (by omega), if_pos (by omega)]
            congr 2
            omega
          · rw [if_neg (by omega), if_neg (by omega)]

theorem exchangeValues_size (x : Word) (a b : Nat) (ha : a < 16) (hb : b < 16) :
    size (exchangeValues x a b) = size x := by
  rw [size_eq_nib, size_eq_nib, exchangeValues, nib_xor,
    (exchangeValues_loop x a b ha hb 15 (by omega)).2 0 (by omega), if_neg (by omega), Nat.xor_zero]

theorem exchangeValues_get (x : Word) (a b : Nat) (ha : a < 16) (hb : b < 16) (j : Nat)
    (hj : j < 15) :
    get (exchangeValues x a b) j =
      if get x j = a then b else if get x j = b then a else get x j := by
  rw [get_eq_nib, get_eq_nib, exchangeValues, nib_xor,
    (exchangeValues_loop x a b ha hb 15 (by omega)).2 (j + 1) (by omega), if_pos (by omega)]
  have : 15 - 15 + (j + 1) = j + 1 := by omega
  rw [this, xor_corr]

/-! ### List view -/

/-- The 15 slots in permutation order. -/
def slots (x : Word) : List Nat := (List.range 15).map (get x)

theorem slots_length (x : Word) : (slots x).length = 15 := by simp [slots]

theorem slots_get (x : Word) (j : Nat) (hj : j < (slots x).length) : (slots x)[j] = get x j := by
  simp [slots]

theorem size_le (x : Word) : size x ≤ 15 := by
  have := nib_lt x 0
  rw [size_eq_nib]; omega

/-- Slots in use, in key order. -/
def used (x : Word) : List Nat := (slots x).take (size x)

/-- Free slots, in the order in which they sit behind the used ones. -/
def free (x : Word) : List Nat := (slots x).drop (size x)

theorem used_append_free (x : Word) : used x ++ free x = slots x := List.take_append_drop _ _

theorem used_length (x : Word) : (used x).length = size x := by
  have := size_le x
  simp [used, slots_length]; omega

theorem free_length (x : Word) : (free x).length = 15 - size x := by
  simp [free, slots_length]

theorem used_get (x : Word) (j : Nat) (hj : j < (used x).length) : (used x)[j] = get x j := by
  simp [used, slots_get]

theorem free_get (x : Word) (j : Nat) (hj : j < (free x).length) :
    (free x)[j] = get x (size x + j) := by
  simp [free, slots_get]

/-- Two permuter words with the same size and slots are the same word. -/
theorem word_ext {x y : Word} (h1 : size x = size y) (h2 : slots x = slots y) : x = y := by
  apply eq_of_nib
  intro k hk
  cases k with
  | zero => rw [← size_eq_nib, ← size_eq_nib, h1]
  | succ k =>
    rw [← get_eq_nib, ← get_eq_nib, ← slots_get x k (by rw [slots_length]; omega),
      ← slots_get y k (by rw [slots_length]; omega)]
    simp only [h2]

end Verif.Permuter
