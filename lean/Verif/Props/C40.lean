import Verif.Decimal.Model
import Verif.Key.Order

/-!
# C40: fast decimal keys enumerate in numeric order
-/
namespace Verif.Props.C40
open Verif.Decimal Verif.Key

/-! ### Positional notation -/

/-- The number written by `s` in base `b`, where `f` gives the value of a digit. -/
def value (b : Nat) (f : UInt8 → Nat) : Bytes → Nat
  | [] => 0
  | d :: ds => f d * b ^ ds.length + value b f ds

/-- An ASCII decimal digit. -/
def IsDigit (d : UInt8) : Prop := 48 ≤ d.toNat ∧ d.toNat ≤ 57

/-- The number written by a decimal string. -/
abbrev decimal (s : Bytes) : Nat := value 10 (fun d => d.toNat - 48) s

/-- The number written by a big-endian binary string. -/
abbrev binary (s : Bytes) : Nat := value 256 (fun d => d.toNat) s

theorem value_append (b : Nat) (f : UInt8 → Nat) (s : Bytes) (d : UInt8) :
    value b f (s ++ [d]) = b * value b f s + f d := by
  induction s with
  | nil => simp [value]
  | cons a s ih =>
    simp only [List.cons_append, value, List.length_append, List.length_singleton]
    rw [ih, Nat.mul_add, Nat.pow_succ, ← Nat.add_assoc]
    congr 2
    rw [Nat.mul_comm (b ^ s.length) b, ← Nat.mul_assoc, Nat.mul_comm (f a) b, Nat.mul_assoc]

theorem value_lt {b : Nat} {f : UInt8 → Nat} : ∀ {s : Bytes}, (∀ d ∈ s, f d < b) → value b f s < b ^ s.length
  | [], _ => by simp [value]
  | a :: s, h => by
    have h1 : value b f s < b ^ s.length := value_lt (fun d hd => h d (List.mem_cons_of_mem _ hd))
    have h2 := h a List.mem_cons_self
    have h3 : (f a + 1) * b ^ s.length ≤ b * b ^ s.length := Nat.mul_le_mul_right _ h2
    rw [Nat.add_mul] at h3
    simp only [value, List.length_cons, Nat.pow_succ]
    rw [Nat.mul_comm (b ^ s.length) b]
    omega

theorem value_order {b : Nat} {f : UInt8 → Nat} : ∀ {s t : Bytes}, s.length = t.length → (∀ d ∈ s, f d < b) →
    (∀ d ∈ t, f d < b) → (∀ d ∈ s, ∀ e ∈ t, (d < e ↔ f d < f e) ∧ (d = e ↔ f d = f e)) →
    (LexLt s t ↔ value b f s < value b f t) ∧ (s = t ↔ value b f s = value b f t)
  | [], [], _, _, _, _ => by simp
  | a :: s, c :: t, hl, hs, ht, hm => by
    have hl' : s.length = t.length := by simpa using hl
    have ih := value_order hl' (fun d hd => hs d (List.mem_cons_of_mem _ hd))
      (fun d hd => ht d (List.mem_cons_of_mem _ hd))
      (fun d hd e he => hm d (List.mem_cons_of_mem _ hd) e (List.mem_cons_of_mem _ he))
    have h1 : value b f s < b ^ t.length := by
      rw [← hl']; exact value_lt (fun d hd => hs d (List.mem_cons_of_mem _ hd))
    have h2 : value b f t < b ^ t.length := value_lt (fun d hd => ht d (List.mem_cons_of_mem _ hd))
    obtain ⟨m1, m2⟩ := hm a List.mem_cons_self c List.mem_cons_self
    have key : ∀ x y, x < y → x * b ^ t.length + b ^ t.length ≤ y * b ^ t.length := by
      intro x y h
      have := Nat.mul_le_mul_right (b ^ t.length) (show x + 1 ≤ y from h)
      rw [Nat.add_mul] at this
      omega
    simp only [value, lexLt_cons_cons, hl', List.cons.injEq]
    rcases Nat.lt_trichotomy (f a) (f c) with h | h | h
    · have := key _ _ h
      refine ⟨⟨fun _ => by omega, fun _ => .inl (m1.2 h)⟩, ⟨fun ⟨e, _⟩ => ?_, fun e => by omega⟩⟩
      have := m2.1 e
      omega
    · have e := m2.2 h
      refine ⟨⟨?_, ?_⟩, ⟨?_, ?_⟩⟩
      · rintro (h' | ⟨_, h'⟩)
        · have := m1.1 h'; omega
        · have := ih.1.1 h'; rw [h]; omega
      · intro h'
        exact .inr ⟨e, ih.1.2 (by rw [h] at h'; omega)⟩
      · rintro ⟨_, h'⟩
        have := ih.2.1 h'; rw [h]; omega
      · intro h'
        exact ⟨e, ih.2.2 (by rw [h] at h'; omega)⟩
    · have := key _ _ h
      refine ⟨⟨?_, fun _ => by omega⟩, ⟨fun ⟨e, _⟩ => ?_, fun e => by omega⟩⟩
      · rintro (h' | ⟨h', _⟩)
        · have := m1.1 h'; omega
        · have := m2.1 h'; omega
      · have := m2.1 e
        omega

theorem digit_lt {d : UInt8} (h : IsDigit d) : d.toNat - 48 < 10 := by have := h.1; have := h.2; omega

theorem u8_eq_iff (a b : UInt8) : a = b ↔ a.toNat = b.toNat := UInt8.toNat_inj.symm

/-- Decimal strings of equal length compare, as byte strings, in the order of the numbers they
write, and are equal only if the numbers are. -/
theorem decimal_order {s t : Bytes} (hl : s.length = t.length) (hs : ∀ d ∈ s, IsDigit d) (ht : ∀ d ∈ t, IsDigit d) :
    (LexLt s t ↔ decimal s < decimal t) ∧ (s = t ↔ decimal s = decimal t) := by
  apply value_order hl (fun d hd => digit_lt (hs d hd)) (fun d hd => digit_lt (ht d hd))
  intro d hd e he
  have h1 := hs d hd
  have h2 := ht e he
  unfold IsDigit at h1 h2
  rw [UInt8.lt_iff_toNat_lt, u8_eq_iff]
  constructor <;> constructor <;> intro _ <;> omega

/-- Binary strings of equal length compare in the order of the numbers they write. -/
theorem binary_order {s t : Bytes} (hl : s.length = t.length) :
    (LexLt s t ↔ binary s < binary t) ∧ (s = t ↔ binary s = binary t) :=
  value_order hl (fun d _ => d.toNat_lt) (fun d _ => d.toNat_lt)
    (fun d _ e _ => ⟨UInt8.lt_iff_toNat_lt, u8_eq_iff d e⟩)

/-! ### Writing a number -/

theorem digit_ofNat {n : Nat} (h : n < 10) : (UInt8.ofNat n + 48).toNat = n + 48 := by
  rw [UInt8.toNat_add, UInt8.toNat_ofNat']
  have : (48 : UInt8).toNat = 48 := rfl
  rw [this]
  omega

theorem setLoop_spec (x : Nat) (minlen : Int) (acc : Bytes) : (∀ d ∈ acc, IsDigit d) →
    ∀ (k : Nat), acc.length + k ≤ 31 → x < 10 ^ k → 0 < k → minlen ≤ k →
    ∃ s, setLoop x minlen acc = some s ∧ (∀ d ∈ s, IsDigit d) ∧
      decimal s = x * 10 ^ acc.length + decimal acc ∧ (minlen + acc.length ≤ s.length) ∧ acc.length < s.length ∧
      (x = 0 → (s.length : Int) = acc.length + max minlen 1) ∧
      (x ≠ 0 → (acc.length : Int) + max minlen 0 < s.length → s.head? ≠ some 48) ∧ s.length ≤ acc.length + k := by
  fun_induction setLoop x minlen acc with
  | case1 x minlen acc h => intro _ k h1 _ h3; omega
  | case2 x minlen acc h acc' hc ih =>
    intro hd k h1 h2 h3 h4
    have hdig : IsDigit (UInt8.ofNat (x % 10) + 48) := by
      unfold IsDigit; rw [digit_ofNat (Nat.mod_lt _ (by omega))]; omega
    have hk : 1 < k := by
      rcases Nat.lt_or_ge 1 k with h | h
      · exact h
      · have : k = 1 := by omega
        subst this
        rcases hc with h' | h'
        · omega
        · omega
    obtain ⟨s, e, a1, a2, a3, a4, a5, a6, a7⟩ := ih (by
        intro d hd'
        rcases List.mem_cons.1 hd' with rfl | h'
        · exact hdig
        · exact hd d h') (k - 1) (by show acc.length + 1 + _ ≤ _; omega)
      (by
        have : 10 ^ k = 10 * 10 ^ (k - 1) := by
          rw [← Nat.pow_succ']; congr 1; omega
        omega) (by omega) (by omega)
    have hlen : acc'.length = acc.length + 1 := rfl
    refine ⟨s, e, a1, ?_, by omega, by omega, ?_, ?_, by omega⟩
    · rw [a2, hlen]
      show x / 10 * 10 ^ (acc.length + 1) +
        (((UInt8.ofNat (x % 10) + 48).toNat - 48) * 10 ^ acc.length + decimal acc) = _
      rw [digit_ofNat (Nat.mod_lt _ (by omega)), Nat.add_sub_cancel, ← Nat.add_assoc]
      congr 1
      rw [Nat.pow_succ', ← Nat.mul_assoc, ← Nat.add_mul]
      congr 1
      omega
    · intro h0
      have := a5 (by omega)
      omega
    · intro h0 hlt
      rcases Nat.eq_zero_or_pos (x / 10) with hx | hx
      · have := a5 hx
        omega
      · exact a6 (by omega) (by omega)
  | case3 x minlen acc h acc' hc =>
    intro hd k h1 h2 h3 h4
    have hdig : IsDigit (UInt8.ofNat (x % 10) + 48) := by
      unfold IsDigit; rw [digit_ofNat (Nat.mod_lt _ (by omega))]; omega
    have hlen : acc'.length = acc.length + 1 := rfl
    refine ⟨acc', rfl, ?_, ?_, by omega, by omega, by omega, ?_, by omega⟩
    · intro d hd'
      rcases List.mem_cons.1 hd' with rfl | h'
      · exact hdig
      · exact hd d h'
    · show (((UInt8.ofNat (x % 10) + 48).toNat - 48) * 10 ^ acc.length + decimal acc) = _
      rw [digit_ofNat (Nat.mod_lt _ (by omega)), Nat.add_sub_cancel]
      congr 2
      omega
    · intro h0 _ he
      have he : UInt8.ofNat (x % 10) + 48 = 48 := by
        simpa [acc'] using he
      have h' := congrArg UInt8.toNat he
      rw [digit_ofNat (Nat.mod_lt _ (by omega))] at h'
      have : (48 : UInt8).toNat = 48 := rfl
      omega

/-- `set` writes the number in decimal, padded with zeros to the requested width (at most 31
characters), and not otherwise beginning with a zero. -/
theorem set_spec (x : Nat) (hx : x < 2 ^ 64) (minlen : Int) (hm : minlen ≤ 31) :
    ∃ s, set x minlen = some s ∧ (∀ d ∈ s, IsDigit d) ∧ decimal s = x ∧ minlen ≤ s.length ∧ s ≠ [] ∧
      (minlen < s.length → 1 < s.length → s.head? ≠ some 48) := by
  obtain ⟨s, e, a1, a2, a3, a4, a5, a6, _⟩ := setLoop_spec x minlen [] (by simp) 31 (by simp)
    (by have : (2 : Nat) ^ 64 ≤ 10 ^ 31 := by decide
        omega) (by omega) (by omega)
  refine ⟨s, by unfold Decimal.set; rw [Nat.mod_eq_of_lt hx]; exact e, a1, by simpa [value] using a2, by simpa using a3,
    by intro h; subst h; simp at a4, ?_⟩
  intro h1 h2
  simp only [List.length_nil] at a5 a6
  rcases Nat.eq_zero_or_pos x with h0 | h0
  · have := a5 h0
    omega
  · exact a6 (by omega) (by omega)

/-- Wider than the buffer, the write leaves it. -/
theorem set_too_wide (x : Nat) (minlen : Int) (hm : 31 < minlen) : set x minlen = none := by
  have key : ∀ (x : Nat) (minlen : Int) (acc : Bytes), acc.length ≤ 31 → 31 < minlen + acc.length →
      setLoop x minlen acc = none := by
    intro x minlen acc
    fun_induction setLoop x minlen acc with
    | case1 => intros; rfl
    | case2 x minlen acc h acc' hc ih =>
      intro h1 h2
      have hlen : acc'.length = acc.length + 1 := rfl
      exact ih (by omega) (by omega)
    | case3 x minlen acc h acc' hc => intro h1 h2; omega
  exact key _ _ _ (by simp) (by simpa using hm)

/-- Strings of `n` decimal digits written by `set`: they have exactly `n` characters. -/
theorem set_width (x n : Nat) (hx : x < 2 ^ 64) (hn : x < 10 ^ n) (h0 : 0 < n) (h31 : n ≤ 31) :
    ∃ s, set x n = some s ∧ (∀ d ∈ s, IsDigit d) ∧ decimal s = x ∧ s.length = n := by
  obtain ⟨s, e, a1, a2, a3, a4, a5, a6, a7⟩ := setLoop_spec x n [] (by simp) n (by simpa using h31) hn h0 (Int.le_refl _)
  exact ⟨s, by unfold Decimal.set; rw [Nat.mod_eq_of_lt hx]; exact e, a1, by simpa [value] using a2,
    by simp only [List.length_nil] at a3 a7; omega⟩

/-- Fixed-width decimal keys compare as the numbers do. -/
theorem set_order (x y n : Nat) (hx : x < 2 ^ 64) (hy : y < 2 ^ 64) (hxn : x < 10 ^ n) (hyn : y < 10 ^ n)
    (h0 : 0 < n) (h31 : n ≤ 31) :
    ∃ s t, set x n = some s ∧ set y n = some t ∧ s.length = n ∧ t.length = n ∧ (LexLt s t ↔ x < y) := by
  obtain ⟨s, e1, a1, a2, a3⟩ := set_width x n hx hxn h0 h31
  obtain ⟨t, e2, b1, b2, b3⟩ := set_width y n hy hyn h0 h31
  refine ⟨s, t, e1, e2, a3, b3, ?_⟩
  rw [(decimal_order (by omega) a1 b1).1, a2, b2]

/-! ### Increments -/

theorem decimal_append (s : Bytes) (d : UInt8) : decimal (s ++ [d]) = 10 * decimal s + (d.toNat - 48) :=
  value_append _ _ _ _

theorem binary_append (s : Bytes) (d : UInt8) : binary (s ++ [d]) = 256 * binary s + d.toNat :=
  value_append _ _ _ _

theorem incrRev_spec : ∀ (r : Bytes), (∀ d ∈ r, IsDigit d) →
    (∃ t, incrRev r = some t ∧ (∀ d ∈ t, IsDigit d) ∧ t.length = r.length ∧
      decimal t.reverse = decimal r.reverse + 1) ∨
    (incrRev r = none ∧ decimal r.reverse + 1 = 10 ^ r.length)
  | [], _ => .inr ⟨rfl, rfl⟩
  | d :: ds, h => by
    have hd := h d List.mem_cons_self
    have hd1 := hd.1
    have hd2 := hd.2
    have hn : (d + 1).toNat = d.toNat + 1 := by
      rw [UInt8.toNat_add]
      have : (1 : UInt8).toNat = 1 := rfl
      rw [this]; omega
    have ht : ∀ e ∈ ds, IsDigit e := fun e he => h e (List.mem_cons_of_mem _ he)
    have hle : d + 1 ≤ 57 ↔ d.toNat + 1 ≤ 57 := by
      rw [UInt8.le_iff_toNat_le, hn]; rfl
    unfold incrRev
    by_cases hc : d + 1 ≤ 57
    · rw [if_pos hc]
      left
      rw [hle] at hc
      refine ⟨_, rfl, ?_, by simp, ?_⟩
      · intro e he
        rcases List.mem_cons.1 he with rfl | he
        · unfold IsDigit; rw [hn]; omega
        · exact ht e he
      · rw [List.reverse_cons, List.reverse_cons, decimal_append, decimal_append, hn]; omega
    · rw [if_neg hc]
      rw [hle] at hc
      rcases incrRev_spec ds ht with ⟨t, e, a1, a2, a3⟩ | ⟨e, a1⟩
      · left
        rw [e]
        refine ⟨_, rfl, ?_, by simp [a2], ?_⟩
        · intro c he
          rcases List.mem_cons.1 he with rfl | he
          · exact ⟨by decide, by decide⟩
          · exact a1 c he
        · rw [List.reverse_cons, List.reverse_cons, decimal_append, decimal_append, a3]
          have : (48 : UInt8).toNat = 48 := rfl
          rw [this]; omega
      · right
        rw [e]
        refine ⟨rfl, ?_⟩
        rw [List.reverse_cons, decimal_append, List.length_cons, Nat.pow_succ]
        omega

/-- Incrementing a decimal string writes the next number in the same width, if that number fits;
otherwise the loop runs past the start of the string. -/
theorem increment_spec (s : Bytes) (hs : ∀ d ∈ s, IsDigit d) :
    (decimal s + 1 < 10 ^ s.length → ∃ t, increment s = some t ∧ (∀ d ∈ t, IsDigit d) ∧ t.length = s.length ∧
      decimal t = decimal s + 1) ∧
    (decimal s + 1 = 10 ^ s.length → increment s = none) := by
  have h := incrRev_spec s.reverse (by simpa using hs)
  rw [List.reverse_reverse, List.length_reverse] at h
  unfold increment
  rcases h with ⟨t, e, a1, a2, a3⟩ | ⟨e, a⟩
  · rw [e]
    refine ⟨fun _ => ⟨t.reverse, rfl, by simpa using a1, by simp [a2], a3⟩, fun h => ?_⟩
    have := value_lt (b := 10) (f := fun d => d.toNat - 48) (s := t.reverse)
      (fun d hd => digit_lt (a1 d (by simpa using hd)))
    rw [List.length_reverse, a2] at this
    have h3 : value 10 (fun d => d.toNat - 48) t.reverse = decimal t.reverse := rfl
    omega
  · rw [e]
    exact ⟨fun h => by omega, fun _ => rfl⟩

/-- The increment of the key of `x` is the key of `x + 1`, in every width that holds both. -/
theorem increment_set (x n : Nat) (hx : x + 1 < 2 ^ 64) (hn : x + 1 < 10 ^ n) (h31 : n ≤ 31) :
    ∃ s t, set x n = some s ∧ increment s = some t ∧ set (x + 1) n = some t ∧ LexLt s t := by
  have h0 : 0 < n := by
    rcases Nat.eq_zero_or_pos n with h | h
    · subst h; simp at hn
    · exact h
  obtain ⟨s, e1, a1, a2, a3⟩ := set_width x n (by omega) (by omega) h0 h31
  obtain ⟨u, e2, b1, b2, b3⟩ := set_width (x + 1) n hx hn h0 h31
  obtain ⟨t, e3, c1, c2, c3⟩ := (increment_spec s a1).1 (by rw [a2, a3]; exact hn)
  have : t = u := (decimal_order (by omega) c1 b1).2.2 (by rw [c3, a2, b2])
  subst this
  exact ⟨s, t, e1, e3, e2, (decimal_order (by omega) a1 c1).1.2 (by omega)⟩

theorem binIncrRev_spec : ∀ (r : Bytes),
    (∃ t, binIncrRev r = some t ∧ t.length = r.length ∧ binary t.reverse = binary r.reverse + 1) ∨
    (binIncrRev r = none ∧ binary r.reverse + 1 = 256 ^ r.length)
  | [] => .inr ⟨rfl, rfl⟩
  | d :: ds => by
    have hlt := d.toNat_lt
    have hn : (d + 1).toNat = (d.toNat + 1) % 256 := by
      rw [UInt8.toNat_add]; rfl
    have hz : d + 1 = 0 ↔ d.toNat = 255 := by
      rw [u8_eq_iff, hn]
      have : (0 : UInt8).toNat = 0 := rfl
      rw [this]; omega
    unfold binIncrRev
    by_cases hc : d + 1 = 0
    · rw [if_neg (by simpa using hc)]
      rw [hz] at hc
      rcases binIncrRev_spec ds with ⟨t, e, a2, a3⟩ | ⟨e, a1⟩
      · left
        rw [e]
        refine ⟨_, rfl, by simp [a2], ?_⟩
        rw [List.reverse_cons, List.reverse_cons, binary_append, binary_append, a3]
        have : (0 : UInt8).toNat = 0 := rfl
        rw [this]; omega
      · right
        rw [e]
        refine ⟨rfl, ?_⟩
        rw [List.reverse_cons, binary_append, List.length_cons, Nat.pow_succ]
        omega
    · rw [if_pos hc]
      left
      rw [hz] at hc
      refine ⟨_, rfl, by simp, ?_⟩
      rw [List.reverse_cons, List.reverse_cons, binary_append, binary_append, hn]; omega

/-- Incrementing a binary string writes the next number in the same width, if that number fits;
otherwise the loop runs past the start of the string. -/
theorem binary_increment_spec (s : Bytes) :
    (binary s + 1 < 256 ^ s.length → ∃ t, binIncrement s = some t ∧ t.length = s.length ∧
      binary t = binary s + 1 ∧ LexLt s t) ∧
    (binary s + 1 = 256 ^ s.length → binIncrement s = none) := by
  have h := binIncrRev_spec s.reverse
  rw [List.reverse_reverse, List.length_reverse] at h
  unfold binIncrement
  rcases h with ⟨t, e, a2, a3⟩ | ⟨e, a⟩
  · rw [e]
    refine ⟨fun _ => ⟨t.reverse, rfl, by simp [a2], a3, (binary_order (by simp [a2])).1.2 (by omega)⟩, fun h => ?_⟩
    have := value_lt (b := 256) (f := fun d => d.toNat) (s := t.reverse) (fun d _ => d.toNat_lt)
    rw [List.length_reverse, a2] at this
    have h3 : value 256 (fun d => d.toNat) t.reverse = binary t.reverse := rfl
    omega
  · rw [e]
    exact ⟨fun h => by omega, fun _ => rfl⟩

/-! ### Concrete cases -/

example : set 1999 8 = some [48, 48, 48, 48, 49, 57, 57, 57] := by
  simp [Decimal.set, setLoop]

example : (1999 : Nat) + 1 < 2 ^ 64 ∧ (1999 : Nat) + 1 < 10 ^ 8 := by decide
example : increment [48, 49, 57, 57, 57] = some [48, 50, 48, 48, 48] := by decide
example : increment [57, 57] = none := by decide
example : decimal [57, 57] + 1 = 10 ^ 2 := by decide
example : binIncrement [0, 1, 255, 255] = some [0, 2, 0, 0] := by decide
example : binary [0, 1, 255, 255] + 1 < 256 ^ 4 := by decide

end Verif.Props.C40
