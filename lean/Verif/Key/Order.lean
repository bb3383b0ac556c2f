/-
Byte-lexicographic order on keys: the specification the tree's order is compared with.
-/
namespace Verif.Key

/-- Byte-lexicographic order: a proper prefix is smaller, otherwise the first differing
byte (unsigned) decides. -/
def LexLt : List UInt8 → List UInt8 → Prop
  | _, [] => False
  | [], _ :: _ => True
  | a :: as, b :: bs => a < b ∨ (a = b ∧ LexLt as bs)

@[simp] theorem lexLt_nil_right (a : List UInt8) : ¬ LexLt a [] := by
  cases a <;> exact id
@[simp] theorem lexLt_nil_cons (b : UInt8) (bs : List UInt8) : LexLt [] (b :: bs) := trivial
@[simp] theorem lexLt_cons_cons (a b : UInt8) (as bs : List UInt8) :
    LexLt (a :: as) (b :: bs) ↔ a < b ∨ (a = b ∧ LexLt as bs) := Iff.rfl

theorem u8_lt_irrefl (a : UInt8) : ¬ a < a := by
  rw [UInt8.lt_iff_toNat_lt]; omega
theorem u8_lt_trans {a b c : UInt8} : a < b → b < c → a < c := by
  simp only [UInt8.lt_iff_toNat_lt]; omega
theorem u8_trichotomy (a b : UInt8) : a < b ∨ a = b ∨ b < a := by
  rw [UInt8.lt_iff_toNat_lt, UInt8.lt_iff_toNat_lt, ← UInt8.toNat_inj]; omega

theorem lexLt_irrefl (a : List UInt8) : ¬ LexLt a a := by
  induction a with
  | nil => exact id
  | cons a as ih =>
    rintro (h | ⟨_, h⟩)
    · exact u8_lt_irrefl a h
    · exact ih h

theorem lexLt_trans {a b c : List UInt8} : LexLt a b → LexLt b c → LexLt a c := by
  induction a generalizing b c with
  | nil =>
    intro _ h2
    cases b with
    | nil => cases c with
      | nil => exact h2
      | cons => trivial
    | cons => cases c with
      | nil => exact h2
      | cons => trivial
  | cons a as ih =>
    cases b with
    | nil => intro h _; exact absurd h (lexLt_nil_right _)
    | cons b bs =>
      cases c with
      | nil => intro _ h; exact absurd h (lexLt_nil_right _)
      | cons c cs =>
        rintro (h1 | ⟨rfl, h1⟩) (h2 | ⟨rfl, h2⟩)
        · exact Or.inl (u8_lt_trans h1 h2)
        · exact Or.inl h1
        · exact Or.inl h2
        · exact Or.inr ⟨rfl, ih h1 h2⟩

theorem lexLt_asymm {a b : List UInt8} (h : LexLt a b) : ¬ LexLt b a :=
  fun h' => lexLt_irrefl a (lexLt_trans h h')

theorem lexLt_trichotomy (a b : List UInt8) : LexLt a b ∨ a = b ∨ LexLt b a := by
  induction a generalizing b with
  | nil => cases b <;> simp
  | cons a as ih =>
    cases b with
    | nil => simp
    | cons b bs =>
      rcases u8_trichotomy a b with h | rfl | h
      · exact Or.inl (Or.inl h)
      · rcases ih bs with h | rfl | h
        · exact Or.inl (Or.inr ⟨rfl, h⟩)
        · exact Or.inr (Or.inl rfl)
        · exact Or.inr (Or.inr (Or.inr ⟨rfl, h⟩))
      · exact Or.inr (Or.inr (Or.inl h))

/-- A common prefix does not matter. -/
theorem lexLt_append_left (p a b : List UInt8) : LexLt (p ++ a) (p ++ b) ↔ LexLt a b := by
  induction p with
  | nil => rfl
  | cons x p ih =>
    simp only [List.cons_append, lexLt_cons_cons, ih]
    constructor
    · rintro (h | ⟨_, h⟩)
      · exact absurd h (u8_lt_irrefl x)
      · exact h
    · intro h; exact Or.inr ⟨by trivial, h⟩

end Verif.Key
