import Verif.Tree.Model
import Verif.Props.C08

/-!
Order of keys within a layer, and the list view of a layer's contents.
-/
namespace Verif.Tree
open Verif.Key (Bytes cmp3)
variable {α : Type}

/-- Order on (slice, length class). -/
def KLt (a b : Nat × Nat) : Prop := a.1 < b.1 ∨ (a.1 = b.1 ∧ a.2 < b.2)

instance : DecidableRel KLt := fun a b => by unfold KLt; infer_instance

/-- Key of a slot within its layer: all keys longer than eight bytes with the same slice
share one slot (a suffix or a layer). -/
def Slot.key (s : Slot α) : Nat × Nat := (s.ikey, min s.klx 9)
/-- Key of a cursor within its layer. -/
def LKey.key (x : LKey) : Nat × Nat := (x.ikey, min x.len 9)

theorem KLt.irrefl (a : Nat × Nat) : ¬ KLt a a := by unfold KLt; omega
theorem KLt.trans {a b c : Nat × Nat} : KLt a b → KLt b c → KLt a c := by unfold KLt; omega
theorem KLt.asymm {a b : Nat × Nat} : KLt a b → ¬ KLt b a := by unfold KLt; omega
theorem KLt.tri (a b : Nat × Nat) : KLt a b ∨ a = b ∨ KLt b a := by
  unfold KLt
  rcases Nat.lt_trichotomy a.1 b.1 with h | h | h
  · exact .inl (.inl h)
  · rcases Nat.lt_trichotomy a.2 b.2 with h2 | h2 | h2
    · exact .inl (.inr ⟨h, h2⟩)
    · exact .inr (.inl (Prod.ext h h2))
    · exact .inr (.inr (.inr ⟨h.symm, h2⟩))
  · exact .inr (.inr (.inl h))
theorem KLt.ne {a b : Nat × Nat} (h : KLt a b) : a ≠ b := by rintro rfl; exact KLt.irrefl _ h
theorem KLt.fst_le {a b : Nat × Nat} (h : KLt a b) : a.1 ≤ b.1 := by unfold KLt at h; omega

theorem cmp3_cases (a b : Nat) :
    (a < b ∧ cmp3 a b = -1) ∨ (a = b ∧ cmp3 a b = 0) ∨ (b < a ∧ cmp3 a b = 1) := by
  unfold cmp3; repeat (first | omega | split)

theorem compare_neg (x : LKey) (s : Slot α) :
    Key.compare x.ikey x.len s.ikey s.klx < 0 ↔ KLt x.key s.key := by
  unfold Key.compare KLt LKey.key Slot.key
  rcases cmp3_cases x.ikey s.ikey with ⟨h, e⟩ | ⟨h, e⟩ | ⟨h, e⟩ <;> simp only [e]
  · simp [h]
  · simp only [h, Nat.lt_irrefl, false_or, true_and, if_true]
    repeat (first | omega | split)
  · simp only [Int.reduceNeg, Int.one_ne_zero, if_false]; omega

theorem compare_zero (x : LKey) (s : Slot α) :
    Key.compare x.ikey x.len s.ikey s.klx = 0 ↔ x.key = s.key := by
  unfold Key.compare LKey.key Slot.key
  rw [Prod.mk.injEq]
  rcases cmp3_cases x.ikey s.ikey with ⟨h, e⟩ | ⟨h, e⟩ | ⟨h, e⟩ <;> simp only [e]
  · simp; omega
  · simp only [h, true_and, if_true]
    repeat (first | omega | split)
  · simp only [Int.one_ne_zero, if_false, false_iff]; omega

theorem compare_pos (x : LKey) (s : Slot α) :
    0 < Key.compare x.ikey x.len s.ikey s.klx ↔ KLt s.key x.key := by
  have h1 := compare_neg x s
  have h2 := compare_zero x s
  constructor
  · intro h
    rcases KLt.tri x.key s.key with c | c | c
    · have := h1.mpr c; omega
    · have := h2.mpr c; omega
    · exact c
  · intro h
    have n1 : ¬ Key.compare x.ikey x.len s.ikey s.klx < 0 := fun c => KLt.asymm h (h1.mp c)
    have n2 : ¬ Key.compare x.ikey x.len s.ikey s.klx = 0 := fun c => KLt.ne h (h2.mp c).symm
    omega

/-- Strictly sorted list of slots. -/
def SSorted (l : List (Slot α)) : Prop := l.Pairwise fun a b => KLt a.key b.key

/-- Slots with a smaller key than `x`. -/
def below (x : LKey) (l : List (Slot α)) : List (Slot α) := l.filter fun s => decide (KLt s.key x.key)
/-- Slots with the key `x`. -/
def matching (x : LKey) (l : List (Slot α)) : List (Slot α) := l.filter fun s => decide (s.key = x.key)
/-- Slots with a greater key than `x`. -/
def above (x : LKey) (l : List (Slot α)) : List (Slot α) := l.filter fun s => decide (KLt x.key s.key)
/-- Replace whatever is stored under `x` by `ls`. -/
def replaceKey (x : LKey) (ls l : List (Slot α)) : List (Slot α) := below x l ++ ls ++ above x l

def AllBelow (x : LKey) (l : List (Slot α)) : Prop := ∀ s ∈ l, KLt s.key x.key
def AllAbove (x : LKey) (l : List (Slot α)) : Prop := ∀ s ∈ l, KLt x.key s.key

theorem below_of_allBelow {x : LKey} {l : List (Slot α)} (h : AllBelow x l) : below x l = l := by
  unfold below; rw [List.filter_eq_self]; intro s hs; exact decide_eq_true (h s hs)
theorem below_of_allAbove {x : LKey} {l : List (Slot α)} (h : AllAbove x l) : below x l = [] := by
  unfold below; rw [List.filter_eq_nil_iff]; intro s hs
  have := KLt.asymm (h s hs); simpa using this
theorem above_of_allAbove {x : LKey} {l : List (Slot α)} (h : AllAbove x l) : above x l = l := by
  unfold above; rw [List.filter_eq_self]; intro s hs; exact decide_eq_true (h s hs)
theorem above_of_allBelow {x : LKey} {l : List (Slot α)} (h : AllBelow x l) : above x l = [] := by
  unfold above; rw [List.filter_eq_nil_iff]; intro s hs
  have := KLt.asymm (h s hs); simpa using this
theorem matching_of_allAbove {x : LKey} {l : List (Slot α)} (h : AllAbove x l) : matching x l = [] := by
  unfold matching; rw [List.filter_eq_nil_iff]; intro s hs
  have := (KLt.ne (h s hs)).symm; simpa using this
theorem matching_of_allBelow {x : LKey} {l : List (Slot α)} (h : AllBelow x l) : matching x l = [] := by
  unfold matching; rw [List.filter_eq_nil_iff]; intro s hs
  have := KLt.ne (h s hs); simpa using this

theorem below_append (x : LKey) (a b : List (Slot α)) : below x (a ++ b) = below x a ++ below x b := by
  simp [below]
theorem above_append (x : LKey) (a b : List (Slot α)) : above x (a ++ b) = above x a ++ above x b := by
  simp [above]
theorem matching_append (x : LKey) (a b : List (Slot α)) :
    matching x (a ++ b) = matching x a ++ matching x b := by simp [matching]

/-- Editing under `x` commutes with a context that lies entirely below and above `x`. -/
theorem replaceKey_ctx {x : LKey} {a m b ls : List (Slot α)} (ha : AllBelow x a) (hb : AllAbove x b) :
    replaceKey x ls (a ++ m ++ b) = a ++ replaceKey x ls m ++ b := by
  unfold replaceKey
  simp only [below_append, above_append, below_of_allBelow ha, below_of_allAbove hb,
    above_of_allBelow ha, above_of_allAbove hb, List.append_nil, List.nil_append, List.append_assoc]

theorem matching_ctx {x : LKey} {a m b : List (Slot α)} (ha : AllBelow x a) (hb : AllAbove x b) :
    matching x (a ++ m ++ b) = matching x m := by
  simp only [matching_append, matching_of_allBelow ha, matching_of_allAbove hb, List.append_nil,
    List.nil_append]

theorem replaceKey_sep {x : LKey} {a b ls : List (Slot α)} (ha : AllBelow x a) (hb : AllAbove x b) :
    replaceKey x ls (a ++ b) = a ++ ls ++ b := by
  have := replaceKey_ctx (m := []) (ls := ls) ha hb
  simpa [replaceKey, below, above] using this

theorem replaceKey_hit {x : LKey} {a b ls : List (Slot α)} {s : Slot α} (ha : AllBelow x a)
    (hb : AllAbove x b) (hs : s.key = x.key) : replaceKey x ls (a ++ s :: b) = a ++ ls ++ b := by
  have := replaceKey_ctx (m := [s]) (ls := ls) ha hb
  have e : a ++ [s] ++ b = a ++ s :: b := by simp
  rw [e] at this
  rw [this]
  simp [replaceKey, below, above, hs, KLt.irrefl]

theorem matching_hit {x : LKey} {a b : List (Slot α)} {s : Slot α} (ha : AllBelow x a)
    (hb : AllAbove x b) (hs : s.key = x.key) : matching x (a ++ s :: b) = [s] := by
  have := matching_ctx (m := [s]) ha hb
  have e : a ++ [s] ++ b = a ++ s :: b := by simp
  rw [e] at this
  rw [this]
  simp [matching, hs]

theorem matching_sep {x : LKey} {a b : List (Slot α)} (ha : AllBelow x a) (hb : AllAbove x b) :
    matching x (a ++ b) = [] := by
  rw [matching_append, matching_of_allBelow ha, matching_of_allAbove hb]; rfl

/-! ### Intervals of slices -/

def loLe : Option Nat → Nat → Prop
  | none, _ => True
  | some b, x => b ≤ x
def loLt : Option Nat → Nat → Prop
  | none, _ => True
  | some b, x => b < x
def ltHi : Nat → Option Nat → Prop
  | _, none => True
  | x, some b => x < b
/-- `x` lies in `[lo, hi)`; `none` is an infinite end. -/
def inR (lo hi : Option Nat) (x : Nat) : Prop := loLe lo x ∧ ltHi x hi

@[simp] theorem loLe_none (x : Nat) : loLe none x := trivial
@[simp] theorem loLe_some (b x : Nat) : loLe (some b) x ↔ b ≤ x := Iff.rfl
@[simp] theorem loLt_none (x : Nat) : loLt none x := trivial
@[simp] theorem loLt_some (b x : Nat) : loLt (some b) x ↔ b < x := Iff.rfl
@[simp] theorem ltHi_none (x : Nat) : ltHi x none := trivial
@[simp] theorem ltHi_some (b x : Nat) : ltHi x (some b) ↔ x < b := Iff.rfl

theorem loLe.mono {lo : Option Nat} {a b : Nat} (h : loLe lo a) (hab : a ≤ b) : loLe lo b := by
  cases lo <;> simp at * ; omega
theorem ltHi.mono {hi : Option Nat} {a b : Nat} (h : ltHi b hi) (hab : a ≤ b) : ltHi a hi := by
  cases hi <;> simp at * ; omega
theorem loLt.of_le_lt {lo : Option Nat} {a b : Nat} (h : loLe lo a) (hab : a < b) : loLt lo b := by
  cases lo <;> simp at * ; omega
theorem loLt.le {lo : Option Nat} {a : Nat} (h : loLt lo a) : loLe lo a := by
  cases lo <;> simp at * ; omega

end Verif.Tree
