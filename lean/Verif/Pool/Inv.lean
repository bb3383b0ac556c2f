import Verif.Pool.Model
import Mathlib.Tactic.Common

/-!
# Free lists and blocks in use do not overlap
-/
namespace Verif.Pool

/-- The list that begins at `h`. -/
def Chain (mem : Nat → Nat) : Nat → List Nat → Prop
  | h, [] => h = 0
  | h, p :: l => h = p ∧ p ≠ 0 ∧ Chain mem (mem p) l

theorem Chain.frame {mem mem' : Nat → Nat} {l : List Nat} : ∀ {h : Nat}, Chain mem h l → (∀ p ∈ l, mem' p = mem p) → Chain mem' h l := by
  induction l with
  | nil => intro h hc _; exact hc
  | cons p l ih =>
    intro h hc hm
    refine ⟨hc.1, hc.2.1, ?_⟩
    rw [hm p (by simp)]
    exact ih hc.2.2 fun q hq => hm q (by simp [hq])

/-- The blocks from `off` on. -/
def cut (p sz unit off : Nat) : List Nat :=
  if h : 0 < unit ∧ off + unit ≤ sz then (p + off) :: cut p sz unit (off + unit) else []
termination_by sz + 1 - off
decreasing_by omega

theorem mem_cut {p sz unit q : Nat} (hu : 0 < unit) (off : Nat) :
    q ∈ cut p sz unit off ↔ ∃ k, q = p + (off + k * unit) ∧ off + k * unit + unit ≤ sz := by
  induction off using cut.induct sz unit with
  | case1 off h ih =>
    rw [cut, dif_pos h, List.mem_cons, ih]
    constructor
    · rintro (rfl | ⟨k, rfl, hk⟩)
      · exact ⟨0, by simp, by omega⟩
      · exact ⟨k + 1, by rw [Nat.succ_mul]; omega, by rw [Nat.succ_mul]; omega⟩
    · rintro ⟨k, rfl, hk⟩
      cases k with
      | zero => left; simp
      | succ k => right; rw [Nat.succ_mul] at hk ⊢; exact ⟨k, by omega, by omega⟩
  | case2 off h =>
    rw [cut, dif_neg h]
    simp only [List.not_mem_nil, false_iff]
    rintro ⟨k, rfl, hk⟩
    omega

theorem cut_nodup {p sz unit : Nat} (hu : 0 < unit) (off : Nat) : (cut p sz unit off).Nodup := by
  induction off using cut.induct sz unit with
  | case1 off h ih =>
    rw [cut, dif_pos h, List.nodup_cons]
    refine ⟨?_, ih⟩
    rw [mem_cut hu]
    rintro ⟨k, hk, _⟩
    omega
  | case2 off h => rw [cut, dif_neg h]; exact List.nodup_nil

theorem initLoop_spec {p sz unit : Nat} (hu : 0 < unit) (hp : 0 < p) (off : Nat) : ∀ (mem : Nat → Nat) (next : Nat), next < p + off →
    (∀ x, x ≠ next → x ∉ cut p sz unit off → initLoop p sz unit mem next off x = mem x) ∧
    Chain (initLoop p sz unit mem next off) (initLoop p sz unit mem next off next) (cut p sz unit off) := by
  induction off using cut.induct sz unit with
  | case1 off h ih =>
    intro mem next hn
    obtain ⟨h1, h2⟩ := ih (Function.update mem next (p + off)) (p + off) (by omega)
    rw [initLoop, dif_pos h, cut, dif_pos h]
    have hne : next ∉ cut p sz unit (off + unit) := by
      rw [mem_cut hu]; rintro ⟨k, hk, _⟩; omega
    constructor
    · intro x hx hc
      rw [List.mem_cons, not_or] at hc
      rw [h1 x hc.1 hc.2, Function.update_of_ne hx]
    · have : initLoop p sz unit (Function.update mem next (p + off)) (p + off) (off + unit) next = p + off := by
        rw [h1 next (by omega) hne, Function.update_self]
      exact ⟨this, by omega, h2⟩
  | case2 off h =>
    intro mem next hn
    rw [initLoop, dif_neg h, cut, dif_neg h]
    exact ⟨fun x hx _ => Function.update_of_ne hx .., by simp [Chain]⟩

theorem initPool_spec {p sz unit : Nat} (mem : Nat → Nat) (hu : 0 < unit) (hp : 0 < p) (hs : unit ≤ sz) :
    (∀ x, x ∉ cut p sz unit 0 → initPool p sz unit mem x = mem x) ∧ Chain (initPool p sz unit mem) p (cut p sz unit 0) := by
  obtain ⟨h1, h2⟩ := initLoop_spec (sz := sz) hu hp unit mem p (by omega)
  rw [cut, dif_pos ⟨hu, by omega⟩]
  simp only [Nat.add_zero, Nat.zero_add]
  exact ⟨fun x hx => by rw [List.mem_cons, not_or] at hx; exact h1 x hx.1 hx.2, rfl, by omega, h2⟩

theorem lines_pos {sz : Nat} (h : 0 < sz) : 0 < lines sz := by
  unfold lines line; omega

theorem lines_le (sz : Nat) : sz ≤ lines sz * line := by
  unfold lines line; omega

/-- `p` is a block of `n` lines, free or in use. -/
def Blk (s : State) (L : Nat → Nat → List Nat) (p n : Nat) : Prop :=
  (∃ t, p ∈ L t n) ∨ ∃ sz, s.live p = some sz ∧ lines sz = n

structure Inv (s : State) (L : Nat → Nat → List Nat) : Prop where
  chain : ∀ t n, Chain s.mem (s.pool t n) (L t n)
  nodup : ∀ t n, (L t n).Nodup
  one : ∀ p t n t' n', p ∈ L t n → p ∈ L t' n' → t = t' ∧ n = n'
  free : ∀ p t n, p ∈ L t n → s.live p = none
  pos : ∀ p n, Blk s L p n → 0 < n ∧ 0 < p
  disj : ∀ p n q m, Blk s L p n → Blk s L q m → p ≠ q → p + n * line ≤ q ∨ q + m * line ≤ p
  own : ∀ p n, Blk s L p n → ∀ x, p ≤ x → x < p + n * line → s.owned x
  align : s.pools = true → ∀ p n, Blk s L p n → line ∣ p

theorem init_inv {s : State} (h : Init s) : Inv s fun _ _ => [] := by
  have hb : ∀ p n, ¬ Blk s (fun _ _ => []) p n := by
    rintro p n (⟨t, ht⟩ | ⟨sz, hs, _⟩)
    · cases ht
    · rw [h.live] at hs; cases hs
  constructor
  · exact fun t n => h.pool t n
  · intros; exact List.nodup_nil
  · intro p t n t' n' hp; cases hp
  · intro p t n hp; cases hp
  all_goals intro p n; intros; exact absurd (by assumption) (hb _ _)

end Verif.Pool
