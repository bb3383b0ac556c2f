import Verif.Tree.Layer

/-!
The leaves of a layer from left to right, as a scan walks them.
-/
namespace Verif.Tree
open Verif.Permuter (Word size)
variable {α : Type}

/-- A leaf: permutation and slots. -/
abbrev Leaf (α : Type) := Word × List (Slot α)

mutual
/-- The leaves of a layer from left to right.  The code links them by `next_` and `prev_`
(/repo/masstree_struct.hh:268-283); a leaf pointer is a position in this list. -/
def leavesOf : Node α → List (Leaf α)
  | .null => []
  | .leaf perm slots => [(perm, slots)]
  | .inode _ _ kids => leavesOfL kids
def leavesOfL : List (Node α) → List (Leaf α)
  | [] => []
  | c :: cs => leavesOf c ++ leavesOfL cs
end

mutual
/-- `node_base::reach_leaf` (/repo/masstree_struct.hh:632-685), returning the leaf as a
position in the list of leaves. -/
def reachIdx (ikey : Nat) : Node α → Option Nat
  | .null => none
  | .leaf _ _ => some 0
  | .inode _ keys kids => reachIdxNth ikey kids (inodeUpper keys ikey)
def reachIdxNth (ikey : Nat) : List (Node α) → Nat → Option Nat
  | [], _ => none
  | c :: _, 0 => reachIdx ikey c
  | c :: cs, i + 1 => (reachIdxNth ikey cs i).map ((leavesOf c).length + ·)
end

/-- `leaf::ikey_bound`, /repo/masstree_struct.hh:367-369. -/
def ikeyBound (l : Leaf α) : Nat := (slotAt l.2 0).ikey

theorem leavesOfL_append (a b : List (Node α)) : leavesOfL (a ++ b) = leavesOfL a ++ leavesOfL b := by
  induction a with
  | nil => simp [leavesOfL]
  | cons c cs ih => simp [leavesOfL, ih]

theorem entries_leavesOf (n : Node α) :
    entries n = (leavesOf n).flatMap fun l => leafEntries l.1 l.2 := by
  induction n using Node.ind with
  | h0 => simp [entries, leavesOf]
  | h1 p s => simp [entries, leavesOf]
  | h2 ht keys kids ih =>
    simp only [entries, leavesOf]
    induction kids with
    | nil => simp [entriesL, leavesOfL]
    | cons c cs ihc =>
      simp only [entriesL, leavesOfL, List.flatMap_append]
      rw [ih c (by simp), ihc (fun d hd => ih d (by simp [hd]))]

theorem reachIdxNth_eq (ikey : Nat) (C1 : List (Node α)) (c : Node α) (C2 : List (Node α)) :
    reachIdxNth ikey (C1 ++ c :: C2) C1.length
      = (reachIdx ikey c).map ((leavesOfL C1).length + ·) := by
  induction C1 with
  | nil =>
    simp only [List.nil_append, List.length_nil, reachIdxNth, leavesOfL]
    cases reachIdx ikey c <;> simp
  | cons d ds ih =>
    simp only [List.cons_append, List.length_cons, reachIdxNth, ih, leavesOfL, List.length_append]
    cases reachIdx ikey c <;> simp; omega

/-- Leaves that cover `[lo, hi)` one after the other. -/
def LChain (lo hi : Option Nat) : List (Leaf α) → Prop
  | [] => False
  | [l] => LeafInv lo hi l.1 l.2
  | l :: l2 :: ls => ∃ k, LeafInv lo (some k) l.1 l.2 ∧ loLt lo k ∧ ltHi k hi ∧ LChain (some k) hi (l2 :: ls)

theorem LChain.append {lo hi : Option Nat} {k : Nat} {A B : List (Leaf α)} (hA : LChain lo (some k) A)
    (hB : LChain (some k) hi B) (h1 : loLt lo k) (h2 : ltHi k hi) : LChain lo hi (A ++ B) := by
  induction A generalizing lo with
  | nil => simp [LChain] at hA
  | cons l A ih =>
    cases A with
    | nil =>
      cases B with
      | nil => simp [LChain] at hB
      | cons b B => exact ⟨k, hA, h1, h2, hB⟩
    | cons l2 A =>
      obtain ⟨k', a1, a2, a3, a4⟩ := hA
      simp only [ltHi_some] at a3
      exact ⟨k', a1, a2, h2.mono (by omega), ih a4 a3⟩

theorem inv_lchain (n : Node α) : ∀ {lo hi : Option Nat}, Inv lo hi n → LChain lo hi (leavesOf n) := by
  induction n using Node.ind with
  | h0 => intro lo hi h; simp [Inv] at h
  | h1 p s => intro lo hi h; simpa [Inv, leavesOf, LChain] using h
  | h2 ht keys kids ih =>
    intro lo hi h
    simp only [Inv] at h
    simp only [leavesOf]
    obtain ⟨_, h⟩ := h
    have key : ∀ (kids : List (Node α)) (keys : List Nat) (b : Bool) (lo : Option Nat),
        (∀ c ∈ kids, ∀ {lo hi : Option Nat}, Inv lo hi c → LChain lo hi (leavesOf c)) →
        Chain b lo hi ht keys kids → LChain lo hi (leavesOfL kids) := by
      intro kids
      induction kids with
      | nil => intro keys b lo _ hc; cases keys <;> simp [Chain] at hc
      | cons c cs ihc =>
        intro keys b lo hi1 hc
        cases keys with
        | nil =>
          cases cs with
          | nil =>
            simp only [Chain] at hc
            simp only [leavesOfL, List.append_nil]
            exact hi1 c (by simp) hc.1
          | cons _ _ => simp [Chain] at hc
        | cons k ks =>
          simp only [Chain] at hc
          have hr := ihc ks false _ (fun d hd => hi1 d (by simp [hd])) hc.2.2
          rcases hc.1 with ⟨rfl, _, rfl⟩ | ⟨h1, _, h2⟩
          · simpa [leavesOfL, leavesOf] using hr
          · simp only [leavesOfL]
            exact LChain.append (hi1 c (by simp) h1) hr h2 hc.2.1
    exact key kids keys true lo ih h

/-- The situation of one leaf in the chain. -/
structure LAt (lo hi : Option Nat) (A : List (Leaf α)) (l : Leaf α) (B : List (Leaf α))
    (lo' hi' : Option Nat) : Prop where
  inv : LeafInv lo' hi' l.1 l.2
  first : A = [] → lo' = lo
  lo_eq : A ≠ [] → lo' = some (ikeyBound l)
  last : B = [] → hi' = hi
  hi_eq : ∀ l2 B', B = l2 :: B' → hi' = some (ikeyBound l2)
  left : ∀ a ∈ A, ∀ s ∈ leafEntries a.1 a.2, ∃ b, lo' = some b ∧ s.ikey < b
  right : ∀ a ∈ B, ∀ s ∈ leafEntries a.1 a.2, ∃ b, hi' = some b ∧ b ≤ s.ikey
  nonempty : ∀ b, hi' = some b → loLt lo' b
  lt_top : ∀ b, lo' = some b → ltHi b hi ∨ A = []
  hi_le : ∀ x, ltHi x hi' → ltHi x hi

theorem LChain.ranges {lo hi : Option Nat} {ls : List (Leaf α)} (h : LChain lo hi ls) :
    ∀ a ∈ ls, ∀ s ∈ leafEntries a.1 a.2, inR lo hi s.ikey := by
  induction ls generalizing lo with
  | nil => simp
  | cons l ls ih =>
    cases ls with
    | nil => simpa using h.range
    | cons l2 ls =>
      obtain ⟨k, h1, h2, h3, h4⟩ := h
      intro a ha s hs
      rcases List.mem_cons.mp ha with rfl | ha
      · have := h1.range s hs
        exact ⟨this.1, h3.mono (by have := this.2; simp only [ltHi_some] at this; omega)⟩
      · have := ih h4 a ha s hs
        exact ⟨h2.le.mono this.1, this.2⟩

theorem LChain.bound {hi : Option Nat} {k : Nat} {l : Leaf α} {ls : List (Leaf α)}
    (h : LChain (some k) hi (l :: ls)) : ikeyBound l = k := by
  cases ls with
  | nil => exact LeafInv.bound h k rfl
  | cons l2 ls => obtain ⟨k', h1, _⟩ := h; exact h1.bound k rfl

theorem LChain.at {lo hi : Option Nat} {A : List (Leaf α)} {l : Leaf α} {B : List (Leaf α)}
    (h : LChain lo hi (A ++ l :: B)) (hlo : ∀ b, hi = some b → loLt lo b) :
    ∃ lo' hi', LAt lo hi A l B lo' hi' := by
  induction A generalizing lo with
  | nil =>
    cases B with
    | nil =>
      refine ⟨lo, hi, h, fun _ => rfl, by simp, fun _ => rfl, by simp, by simp, by simp, hlo, by simp, fun x h => h⟩
    | cons l2 B =>
      obtain ⟨k, h1, h2, h3, h4⟩ := h
      have hb := h4.bound
      refine ⟨lo, some k, h1, fun _ => rfl, by simp, by simp, ?_, by simp, ?_, ?_, by simp, ?_⟩
      · intro l3 B' e
        simp only [List.cons.injEq] at e
        rw [← e.1, hb]
      · intro a ha s hs
        exact ⟨k, rfl, (h4.ranges a ha s hs).1⟩
      · intro b hb'
        simp only [Option.some.injEq] at hb'
        exact hb' ▸ h2
      · intro x hx
        exact h3.mono (Nat.le_of_lt hx)
  | cons a A ih =>
    have hcons : ∃ l2 ls, A ++ l :: B = l2 :: ls := by cases A <;> simp
    obtain ⟨l2, ls, e⟩ := hcons
    rw [List.cons_append, e] at h
    obtain ⟨k, h1, h2, h3, h4⟩ := h
    rw [← e] at h4
    obtain ⟨lo', hi', g⟩ := ih h4 (by rintro b rfl; exact h3)
    have hlo' : ∃ b, lo' = some b ∧ k ≤ b ∧ ltHi b hi ∧ ikeyBound l = b := by
      by_cases hA : A = []
      · have := g.first hA
        subst hA
        exact ⟨k, this, Nat.le_refl k, h3, LChain.bound h4⟩
      · refine ⟨_, g.lo_eq hA, ?_, ?_, rfl⟩
        · obtain ⟨b, A', rfl⟩ := List.exists_cons_of_ne_nil hA
          -- the chain starts at `k`
          have : ∀ (A : List (Leaf α)) (k : Nat), LChain (some k) hi (A ++ l :: B) → k ≤ ikeyBound l := by
            intro A
            induction A with
            | nil => intro k h; exact Nat.le_of_eq (LChain.bound h).symm
            | cons a A ih =>
              intro k h
              obtain ⟨l2, ls, e⟩ : ∃ l2 ls, A ++ l :: B = l2 :: ls := by cases A <;> simp
              rw [List.cons_append, e] at h
              obtain ⟨k', _, q2, _, q4⟩ := h
              rw [← e] at q4
              have := ih k' q4
              simp only [loLt_some] at q2
              omega
          exact this _ _ h4
        · exact (g.lt_top _ (g.lo_eq hA)).resolve_right hA
    obtain ⟨b, e1, e2, e3, e4⟩ := hlo'
    refine ⟨lo', hi', g.inv, by simp, fun _ => by rw [e1, e4], g.last, g.hi_eq, ?_, g.right, g.nonempty, ?_, g.hi_le⟩
    · intro x hx s hs
      rcases List.mem_cons.mp hx with rfl | hx
      · refine ⟨b, e1, ?_⟩
        have := (h1.range s hs).2
        simp only [ltHi_some] at this
        omega
      · exact g.left x hx s hs
    · intro b' hb'
      rw [e1] at hb'
      simp only [Option.some.injEq] at hb'
      exact .inl (hb' ▸ e3)

/-- Where the descent for `x` ends. -/
theorem reachIdx_spec (x : Nat) (n : Node α) : ∀ {lo hi : Option Nat}, Inv lo hi n → inR lo hi x →
    ∃ A l B, leavesOf n = A ++ l :: B ∧ reachIdx x n = some A.length ∧
      ((A ≠ [] ∨ lo ≠ none) → ikeyBound l ≤ x) ∧ (∀ l2 B', B = l2 :: B' → x < ikeyBound l2) := by
  induction n using Node.ind with
  | h0 => intro lo hi h; simp [Inv] at h
  | h1 perm slots =>
    intro lo hi h hx
    simp only [Inv] at h
    refine ⟨[], (perm, slots), [], by simp [leavesOf], by simp [reachIdx], ?_, by simp⟩
    rintro (h0 | h0)
    · simp at h0
    · obtain ⟨b, rfl⟩ := Option.ne_none_iff_exists'.mp h0
      have := h.bound b rfl
      have := hx.1
      simp only [loLe_some] at this
      simp only [ikeyBound]; omega
  | h2 ht keys kids ih =>
    intro lo hi h hx
    simp only [Inv] at h
    obtain ⟨K1, K2, C1, c, C2, lo', b', hf⟩ := h.2.focus hx
    have hc : c ∈ kids := by rw [hf.kids_eq]; simp
    obtain ⟨A, l, B, h1, h2, h3, h4⟩ := ih c hc hf.inv hf.inR
    refine ⟨leavesOfL C1 ++ A, l, B ++ leavesOfL C2, ?_, ?_, ?_, ?_⟩
    · simp only [leavesOf]
      rw [hf.kids_eq, leavesOfL_append]
      simp [leavesOfL, h1]
    · simp only [reachIdx]
      rw [hf.upper hf.inR, hf.kids_eq, hf.len, reachIdxNth_eq, h2]
      simp
    · intro h0
      apply h3
      by_cases hA : A = []
      · right
        rw [Ne, hf.lo_none]
        rintro ⟨e1, e2⟩
        rw [hf.len] at e1
        have := List.length_eq_zero_iff.mp e1
        subst this
        simp [leavesOfL, hA, e2] at h0
      · exact .inl hA
    · intro l2 B' e
      cases B with
      | cons b B =>
        simp only [List.cons_append, List.cons.injEq] at e
        exact h4 l2 B (by rw [e.1])
      | nil =>
        simp only [List.nil_append] at e
        have hch := hf.chain
        cases K2 with
        | nil =>
          cases C2 with
          | nil => simp [leavesOfL] at e
          | cons => simp [Chain] at hch
        | cons k ks =>
          simp only [Chain] at hch
          have hx' := hf.gt k (by simp)
          cases C2 with
          | nil => simp [leavesOfL] at e
          | cons d ds =>
            have hd : ∃ hi, Inv (some k) hi d := by
              cases ks with
              | nil =>
                cases ds with
                | nil => exact ⟨_, hch.2.2.1⟩
                | cons => exact absurd hch.2.2 (by simp [Chain])
              | cons k2 ks =>
                rcases hch.2.2.1 with ⟨_, h0, _⟩ | ⟨h0, _⟩
                · simp at h0
                · exact ⟨_, h0⟩
            obtain ⟨hi2, hd⟩ := hd
            have hl := inv_lchain d hd
            cases hld : leavesOf d with
            | nil => rw [hld] at hl; simp [LChain] at hl
            | cons l3 r =>
              rw [hld] at hl
              simp only [leavesOfL, hld, List.cons_append, List.cons.injEq] at e
              rw [← e.1, hl.bound]
              exact hx'

end Verif.Tree
