import Verif.Tree.LeafEdit

/-!
Edits of a whole layer: descent to the responsible leaf, splits and removals carried back up.
-/
namespace Verif.Tree
open Verif.Permuter (Word)
open Verif.Key (cmp3)
variable {α : Type}

/-- The children left of a focus: `lo'` is the focus' lower end, `b'` whether it is the first
child. -/
def Left (b : Bool) (lo hi : Option Nat) (ht : Nat) :
    List Nat → List (Node α) → Option Nat → Bool → Prop
  | [], [], lo', b' => lo' = lo ∧ b' = b
  | k :: ks, c :: cs, lo', b' =>
    ((c = .null ∧ b = true ∧ lo = some k) ∨ (Inv lo (some k) c ∧ height c < ht ∧ loLt lo k)) ∧
      ltHi k hi ∧ Left false (some k) hi ht ks cs lo' b'
  | _, _, _, _ => False

/-- Upper end of the first child's interval. -/
def nextHi : List Nat → Option Nat → Option Nat
  | [], hi => hi
  | k :: _, _ => some k

theorem chain_iff {hi : Option Nat} {ht : Nat} {K2 : List Nat} {C2 : List (Node α)} :
    ∀ {K1 : List Nat} {C1 : List (Node α)} {b : Bool} {lo : Option Nat}, K1.length = C1.length →
    (Chain b lo hi ht (K1 ++ K2) (C1 ++ C2) ↔
      ∃ lo' b', Left b lo hi ht K1 C1 lo' b' ∧ Chain b' lo' hi ht K2 C2) := by
  intro K1
  induction K1 with
  | nil =>
    intro C1 b lo hl
    cases C1 with
    | nil =>
      simp only [Left, List.nil_append]
      constructor
      · intro h; exact ⟨lo, b, ⟨rfl, rfl⟩, h⟩
      · rintro ⟨lo', b', ⟨rfl, rfl⟩, h⟩; exact h
    | cons => simp at hl
  | cons k ks ih =>
    intro C1 b lo hl
    cases C1 with
    | nil => simp at hl
    | cons c cs =>
      simp only [List.cons_append, Chain, Left]
      rw [ih (by simpa using hl)]
      constructor
      · rintro ⟨h1, h2, lo', b', h3, h4⟩; exact ⟨lo', b', ⟨h1, h2, h3⟩, h4⟩
      · rintro ⟨lo', b', ⟨h1, h2, h3⟩, h4⟩; exact ⟨h1, h2, lo', b', h3, h4⟩

theorem Left.length {hi : Option Nat} {ht : Nat} : ∀ {K1 : List Nat} {C1 : List (Node α)} {b b' : Bool}
    {lo lo' : Option Nat}, Left b lo hi ht K1 C1 lo' b' → K1.length = C1.length := by
  intro K1
  induction K1 with
  | nil => intro C1 b b' lo lo' h; cases C1 <;> simp_all [Left]
  | cons k ks ih =>
    intro C1 b b' lo lo' h
    cases C1 with
    | nil => simp [Left] at h
    | cons c cs => simp only [Left] at h; simp [ih h.2.2]

theorem Chain.length {hi : Option Nat} {ht : Nat} : ∀ {K1 : List Nat} {C1 : List (Node α)} {b : Bool}
    {lo : Option Nat}, Chain b lo hi ht K1 C1 → C1.length = K1.length + 1 := by
  intro K1
  induction K1 with
  | nil =>
    intro C1 b lo h
    match C1, h with
    | [c], _ => rfl
  | cons k ks ih =>
    intro C1 b lo h
    cases C1 with
    | nil => simp [Chain] at h
    | cons c cs => simp only [Chain] at h; simp [ih h.2.2]

theorem left_snoc {hi : Option Nat} {ht : Nat} {k : Nat} {p : Node α} {lo' : Option Nat} {b' : Bool} :
    ∀ {K1 : List Nat} {C1 : List (Node α)} {b : Bool} {lo : Option Nat}, K1.length = C1.length →
    (Left b lo hi ht (K1 ++ [k]) (C1 ++ [p]) lo' b' ↔
      ∃ lo'' b'', Left b lo hi ht K1 C1 lo'' b'' ∧
        ((p = .null ∧ b'' = true ∧ lo'' = some k) ∨ (Inv lo'' (some k) p ∧ height p < ht ∧ loLt lo'' k)) ∧
        ltHi k hi ∧ lo' = some k ∧ b' = false) := by
  intro K1
  induction K1 with
  | nil =>
    intro C1 b lo hl
    cases C1 with
    | nil =>
      simp only [Left, List.nil_append]
      constructor
      · rintro ⟨h1, h2, h3⟩; exact ⟨lo, b, ⟨rfl, rfl⟩, h1, h2, h3⟩
      · rintro ⟨lo'', b'', ⟨rfl, rfl⟩, h1, h2, h3⟩; exact ⟨h1, h2, h3⟩
    | cons => simp at hl
  | cons k0 ks ih =>
    intro C1 b lo hl
    cases C1 with
    | nil => simp at hl
    | cons c cs =>
      simp only [List.cons_append, Left]
      rw [ih (by simpa using hl)]
      constructor
      · rintro ⟨h1, h2, lo'', b'', h3, h4⟩; exact ⟨lo'', b'', ⟨h1, h2, h3⟩, h4⟩
      · rintro ⟨lo'', b'', ⟨h1, h2, h3⟩, h4⟩; exact ⟨h1, h2, lo'', b'', h3, h4⟩

theorem sep_le {lo : Option Nat} {k ht : Nat} {b : Bool} {c : Node α}
    (h : (c = .null ∧ b = true ∧ lo = some k) ∨ (Inv lo (some k) c ∧ height c < ht ∧ loLt lo k)) :
    loLe lo k := by
  rcases h with ⟨_, _, h⟩ | ⟨_, _, h⟩
  · subst h; simp
  · exact h.le

/-- The focus starts at or after the start of the chain, and the separators left of it are at
most its lower end. -/
theorem Left.keys_le {hi : Option Nat} {ht : Nat} : ∀ {K1 : List Nat} {C1 : List (Node α)} {b b' : Bool}
    {lo lo' : Option Nat}, Left b lo hi ht K1 C1 lo' b' →
    (∀ k ∈ K1, ∀ y, loLe lo' y → k ≤ y) ∧ (∀ y, loLe lo' y → loLe lo y) ∧
    (lo' = none ↔ K1 = [] ∧ lo = none) ∧ (b' = true ↔ K1 = [] ∧ b = true) := by
  intro K1
  induction K1 with
  | nil =>
    intro C1 b b' lo lo' h
    cases C1 with
    | nil => obtain ⟨rfl, rfl⟩ := h; simp
    | cons => simp [Left] at h
  | cons k ks ih =>
    intro C1 b b' lo lo' h
    cases C1 with
    | nil => simp [Left] at h
    | cons c cs =>
      simp only [Left] at h
      obtain ⟨i1, i2, i3, i4⟩ := ih h.2.2
      have hlo := sep_le h.1
      refine ⟨?_, ?_, ?_, ?_⟩
      · intro k' hk' y hy
        rcases List.mem_cons.mp hk' with rfl | hk'
        · exact i2 y hy
        · exact i1 k' hk' y hy
      · intro y hy
        exact hlo.mono (i2 y hy)
      · rw [i3]; simp
      · rw [i4]; simp

theorem Chain.range {hi : Option Nat} {ht : Nat} : ∀ {keys : List Nat} {kids : List (Node α)} {b : Bool}
    {lo : Option Nat}, Chain b lo hi ht keys kids → ∀ s ∈ entriesL kids, inR lo hi s.ikey := by
  intro keys
  induction keys with
  | nil =>
    intro kids b lo h s hs
    match kids, h with
    | [c], h =>
      simp only [Chain] at h
      simp only [entriesL, List.append_nil] at hs
      exact h.1.sorted_range.2 s hs
  | cons k ks ih =>
    intro kids b lo h s hs
    cases kids with
    | nil => simp [Chain] at h
    | cons c cs =>
      simp only [Chain] at h
      simp only [entriesL] at hs
      have hlo := sep_le h.1
      rcases List.mem_append.mp hs with hs | hs
      · rcases h.1 with ⟨rfl, _⟩ | ⟨h1, _⟩
        · simp [entries] at hs
        · have := h1.sorted_range.2 s hs
          refine ⟨this.1, h.2.1.mono ?_⟩
          have := this.2; simp only [ltHi_some] at this; omega
      · have := ih h.2.2 s hs
        exact ⟨hlo.mono this.1, this.2⟩

theorem Left.below {hi : Option Nat} {ht : Nat} : ∀ {K1 : List Nat} {C1 : List (Node α)} {b b' : Bool}
    {lo lo' : Option Nat}, Left b lo hi ht K1 C1 lo' b' →
    ∀ s ∈ entriesL C1, ∀ y, loLe lo' y → s.ikey < y := by
  intro K1
  induction K1 with
  | nil =>
    intro C1 b b' lo lo' h
    cases C1 with
    | nil => simp [entriesL]
    | cons => simp [Left] at h
  | cons k ks ih =>
    intro C1 b b' lo lo' h
    cases C1 with
    | nil => simp [Left] at h
    | cons c cs =>
      simp only [Left] at h
      intro s hs y hy
      simp only [entriesL] at hs
      rcases List.mem_append.mp hs with hs | hs
      · rcases h.1 with ⟨rfl, _⟩ | ⟨h1, _⟩
        · simp [entries] at hs
        · have h2 := (h1.sorted_range.2 s hs).2
          have h3 := h.2.2.keys_le.2.1 y hy
          simp only [ltHi_some, loLe_some] at h2 h3
          omega
      · exact ih h.2.2 s hs y hy

/-- The separators of a chain lie strictly between its ends and are strictly increasing. -/
theorem Chain.keys_sorted {hi : Option Nat} {ht : Nat} : ∀ {keys : List Nat} {kids : List (Node α)}
    {b : Bool} {lo : Option Nat}, Chain b lo hi ht keys kids →
    keys.Pairwise (· < ·) ∧ (∀ k ∈ keys, ltHi k hi ∧ loLe lo k) ∧ (b = false → ∀ k ∈ keys, loLt lo k) := by
  intro keys
  induction keys with
  | nil => intro kids b lo h; simp
  | cons k ks ih =>
    intro kids b lo h
    cases kids with
    | nil => simp [Chain] at h
    | cons c cs =>
      simp only [Chain] at h
      obtain ⟨i1, i2, i3⟩ := ih h.2.2
      have hlo := sep_le h.1
      have i3' := i3 rfl
      refine ⟨List.pairwise_cons.mpr ⟨fun k' hk' => i3' k' hk', i1⟩, ?_, ?_⟩
      · intro k' hk'
        rcases List.mem_cons.mp hk' with rfl | hk'
        · exact ⟨h.2.1, hlo⟩
        · exact ⟨(i2 k' hk').1, hlo.mono (i2 k' hk').2⟩
      · intro hb k' hk'
        have hk : loLt lo k := by
          rcases h.1 with ⟨_, h1, _⟩ | ⟨_, _, h1⟩
          · rw [hb] at h1; simp at h1
          · exact h1
        rcases List.mem_cons.mp hk' with rfl | hk'
        · exact hk
        · exact hk.le.mono (Nat.le_refl _) |> fun h' => loLt.of_le_lt h' (i3' k' hk')

theorem getD_append_left' {K1 K2 : List Nat} {j : Nat} (h : j < K1.length) :
    (K1 ++ K2).getD j 0 ∈ K1 := by
  rw [List.getD_eq_getElem?_getD, List.getElem?_append_left h]
  simp [h]

theorem getD_append_right' {K1 K2 : List Nat} {j : Nat} (h : K1.length ≤ j)
    (h2 : j < (K1 ++ K2).length) : (K1 ++ K2).getD j 0 ∈ K2 := by
  rw [List.length_append] at h2
  rw [List.getD_eq_getElem?_getD, List.getElem?_append_right h]
  rw [List.getElem?_eq_getElem (by omega)]
  simp

theorem inode_sorted {keys : List Nat} (h : keys.Pairwise (· < ·)) (x : Nat) :
    Props.C08.Sorted id (fun i => cmp3 x (keys.getD i 0)) keys.length := by
  intro i j hij hj
  have hlt : keys.getD i 0 < keys.getD j 0 := by
    rw [List.getD_eq_getElem?_getD, List.getD_eq_getElem?_getD,
      List.getElem?_eq_getElem (by omega), List.getElem?_eq_getElem hj]
    exact List.pairwise_iff_getElem.mp h i j (by omega) hj hij
  simp only [id_eq]
  rcases cmp3_cases x (keys.getD i 0) with ⟨c, e⟩ | ⟨c, e⟩ | ⟨c, e⟩ <;>
  rcases cmp3_cases x (keys.getD j 0) with ⟨c', e'⟩ | ⟨c', e'⟩ | ⟨c', e'⟩ <;> omega

/-- The internode search finds the split of the separators into those `≤ x` and those `> x`. -/
theorem inodeUpper_eq {K1 K2 : List Nat} {x : Nat} (h : (K1 ++ K2).Pairwise (· < ·))
    (h1 : ∀ k ∈ K1, k ≤ x) (h2 : ∀ k ∈ K2, x < k) : inodeUpper (K1 ++ K2) x = K1.length := by
  apply Props.C08.isUpper_unique (Props.C08.upper_spec (inode_sorted h x))
  refine ⟨by simp, ?_, ?_⟩
  · intro j hj
    have := h1 _ (getD_append_left' (K2 := K2) hj)
    simp only [id_eq]
    rcases cmp3_cases x ((K1 ++ K2).getD j 0) with ⟨c, e⟩ | ⟨c, e⟩ | ⟨c, e⟩ <;> omega
  · intro j hj hj2
    have := h2 _ (getD_append_right' hj hj2)
    simp only [id_eq]
    rcases cmp3_cases x ((K1 ++ K2).getD j 0) with ⟨c, e⟩ | ⟨c, e⟩ | ⟨c, e⟩ <;> omega

theorem split_sorted {keys : List Nat} (h : keys.Pairwise (· < ·)) (x : Nat) :
    ∃ K1 K2, keys = K1 ++ K2 ∧ (∀ k ∈ K1, k ≤ x) ∧ (∀ k ∈ K2, x < k) := by
  induction keys with
  | nil => exact ⟨[], [], rfl, by simp, by simp⟩
  | cons k ks ih =>
    rw [List.pairwise_cons] at h
    by_cases c : k ≤ x
    · obtain ⟨K1, K2, e, h1, h2⟩ := ih h.2
      refine ⟨k :: K1, K2, by rw [e]; rfl, ?_, h2⟩
      intro k' hk'
      rcases List.mem_cons.mp hk' with rfl | hk'
      · exact c
      · exact h1 k' hk'
    · refine ⟨[], k :: ks, rfl, by simp, ?_⟩
      intro k' hk'
      rcases List.mem_cons.mp hk' with rfl | hk'
      · omega
      · have := h.1 k' hk'; omega

/-- The situation after descending one step: the chain cut at the child responsible for `x`. -/
structure Focus (b : Bool) (lo hi : Option Nat) (ht : Nat) (keys : List Nat) (kids : List (Node α))
    (x : Nat) (K1 K2 : List Nat) (C1 : List (Node α)) (c : Node α) (C2 : List (Node α))
    (lo' : Option Nat) (b' : Bool) : Prop where
  keys_eq : keys = K1 ++ K2
  kids_eq : kids = C1 ++ c :: C2
  len : K1.length = C1.length
  left : Left b lo hi ht K1 C1 lo' b'
  chain : Chain b' lo' hi ht K2 (c :: C2)
  sorted : (K1 ++ K2).Pairwise (· < ·)
  gt : ∀ k ∈ K2, x < k
  inv : Inv lo' (nextHi K2 hi) c
  height : height c < ht
  inR : inR lo' (nextHi K2 hi) x

theorem nextHi_inR {lo hi : Option Nat} {K2 : List Nat} {x : Nat} (h : inR lo hi x)
    (hx : ∀ k ∈ K2, x < k) : inR lo (nextHi K2 hi) x := by
  cases K2 with
  | nil => exact h
  | cons k ks => exact ⟨h.1, hx k (by simp)⟩

theorem Chain.head {b : Bool} {lo hi : Option Nat} {ht : Nat} {K2 : List Nat} {c : Node α}
    {C2 : List (Node α)} {x : Nat} (h : Chain b lo hi ht K2 (c :: C2)) (hx : Tree.inR lo hi x)
    (hgt : ∀ k ∈ K2, x < k) : Inv lo (nextHi K2 hi) c ∧ Tree.height c < ht := by
  cases K2 with
  | nil =>
    cases C2 with
    | nil => simp only [Chain] at h; exact h
    | cons => simp [Chain] at h
  | cons k ks =>
    simp only [Chain] at h
    rcases h.1 with ⟨_, _, h1⟩ | ⟨h1, h2, _⟩
    · subst h1
      have := hx.1; have := hgt k (by simp)
      simp only [loLe_some] at *; omega
    · exact ⟨h1, h2⟩

theorem Chain.focus {b : Bool} {lo hi : Option Nat} {ht : Nat} {keys : List Nat} {kids : List (Node α)}
    {x : Nat} (h : Chain b lo hi ht keys kids) (hx : Tree.inR lo hi x) :
    ∃ K1 K2 C1 c C2 lo' b', Focus b lo hi ht keys kids x K1 K2 C1 c C2 lo' b' := by
  have hs := h.keys_sorted.1
  have hlen := h.length
  obtain ⟨K1, K2, e, h1, h2⟩ := split_sorted hs x
  subst e
  rw [List.length_append] at hlen
  have hkids : kids = kids.take K1.length ++ kids.drop K1.length := by simp
  have hl1 : K1.length = (kids.take K1.length).length := by simp; omega
  rw [hkids, chain_iff hl1] at h
  obtain ⟨lo', b', hL, hC⟩ := h
  cases hd : kids.drop K1.length with
  | nil => have := congrArg List.length hd; simp at this; omega
  | cons c C2 =>
    rw [hd] at hC
    have hlo' : loLe lo' x := by
      -- the focus' lower end is either `lo` or one of the separators in `K1`
      have key : ∀ (K1 : List Nat) (C1 : List (Node α)) (b b' : Bool) (lo lo' : Option Nat),
          Left b lo hi ht K1 C1 lo' b' → loLe lo x → (∀ k ∈ K1, k ≤ x) → loLe lo' x := by
        intro K1
        induction K1 with
        | nil =>
          intro C1 b b' lo lo' h hlo _
          cases C1 with
          | nil => simp only [Left] at h; rw [h.1]; exact hlo
          | cons => simp [Left] at h
        | cons k ks ih =>
          intro C1 b b' lo lo' h hlo hk
          cases C1 with
          | nil => simp [Left] at h
          | cons c cs =>
            simp only [Left] at h
            exact ih cs _ _ _ _ h.2.2 (hk k (by simp)) (fun k hk' => hk k (by simp [hk']))
      exact key K1 _ _ _ _ _ hL hx.1 h1
    have hh := hC.head ⟨hlo', hx.2⟩ h2
    exact ⟨K1, K2, kids.take K1.length, c, C2, lo', b',
      ⟨rfl, by rw [← hd]; exact hkids, hl1, hL, hC, hs, h2, hh.1, hh.2,
        nextHi_inR ⟨hlo', hx.2⟩ h2⟩⟩

namespace Focus
variable {b : Bool} {lo hi : Option Nat} {ht : Nat} {keys : List Nat} {kids : List (Node α)}
    {x : Nat} {K1 K2 : List Nat} {C1 : List (Node α)} {c : Node α} {C2 : List (Node α)}
    {lo' : Option Nat} {b' : Bool}

/-- Every slice in the focused child's interval leads to the focused child. -/
theorem upper (h : Focus b lo hi ht keys kids x K1 K2 C1 c C2 lo' b') {y : Nat}
    (hy : Tree.inR lo' (nextHi K2 hi) y) : inodeUpper keys y = K1.length := by
  rw [h.keys_eq]
  refine inodeUpper_eq h.sorted (fun k hk => h.left.keys_le.1 k hk y hy.1) ?_
  intro k hk
  have hs := h.sorted
  cases K2 with
  | nil => simp at hk
  | cons k0 ks =>
    have h0 : y < k0 := hy.2
    rcases List.mem_cons.mp hk with rfl | hk
    · exact h0
    · have := (List.pairwise_append.mp hs).2.1
      have := (List.pairwise_cons.mp this).1 k hk
      omega

theorem nth (h : Focus b lo hi ht keys kids x K1 K2 C1 c C2 lo' b') : kids[K1.length]? = some c := by
  rw [h.kids_eq, h.len]; simp

theorem set (h : Focus b lo hi ht keys kids x K1 K2 C1 c C2 lo' b') (c' : Node α) :
    kids.set K1.length c' = C1 ++ c' :: C2 := by
  rw [h.kids_eq, h.len]; simp

theorem entries_eq (h : Focus b lo hi ht keys kids x K1 K2 C1 c C2 lo' b') :
    entriesL kids = entriesL C1 ++ entries c ++ entriesL C2 := by
  rw [h.kids_eq, entriesL_append]; simp [entriesL]

theorem allBelow (h : Focus b lo hi ht keys kids x K1 K2 C1 c C2 lo' b') {q : LKey} (hq : q.ikey = x) :
    AllBelow q (entriesL C1) := by
  intro s hs
  have := h.left.below s hs x h.inR.1
  exact .inl (by simp only [Slot.key, LKey.key]; omega)

theorem allAbove (h : Focus b lo hi ht keys kids x K1 K2 C1 c C2 lo' b') {q : LKey} (hq : q.ikey = x) :
    AllAbove q (entriesL C2) := by
  intro s hs
  have hc := h.chain
  cases K2 with
  | nil =>
    cases C2 with
    | nil => simp [entriesL] at hs
    | cons => simp [Chain] at hc
  | cons k ks =>
    simp only [Chain] at hc
    have h1 := (hc.2.2.range s hs).1
    have h2 := h.gt k (by simp)
    simp only [loLe_some] at h1
    exact .inl (by simp only [Slot.key, LKey.key]; omega)

theorem lo_none (h : Focus b lo hi ht keys kids x K1 K2 C1 c C2 lo' b') :
    lo' = none ↔ K1.length = 0 ∧ lo = none := by
  rw [h.left.keys_le.2.2.1, List.length_eq_zero_iff]

theorem hi_none (h : Focus b lo hi ht keys kids x K1 K2 C1 c C2 lo' b') :
    nextHi K2 hi = none ↔ K1.length = keys.length ∧ hi = none := by
  rw [h.keys_eq]
  cases K2 <;> simp [nextHi]

/-- Put another subtree in the focus. -/
theorem set_chain (h : Focus b lo hi ht keys kids x K1 K2 C1 c C2 lo' b') {c' : Node α}
    (h1 : Inv lo' (nextHi K2 hi) c') (h2 : Tree.height c' < ht) :
    Chain b' lo' hi ht K2 (c' :: C2) := by
  have hc := h.chain
  have hr := h.inR
  have hgt := h.gt
  cases K2 with
  | nil =>
    cases C2 with
    | nil => exact ⟨h1, h2⟩
    | cons => simp [Chain] at hc
  | cons k ks =>
    simp only [Chain] at hc ⊢
    exact ⟨.inr ⟨h1, h2, .of_le_lt hr.1 (hgt k (by simp))⟩, hc.2⟩

/-- Put two subtrees in the focus. -/
theorem split_chain (h : Focus b lo hi ht keys kids x K1 K2 C1 c C2 lo' b') {l r : Node α} {k : Nat}
    (h1 : Inv lo' (some k) l) (h2 : Inv (some k) (nextHi K2 hi) r) (h3 : Tree.height l < ht)
    (h4 : Tree.height r < ht) (h5 : loLt lo' k) (h6 : ltHi k (nextHi K2 hi)) :
    Chain b' lo' hi ht (k :: K2) (l :: r :: C2) := by
  have hc := h.chain
  cases K2 with
  | nil =>
    cases C2 with
    | nil =>
      simp only [Chain, nextHi] at *
      exact ⟨.inr ⟨h1, h3, h5⟩, h6, h2, h4⟩
    | cons => simp [Chain] at hc
  | cons k' ks =>
    simp only [Chain, nextHi] at *
    exact ⟨.inr ⟨h1, h3, h5⟩, hc.2.1.mono (by simp only [ltHi_some] at h6; omega),
      .inr ⟨h2, h4, h6⟩, hc.2⟩

end Focus

theorem reachNth_eq (ikey : Nat) (kids : List (Node α)) (i : Nat) :
    reachNth ikey kids i = (kids[i]?).elim none (reach ikey) := by
  induction kids generalizing i with
  | nil => simp [reachNth]
  | cons c cs ih => cases i <;> simp [reachNth, ih]

theorem updNth_eq (f : Bool → Bool → Word → List (Slot α) → Ins α) (ikey : Nat) (lm rm : Bool)
    (kids : List (Node α)) (i : Nat) :
    updNth f ikey lm rm kids i = (kids[i]?).elim .fail (upd f ikey lm rm) := by
  induction kids generalizing i with
  | nil => simp [updNth]
  | cons c cs ih => cases i <;> simp [updNth, ih]

theorem remNth_eq (f : Bool → Bool → Word → List (Slot α) → Rem α) (ikey : Nat) (lm rm : Bool)
    (kids : List (Node α)) (i : Nat) :
    remNth f ikey lm rm kids i = (kids[i]?).elim .fail (rem f ikey false lm rm) := by
  induction kids generalizing i with
  | nil => simp [remNth]
  | cons c cs ih => cases i <;> simp [remNth, ih]

/-! ### Lookup -/

/-- Descent always ends at the leaf responsible for the slice. -/
theorem reach_spec (x : LKey) (n : Node α) : ∀ (lo hi : Option Nat), Inv lo hi n → inR lo hi x.ikey →
    ∃ lo' hi' perm slots A B, reach x.ikey n = some (perm, slots) ∧ LeafInv lo' hi' perm slots ∧
      inR lo' hi' x.ikey ∧ entries n = A ++ leafEntries perm slots ++ B ∧ AllBelow x A ∧ AllAbove x B := by
  induction n using Node.ind with
  | h0 => intro lo hi h; simp [Inv] at h
  | h1 perm slots =>
    intro lo hi h hx
    exact ⟨lo, hi, perm, slots, [], [], by simp [reach], h, hx, by simp [entries],
      by simp [AllBelow], by simp [AllAbove]⟩
  | h2 ht keys kids ih =>
    intro lo hi h hx
    simp only [Inv] at h
    obtain ⟨K1, K2, C1, c, C2, lo', b', hf⟩ := h.2.focus hx
    have hc : c ∈ kids := by rw [hf.kids_eq]; simp
    obtain ⟨lo2, hi2, perm, slots, A, B, h1, h2, h3, h4, h5, h6⟩ := ih c hc _ _ hf.inv hf.inR
    refine ⟨lo2, hi2, perm, slots, entriesL C1 ++ A, B ++ entriesL C2, ?_, h2, h3, ?_, ?_, ?_⟩
    · simp only [reach]
      rw [reachNth_eq, hf.upper hf.inR, hf.nth]
      exact h1
    · simp only [entries]
      rw [hf.entries_eq, h4]; simp
    · intro s hs
      rcases List.mem_append.mp hs with hs | hs
      · exact hf.allBelow rfl s hs
      · exact h5 s hs
    · intro s hs
      rcases List.mem_append.mp hs with hs | hs
      · exact h6 s hs
      · exact hf.allAbove rfl s hs

theorem matching_le_one {x : LKey} {l : List (Slot α)} (h : SSorted l) :
    matching x l = [] ∨ ∃ s, matching x l = [s] := by
  have hs : SSorted (matching x l) := List.Pairwise.sublist List.filter_sublist h
  have hk : ∀ s ∈ matching x l, s.key = x.key := by
    intro s hs; unfold matching at hs; simpa using (List.mem_filter.mp hs).2
  match hm : matching x l with
  | [] => exact .inl rfl
  | [s] => exact .inr ⟨s, rfl⟩
  | a :: b :: r =>
    rw [hm] at hs hk
    have := (List.pairwise_cons.mp hs).1 b (by simp)
    rw [hk a (by simp), hk b (by simp)] at this
    exact absurd this (KLt.irrefl _)

/-- Looking a key up in a layer finds exactly the slot with that key. -/
theorem find_spec (x : LKey) {hi : Option Nat} {n : Node α} (h : Inv none hi n) :
    find x n = some (matching x (entries n)).head? := by
  obtain ⟨lo', hi', perm, slots, A, B, h1, h2, h3, h4, h5, h6⟩ :=
    reach_spec x n none none (h.mono_hi (by simp)) (by simp [inR])
  unfold find
  rw [h1, h4, matching_ctx h5 h6]
  dsimp only
  obtain ⟨A', B', hi1, hA, hB, hcase⟩ := leafLower_spec x h2.sorted
  rcases hcase with ⟨hp, h1⟩ | ⟨hp, h2', hlt, h3'⟩
  · rw [hp, h1, matching_sep hA hB]; rfl
  · rw [hp, h3', matching_hit hA hB h2']; rfl

/-! ### Insertion -/

/-- A chain cut at a separator that is not the first. -/
theorem Chain.cut {b : Bool} {lo hi : Option Nat} {ht : Nat} {keys : List Nat} {kids : List (Node α)}
    (h : Chain b lo hi ht keys kids) {m : Nat} (hm0 : 0 < m) (hm : m < keys.length) :
    Chain b lo (some (keys.getD m 0)) ht (keys.take m) (kids.take (m + 1)) ∧
    Chain false (some (keys.getD m 0)) hi ht (keys.drop (m + 1)) (kids.drop (m + 1)) ∧
    loLt lo (keys.getD m 0) ∧ ltHi (keys.getD m 0) hi ∧
    entriesL (kids.take (m + 1)) ++ entriesL (kids.drop (m + 1)) = entriesL kids := by
  have hlen := h.length
  have hs := h.keys_sorted.1
  have hk : keys = keys.take m ++ keys.getD m 0 :: keys.drop (m + 1) := by
    rw [List.getD_eq_getElem?_getD, List.getElem?_eq_getElem hm]
    simp
  have hc : kids = kids.take m ++ kids[m] :: kids.drop (m + 1) := by simp
  have hl : (keys.take m).length = (kids.take m).length := by simp; omega
  have h' := h
  rw [hk, hc, chain_iff hl] at h'
  obtain ⟨lo', b', hL, hC⟩ := h'
  simp only [Chain] at hC
  obtain ⟨h1, h2, h3⟩ := hC
  have hb' : ¬ b' = true := by
    rw [hL.keys_le.2.2.2]
    rintro ⟨h4, _⟩
    have h8 := congrArg List.length h4
    rw [List.length_take, List.length_nil] at h8
    omega
  obtain ⟨h4, h5, h6⟩ : Inv lo' (some (keys.getD m 0)) kids[m] ∧ Tree.height kids[m] < ht ∧
      loLt lo' (keys.getD m 0) := by
    rcases h1 with ⟨_, h1, _⟩ | h1
    · exact absurd h1 hb'
    · exact h1
  have htake : kids.take (m + 1) = kids.take m ++ [kids[m]] := by
    rw [List.take_add_one, List.getElem?_eq_getElem (by omega)]; rfl
  have hL' : Left b lo (some (keys.getD m 0)) ht (keys.take m) (kids.take m) lo' b' := by
    have key : ∀ (K1 : List Nat) (C1 : List (Node α)) (b b' : Bool) (lo lo' : Option Nat),
        Left b lo hi ht K1 C1 lo' b' → loLt lo' (keys.getD m 0) →
        Left b lo (some (keys.getD m 0)) ht K1 C1 lo' b' := by
      intro K1
      induction K1 with
      | nil =>
        intro C1 b b' lo lo' h _
        cases C1 with
        | nil => exact h
        | cons => simp [Left] at h
      | cons k ks ih =>
        intro C1 b b' lo lo' h hlt
        cases C1 with
        | nil => simp [Left] at h
        | cons c cs =>
          simp only [Left] at h ⊢
          refine ⟨h.1, ?_, ih cs _ _ _ _ h.2.2 hlt⟩
          have hne : lo' ≠ none := by rw [Ne, h.2.2.keys_le.2.2.1]; simp
          cases lo' with
          | none => exact absurd rfl hne
          | some b =>
            have := h.2.2.keys_le.2.1 b (by simp)
            simp only [loLe_some, loLt_some, ltHi_some] at *
            omega
    exact key _ _ _ _ _ _ hL h6
  refine ⟨?_, h3, ?_, h2, ?_⟩
  · rw [htake]
    have := (chain_iff (K2 := []) (C2 := [kids[m]]) (hi := some (keys.getD m 0)) (ht := ht) (b := b)
      (lo := lo) hl).mpr ⟨lo', b', hL', h4, h5⟩
    simpa using this
  · -- some separator precedes `m`
    cases lo with
    | none => simp
    | some b =>
      have h0 : 0 < keys.length := by omega
      have := (h.keys_sorted.2.1 keys[0] (List.getElem_mem _)).2
      have h7 := List.pairwise_iff_getElem.mp hs 0 m h0 hm hm0
      rw [List.getD_eq_getElem?_getD, List.getElem?_eq_getElem hm]
      simp only [loLe_some, loLt_some, Option.getD_some] at *
      omega
  · rw [← entriesL_append, List.take_append_drop]

theorem splitInode_eq (st : Nat) {keys : List Nat} {kids : List (Node α)} {p ka : Nat} (value : Node α)
    (hk : keys.length = 15) (hc : kids.length = 16) (hp : p ≤ 15) :
    ∃ m, 0 < m ∧ m < 16 ∧ splitInode st keys kids p ka value =
      (((keys.insertIdx p ka).take m, (kids.insertIdx (p + 1) value).take (m + 1)),
        (keys.insertIdx p ka).getD m 0,
        ((keys.insertIdx p ka).drop (m + 1), (kids.insertIdx (p + 1) value).drop (m + 1))) := by
  refine ⟨if st = 2 then 15 else (15 + 1) / 2, by split <;> omega, by split <;> omega, ?_⟩
  unfold splitInode
  dsimp only
  generalize hm : (if st = 2 then 15 else (15 + 1) / 2) = m
  have h0 : 0 < m := by rw [← hm]; split <;> omega
  have h1 : m ≤ 15 := by rw [← hm]; split <;> omega
  clear hm
  by_cases c : p < m
  · rw [if_pos c]
    refine Prod.ext (Prod.ext ?_ ?_) (Prod.ext ?_ (Prod.ext ?_ ?_)) <;> dsimp only
    · apply List.ext_getElem? ; intro i; grind
    · apply List.ext_getElem? ; intro i; grind
    · grind
    · apply List.ext_getElem? ; intro i; grind
    · apply List.ext_getElem? ; intro i; grind
  · rw [if_neg c]
    by_cases c2 : p = m
    · rw [if_pos c2]
      refine Prod.ext (Prod.ext ?_ ?_) (Prod.ext ?_ (Prod.ext ?_ ?_)) <;> dsimp only
      · apply List.ext_getElem? ; intro i; grind
      · apply List.ext_getElem? ; intro i; grind
      · grind
      · apply List.ext_getElem? ; intro i; grind
      · apply List.ext_getElem? ; intro i; grind
    · rw [if_neg c2]
      refine Prod.ext (Prod.ext ?_ ?_) (Prod.ext ?_ (Prod.ext ?_ ?_)) <;> dsimp only
      · apply List.ext_getElem? ; intro i; grind
      · apply List.ext_getElem? ; intro i; grind
      · grind
      · apply List.ext_getElem? ; intro i; grind
      · apply List.ext_getElem? ; intro i; grind

theorem Chain.weaken {b : Bool} {lo hi : Option Nat} {ht : Nat} {keys : List Nat} {kids : List (Node α)}
    (h : Chain false lo hi ht keys kids) : Chain b lo hi ht keys kids := by
  cases keys with
  | nil => match kids, h with | [c], h => exact h
  | cons k ks =>
    cases kids with
    | nil => simp [Chain] at h
    | cons c cs =>
      simp only [Chain] at h ⊢
      rcases h with ⟨⟨_, h1, _⟩ | h1, h2⟩
      · simp at h1
      · exact ⟨.inr h1, h2⟩

/-- An update of a layer does at the responsible leaf what `f` does, and what `f` does is
visible nowhere else. -/
theorem upd_spec (x : LKey) (M ls : List (Slot α)) (f : Bool → Bool → Word → List (Slot α) → Ins α)
    (hf : ∀ lo hi lm rm perm slots, LeafInv lo hi perm slots → (lm = true ↔ lo = none) →
      inR lo hi x.ikey → matching x (leafEntries perm slots) = M →
      Ins.Ok lo hi 0 (replaceKey x ls (leafEntries perm slots)) (f lm rm perm slots))
    (n : Node α) : ∀ (lo hi : Option Nat) (lm rm : Bool), Inv lo hi n → (lm = true ↔ lo = none) →
      inR lo hi x.ikey → matching x (entries n) = M →
      Ins.Ok lo hi (height n) (replaceKey x ls (entries n)) (upd f x.ikey lm rm n) := by
  induction n using Node.ind with
  | h0 => intro lo hi lm rm h; simp [Inv] at h
  | h1 perm slots =>
    intro lo hi lm rm h hlm hx hm
    simp only [upd, entries, height]
    exact hf lo hi lm rm perm slots h hlm hx hm
  | h2 ht keys kids ih =>
    intro lo hi lm rm h hlm hx hm
    simp only [Inv] at h
    obtain ⟨K1, K2, C1, c, C2, lo', b', fo⟩ := h.2.focus hx
    have hc : c ∈ kids := by rw [fo.kids_eq]; simp
    have hup := fo.upper fo.inR
    simp only [entries] at hm ⊢
    rw [fo.entries_eq, matching_ctx (fo.allBelow rfl) (fo.allAbove rfl)] at hm
    rw [fo.entries_eq, replaceKey_ctx (fo.allBelow rfl) (fo.allAbove rfl)]
    have hok := ih c hc lo' _ (lm && K1.length == 0) (rm && K1.length == keys.length) fo.inv
      (by rw [fo.lo_none, ← hlm]; simp [and_comm]) fo.inR hm
    simp only [upd]
    rw [updNth_eq, hup, fo.nth]
    simp only [Option.elim]
    generalize upd f x.ikey (lm && K1.length == 0) (rm && K1.length == keys.length) c = res at hok
    have hhc := fo.height
    have hlen1 := fo.len
    have hkl : keys.length ≤ 15 := h.1
    have hlenC := h.2.length
    cases res with
    | fail => exact hok
    | done c' =>
      simp only [Ins.Ok] at hok ⊢
      obtain ⟨h1, h2, h3⟩ := hok
      rw [fo.set]
      simp only [Inv, height, entries, true_and, and_true]
      refine ⟨⟨hkl, ?_⟩, ?_⟩
      · rw [fo.keys_eq, chain_iff fo.len]
        exact ⟨lo', b', fo.left, fo.set_chain h1 (by omega)⟩
      · rw [entriesL_append]; simp only [entriesL]; rw [h3]; simp
    | split h' st l k r =>
      simp only [Ins.Ok] at hok
      obtain ⟨h0, h1, h2, h3, h4, h5, h6, h7⟩ := hok
      have hk : inR lo' (nextHi K2 hi) k := ⟨h5.le, h6⟩
      have hupk := fo.upper hk
      simp only []
      unfold parentInsert
      dsimp only
      rw [hupk, fo.set]
      have hchain := fo.split_chain h1 h2 (by omega) (by omega) h5 h6
      have hfull : Chain true lo hi ht (K1 ++ k :: K2) (C1 ++ l :: r :: C2) := by
        rw [chain_iff fo.len]; exact ⟨lo', b', fo.left, hchain⟩
      have hentries : entriesL (C1 ++ l :: r :: C2)
          = entriesL C1 ++ replaceKey x ls (entries c) ++ entriesL C2 := by
        rw [entriesL_append]; simp only [entriesL]; rw [← h7]; simp
      have hins1 : keys.insertIdx K1.length k = K1 ++ k :: K2 := by
        rw [fo.keys_eq, insertIdx_length_append]
      have hins2 : (C1 ++ l :: C2).insertIdx (K1.length + 1) r = C1 ++ l :: r :: C2 := by
        have := insertIdx_length_append (C1 ++ [l]) C2 r
        rw [List.length_append, ← fo.len] at this
        simpa using this
      by_cases c1 : ht > h' + 1
      · rw [if_pos c1]
        have e : (C1 ++ l :: C2).set K1.length (.inode (h' + 1) [k] [l, r])
            = C1 ++ .inode (h' + 1) [k] [l, r] :: C2 := by rw [fo.len]; simp
        rw [e]
        simp only [Ins.Ok, Inv, height, entries, true_and, and_true]
        refine ⟨⟨hkl, ?_⟩, ?_⟩
        · rw [fo.keys_eq, chain_iff fo.len]
          refine ⟨lo', b', fo.left, fo.set_chain ?_ (by simp only [height]; omega)⟩
          simp only [Inv, Chain, List.length_singleton]
          exact ⟨by omega, .inr ⟨h1, by omega, h5⟩, h6, h2, by omega⟩
        · rw [entriesL_append]; simp only [entriesL, entries]; rw [← h7]; simp
      · rw [if_neg c1]
        by_cases c2 : keys.length ≥ 15
        · rw [if_pos c2]
          have hK1 : K1.length ≤ 15 := by
            have := congrArg List.length fo.keys_eq; simp at this; omega
          have hCl : (C1 ++ l :: C2).length = 16 := by
            have := congrArg List.length fo.kids_eq; simp at this ⊢; omega
          obtain ⟨m, hm0, hm1, hs⟩ := splitInode_eq st (ka := k) r (by omega : keys.length = 15) hCl hK1
          rw [hs]
          simp only [Ins.Ok]
          have hkeysl : (K1 ++ k :: K2).length = 16 := by
            have := congrArg List.length fo.keys_eq; simp at this ⊢; omega
          rw [hins1, hins2]
          obtain ⟨q1, q2, q3, q4, q5⟩ := hfull.cut hm0 (by omega)
          simp only [Inv, height, entries]
          have hht : ht = h' + 1 := by omega
          refine ⟨hht.symm, ⟨by rw [List.length_take]; omega, q1⟩, ⟨by rw [List.length_drop]; omega, ?_⟩, hht, trivial, q3, q4, ?_⟩
          · rw [← hht]; exact q2.weaken
          · rw [q5, hentries]
        · rw [if_neg c2]
          rw [hins1, hins2]
          simp only [Ins.Ok, Inv, height, entries, true_and]
          refine ⟨⟨?_, hfull⟩, hentries⟩
          have := congrArg List.length fo.keys_eq; simp at this ⊢; omega

/-! ### Removal -/

theorem Chain.lo_irrel_hole {b : Bool} {lo hi : Option Nat} {ht k : Nat} {ks : List Nat} {c : Node α}
    {cs : List (Node α)} (h : Chain b lo hi ht (k :: ks) (c :: cs)) :
    Chain true (some k) hi ht (k :: ks) (.null :: cs) := by
  simp only [Chain] at h ⊢
  exact ⟨.inl ⟨trivial, trivial, trivial⟩, h.2⟩

theorem isNull_null : (Node.null : Node α).isNull = true := rfl

theorem Inv.not_null {lo hi : Option Nat} {n : Node α} (h : Inv lo hi n) : n.isNull = false := by
  cases n with
  | null => simp [Inv] at h
  | leaf => rfl
  | inode => rfl

/-- The lower end of the first child's interval. -/
theorem Left.nil {b b' : Bool} {lo hi lo' : Option Nat} {ht : Nat} {C1 : List (Node α)}
    (h : Left b lo hi ht [] C1 lo' b') : C1 = [] ∧ lo' = lo ∧ b' = b := by
  cases C1 with
  | nil => exact ⟨rfl, h.1, h.2⟩
  | cons => simp [Left] at h

theorem exists_snoc {β : Type} {l : List β} (h : l ≠ []) : ∃ l' a, l = l' ++ [a] :=
  ⟨l.dropLast, l.getLast h, (List.dropLast_concat_getLast h).symm⟩

/-- `parentRemove` re-establishes the invariant when the focused child has been emptied or
replaced. -/
theorem parentRemove_spec {lo hi : Option Nat} {ht : Nat} {keys : List Nat} {kids : List (Node α)}
    {x : Nat} {K1 K2 : List Nat} {C1 : List (Node α)} {c : Node α} {C2 : List (Node α)}
    {lo' : Option Nat} {b' : Bool} (fo : Focus true lo hi ht keys kids x K1 K2 C1 c C2 lo' b')
    (hkl : keys.length ≤ 15) (isRoot : Bool) (hroot : isRoot = true → lo = none) {ik : Nat}
    {repl : Node α} {res : List (Slot α)} (hik : inR lo' (nextHi K2 hi) ik) (hikr : inR lo hi ik)
    (hr : (repl = .null ∧ lo' ≠ none ∧ res = []) ∨
      (Inv lo' (nextHi K2 hi) repl ∧ height repl < ht ∧ entries repl = res)) :
    Rem.Ok lo hi ht isRoot (entriesL C1 ++ res ++ entriesL C2)
      (parentRemove isRoot ht keys kids ik repl) := by
  unfold parentRemove
  dsimp only
  rw [fo.upper hik, fo.set]
  have hkeys := fo.keys_eq
  rcases hr with ⟨rfl, hlo', rfl⟩ | ⟨h1, h2, rfl⟩
  · -- the child disappears
    simp only [isNull_null, Bool.true_and, List.append_nil]
    by_cases hK : K1 = []
    · -- it was the first child: leave a hole
      subst hK
      obtain ⟨rfl, rfl, rfl⟩ := fo.left.nil
      simp only [List.length_nil, Nat.lt_irrefl, decide_false, Bool.false_eq_true, if_false,
        List.nil_append, Nat.zero_le, true_and, List.getD_cons_zero, and_true, gt_iff_lt,
        isNull_null] at *
      subst hkeys
      have hch := fo.chain
      have hroot' : isRoot = false := by
        cases isRoot with
        | false => rfl
        | true => exact absurd (hroot rfl) hlo'
      cases keys with
      | nil =>
        cases C2 with
        | cons => simp [Chain] at hch
        | nil =>
          simp only [List.length_nil, ne_eq, not_true_eq_false, hroot', Bool.false_eq_true, or_self,
            if_false, Rem.Ok]
          exact ⟨trivial, hikr, .inl ⟨trivial, hlo', by simp [entriesL]⟩⟩
      | cons k ks =>
        have h3 := hch.lo_irrel_hole
        have h4 := hch.keys_sorted.2.1 k (by simp)
        simp only [List.length_cons, ne_eq, Nat.add_eq_zero_iff, Nat.one_ne_zero, and_false,
          not_false_eq_true, true_or, if_true, Nat.zero_lt_succ, List.getD_cons_zero, Rem.Ok, Inv,
          height, entries, entriesL, List.nil_append, and_true] at *
        exact ⟨⟨hkl, h3⟩, Nat.le_refl _, trivial, hikr, hlo', h4.2, h4.1⟩
    · -- close the gap
      obtain ⟨K1', k, rfl⟩ := exists_snoc hK
      have hC : C1 ≠ [] := by
        intro h; have := fo.len; rw [h] at this; simp at this
      obtain ⟨C1', p, rfl⟩ := exists_snoc hC
      have hl' : K1'.length = C1'.length := by have := fo.len; simpa using this
      obtain ⟨lo2, b2, hL, hp, hk, rfl, rfl⟩ := (left_snoc hl').mp fo.left
      have e1 : keys.eraseIdx K1'.length = K1' ++ K2 := by
        rw [hkeys, List.append_assoc, List.eraseIdx_append_of_length_le (by omega)]; simp
      have e2 : (C1' ++ [p] ++ Node.null :: C2).eraseIdx (K1'.length + 1) = C1' ++ p :: C2 := by
        rw [hl', List.eraseIdx_append_of_length_le (by simp)]; simp
      simp only [List.length_append, List.length_singleton, Nat.zero_lt_succ, decide_true, if_true,
        Nat.add_sub_cancel, e1, e2, gt_iff_lt]
      have hch := fo.chain
      have hen : entriesL (C1' ++ [p]) ++ entriesL C2 = entriesL (C1' ++ p :: C2) := by
        simp [entriesL_append, entriesL]
      rw [hen]
      have hlen : keys.length = K1'.length + K2.length + 1 := by rw [hkeys]; simp; omega
      rcases hp with ⟨rfl, rfl, rfl⟩ | ⟨hp1, hp2, hp3⟩
      · -- the child before it is a hole, which grows
        obtain ⟨rfl, rfl⟩ : K1' = [] ∧ lo = some k := by
          have h5 := hL.keys_le.2.2.2
          simp only [true_iff] at h5
          have h6 := h5.1
          subst h6
          exact ⟨rfl, hL.nil.2.1.symm⟩
        obtain ⟨rfl, -, -⟩ := hL.nil
        have hroot' : isRoot = false := by
          cases isRoot with
          | false => rfl
          | true => exact absurd (hroot rfl) (by simp)
        cases K2 with
        | nil =>
          cases C2 with
          | cons => simp [Chain] at hch
          | nil =>
            simp only [hroot', Rem.Ok, List.length_nil, List.append_nil, ne_eq, not_true_eq_false,
              Bool.false_eq_true, or_self, if_false, List.nil_append, List.getD_cons_zero]
            exact ⟨trivial, hikr, .inl ⟨trivial, by simp, by simp [entriesL, entries]⟩⟩
        | cons k2 ks =>
          have h3 := hch.lo_irrel_hole
          have h4 := hch.keys_sorted.2.1 k2 (by simp)
          simp only [List.nil_append, List.length_nil, List.length_cons, Nat.zero_add, ne_eq,
            Nat.add_eq_zero_iff, Nat.one_ne_zero, and_false, not_false_eq_true, true_or, if_true,
            Nat.zero_lt_succ, List.getD_cons_zero, isNull_null, and_true, Rem.Ok, Inv, height] at *
          refine ⟨⟨by simp only [List.length_cons]; omega, h3⟩, Nat.le_refl _, by simp [entries], hikr, by simp, h4.2, h4.1⟩
      · -- the child before it takes over the interval
        have hnew : Chain b2 lo2 hi ht K2 (p :: C2) := by
          cases K2 with
          | nil =>
            cases C2 with
            | cons => simp [Chain] at hch
            | nil =>
              simp only [Chain] at hch ⊢
              exact ⟨hp1.mono_hi (fun y hy => hk.mono (by simp only [ltHi_some] at hy; omega)), hp2⟩
          | cons k2 ks =>
            have h4 := hch.keys_sorted.2.2 rfl k2 (by simp)
            simp only [loLt_some] at h4
            simp only [Chain] at hch ⊢
            refine ⟨.inr ⟨hp1.mono_hi (fun y hy => ?_), hp2, .of_le_lt hp3.le h4⟩, hch.2⟩
            simp only [ltHi_some] at *; omega
        have hfull : Chain true lo hi ht (K1' ++ K2) (C1' ++ p :: C2) := by
          rw [chain_iff hl']; exact ⟨lo2, b2, hL, hnew⟩
        rcases Classical.em ((K1' ++ K2).length ≠ 0 ∨ isRoot = true) with hne | hne
        · have hne' := hne
          rw [List.length_append] at hne'
          rw [if_pos hne']
          split
          · next hc =>
            -- a hole is only possible in the first place, and that child is not a hole
            exfalso
            have hK1 : K1' = [] := List.length_eq_zero_iff.mp (by omega)
            subst hK1
            obtain ⟨rfl, -, -⟩ := hL.nil
            have := hp1.not_null
            simp only [List.nil_append, List.getD_cons_zero] at hc
            rw [this] at hc
            simp at hc
          · simp only [Rem.Ok, Inv, height, entries, and_true]
            refine ⟨⟨by rw [List.length_append]; omega, hfull⟩, Nat.le_refl _⟩
        · have hne' := hne
          rw [List.length_append] at hne'
          rw [if_neg hne']
          have hKz : K1' = [] ∧ K2 = [] := by
            constructor <;> apply List.length_eq_zero_iff.mp <;> omega
          obtain ⟨rfl, rfl⟩ := hKz
          obtain ⟨rfl, rfl, rfl⟩ := hL.nil
          cases C2 with
          | cons => simp [Chain] at hch
          | nil =>
            simp only [Chain] at hnew
            simp only [Rem.Ok, List.nil_append, List.getD_cons_zero, entriesL, List.append_nil, and_true]
            refine ⟨by simpa using hne, hikr, .inr ⟨hnew.1, by omega⟩⟩
  · -- the child is replaced by its only grandchild
    have hnn := h1.not_null
    simp only [hnn, Bool.false_and, Bool.false_eq_true, if_false]
    have hfull : Chain true lo hi ht keys (C1 ++ repl :: C2) := by
      rw [hkeys, chain_iff fo.len]
      exact ⟨lo', b', fo.left, fo.set_chain h1 h2⟩
    have hen : entriesL C1 ++ entries repl ++ entriesL C2 = entriesL (C1 ++ repl :: C2) := by
      simp [entriesL_append, entriesL]
    rw [hen]
    by_cases hne : keys.length ≠ 0 ∨ isRoot = true
    · rw [if_pos hne]
      split
      · next hc =>
        -- the first child is a hole
        cases keys with
        | nil => simp at hc
        | cons k ks =>
          cases hC1 : C1 ++ repl :: C2 with
          | nil => simp at hC1
          | cons c0 cs =>
            rw [hC1] at hc hfull
            simp only [List.getD_cons_zero] at hc
            have hfull' := hfull
            simp only [Chain] at hfull'
            rcases hfull'.1 with ⟨rfl, _, rfl⟩ | ⟨h5, _⟩
            · simp only [Rem.Ok, Inv, height, entries, List.getD_cons_zero, loLe_some]
              exact ⟨⟨hkl, hfull⟩, Nat.le_refl _, trivial, hikr, by simp, Nat.le_refl _, hfull'.2.1⟩
            · rw [h5.not_null] at hc; simp at hc
      · simp only [Rem.Ok, Inv, height, entries, and_true]
        exact ⟨⟨hkl, hfull⟩, Nat.le_refl _⟩
    · rw [if_neg hne]
      have hk0 : keys = [] := List.length_eq_zero_iff.mp (by omega)
      subst hk0
      obtain ⟨rfl, rfl⟩ : K1 = [] ∧ K2 = [] := by simpa using hkeys.symm
      obtain ⟨rfl, rfl, rfl⟩ := fo.left.nil
      cases C2 with
      | cons => simp [Chain] at hfull
      | nil =>
        simp only [Rem.Ok, List.nil_append, List.getD_cons_zero, entriesL, List.append_nil, and_true]
        refine ⟨by simpa using hne, hikr, .inr ⟨h1, by omega⟩⟩

/-- `parentRedirect` moves the lower end of the focused child. -/
theorem parentRedirect_spec {lo hi : Option Nat} {ht : Nat} {keys : List Nat} {kids : List (Node α)}
    {x : Nat} {K1 K2 : List Nat} {C1 : List (Node α)} {c : Node α} {C2 : List (Node α)}
    {lo' : Option Nat} {b' : Bool} (fo : Focus true lo hi ht keys kids x K1 K2 C1 c C2 lo' b')
    (hkl : keys.length ≤ 15) (isRoot : Bool) {ik nk : Nat} {gc : Bool}
    {c' : Node α} (hik : inR lo' (nextHi K2 hi) ik) (hikr : inR lo hi ik) (hlo' : lo' ≠ none)
    (h1 : Inv (some nk) (nextHi K2 hi) c') (h2 : height c' < ht) (h3 : loLe lo' nk)
    (h4 : ltHi nk (nextHi K2 hi)) :
    Rem.Ok lo hi ht isRoot (entriesL C1 ++ entries c' ++ entriesL C2)
      (parentRedirect ht keys (kids.set K1.length c') ik nk gc) := by
  unfold parentRedirect
  dsimp only
  rw [fo.upper hik, fo.set]
  have hkeys := fo.keys_eq
  have hch := fo.chain
  have hen : entriesL C1 ++ entries c' ++ entriesL C2 = entriesL (C1 ++ c' :: C2) := by
    simp [entriesL_append, entriesL]
  rw [hen]
  have hnkhi : ltHi nk hi := by
    cases K2 with
    | nil => exact h4
    | cons k ks =>
      have := (hch.keys_sorted.2.1 k (by simp)).1
      simp only [nextHi, ltHi_some] at h4
      exact this.mono (by omega)
  -- the rest of the chain with the focused child starting at `nk`
  have hnew : ∀ bb, Chain bb (some nk) hi ht K2 (c' :: C2) := by
    intro bb
    cases K2 with
    | nil =>
      cases C2 with
      | cons => simp [Chain] at hch
      | nil => exact ⟨h1, h2⟩
    | cons k ks =>
      simp only [Chain] at hch ⊢
      exact ⟨.inr ⟨h1, h2, h4⟩, hch.2⟩
  by_cases hK : K1 = []
  · subst hK
    obtain ⟨rfl, rfl, rfl⟩ := fo.left.nil
    simp only [List.nil_append] at hkeys
    subst hkeys
    simp only [List.length_nil, gt_iff_lt, Nat.lt_irrefl, if_false, true_or, if_true, Rem.Ok, Inv,
      height, entries, List.nil_append]
    exact ⟨⟨hkl, hnew true⟩, Nat.le_refl _, trivial, hikr, hlo', h3, hnkhi⟩
  · obtain ⟨K1', k, rfl⟩ := exists_snoc hK
    have hC : C1 ≠ [] := by
      intro h; have := fo.len; rw [h] at this; simp at this
    obtain ⟨C1', p, rfl⟩ := exists_snoc hC
    have hl' : K1'.length = C1'.length := by have := fo.len; simpa using this
    obtain ⟨lo2, b2, hL, hp, hk, rfl, rfl⟩ := (left_snoc hl').mp fo.left
    simp only [loLe_some] at h3
    have e1 : keys.set K1'.length nk = K1' ++ [nk] ++ K2 := by rw [hkeys]; simp
    simp only [List.length_append, List.length_singleton, gt_iff_lt, Nat.zero_lt_succ, if_true,
      Nat.add_sub_cancel, e1, Nat.add_eq_zero_iff, Nat.one_ne_zero, and_false, false_or,
      Nat.add_eq_right]
    have hlen : (K1' ++ [nk] ++ K2).length = keys.length := by rw [hkeys]; simp
    have hl2 : (K1' ++ [nk]).length = (C1' ++ [p]).length := by simp [hl']
    split
    · next hc =>
      have hK1 : K1' = [] := List.length_eq_zero_iff.mp hc.1
      subst hK1
      obtain ⟨rfl, rfl, rfl⟩ := hL.nil
      rcases hp with ⟨rfl, -, rfl⟩ | ⟨hp1, _⟩
      · simp only [Rem.Ok, Inv, height, entries]
        refine ⟨⟨by omega, ?_⟩, Nat.le_refl _, trivial, hikr, by simp, h3, hnkhi⟩
        rw [chain_iff hl2]
        exact ⟨some nk, false, ⟨.inl ⟨rfl, rfl, rfl⟩, hnkhi, rfl, rfl⟩, hnew false⟩
      · have := hp1.not_null
        simp only [List.nil_append, List.singleton_append, List.getD_cons_zero] at hc
        rw [this] at hc; simp at hc
    · next hc =>
      simp only [Rem.Ok, Inv, height, entries, and_true]
      refine ⟨⟨by omega, ?_⟩, Nat.le_refl _⟩
      rw [chain_iff hl2]
      refine ⟨some nk, false, ?_, hnew false⟩
      rw [left_snoc hl']
      refine ⟨lo2, b2, hL, .inr ?_, hnkhi, rfl, rfl⟩
      rcases hp with ⟨rfl, rfl, rfl⟩ | ⟨hp1, hp2, hp3⟩
      · exfalso
        have h5 := hL.keys_le.2.2.2
        simp only [true_iff] at h5
        have h6 := h5.1
        subst h6
        obtain ⟨rfl, -, -⟩ := hL.nil
        exact hc ⟨rfl, rfl⟩
      · refine ⟨hp1.mono_hi (fun y hy => ?_), hp2, ?_⟩
        · simp only [ltHi_some] at *; omega
        · cases lo2 <;> simp_all; omega

/-- A removal in a layer does at the responsible leaf what `f` does, and what `f` does is
visible nowhere else, whatever nodes are deleted on the way back up. -/
theorem rem_spec (x : LKey) (M : List (Slot α)) (f : Bool → Bool → Word → List (Slot α) → Rem α)
    (hf : ∀ lo hi lm rm isRoot perm slots, LeafInv lo hi perm slots → (lm = true ↔ lo = none) →
      inR lo hi x.ikey → (isRoot = true → lo = none) → matching x (leafEntries perm slots) = M →
      Rem.Ok lo hi 0 isRoot (replaceKey x [] (leafEntries perm slots)) (f lm rm perm slots))
    (n : Node α) : ∀ (lo hi : Option Nat) (isRoot lm rm : Bool), Inv lo hi n → (lm = true ↔ lo = none) →
      inR lo hi x.ikey → (isRoot = true → lo = none) → matching x (entries n) = M →
      Rem.Ok lo hi (height n) isRoot (replaceKey x [] (entries n)) (rem f x.ikey isRoot lm rm n) := by
  induction n using Node.ind with
  | h0 => intro lo hi isRoot lm rm h; simp [Inv] at h
  | h1 perm slots =>
    intro lo hi isRoot lm rm h hlm hx hroot hm
    simp only [rem, entries, height]
    exact hf lo hi lm rm isRoot perm slots h hlm hx hroot hm
  | h2 ht keys kids ih =>
    intro lo hi isRoot lm rm h hlm hx hroot hm
    simp only [Inv] at h
    obtain ⟨K1, K2, C1, c, C2, lo', b', fo⟩ := h.2.focus hx
    have hc : c ∈ kids := by rw [fo.kids_eq]; simp
    have hup := fo.upper fo.inR
    simp only [entries] at hm ⊢
    rw [fo.entries_eq, matching_ctx (fo.allBelow rfl) (fo.allAbove rfl)] at hm
    rw [fo.entries_eq, replaceKey_ctx (fo.allBelow rfl) (fo.allAbove rfl)]
    have hok := ih c hc lo' _ false (lm && K1.length == 0) (rm && K1.length == keys.length) fo.inv
      (by rw [fo.lo_none, ← hlm]; simp [and_comm]) fo.inR (by simp) hm
    simp only [rem]
    rw [remNth_eq, hup, fo.nth]
    simp only [Option.elim]
    generalize rem f x.ikey false (lm && K1.length == 0) (rm && K1.length == keys.length) c = res at hok
    have hhc := fo.height
    have hkl : keys.length ≤ 15 := h.1
    -- a slice in the child's interval is in the node's interval
    have hin : ∀ y, inR lo' (nextHi K2 hi) y → inR lo hi y := by
      intro y hy
      refine ⟨fo.left.keys_le.2.1 y hy.1, ?_⟩
      have hch := fo.chain
      cases K2 with
      | nil => exact hy.2
      | cons k ks =>
        have := (hch.keys_sorted.2.1 k (by simp)).1
        have h2 := hy.2
        simp only [nextHi, ltHi_some] at h2
        exact this.mono (by omega)
    match res, hok with
    | .stop c' none gc, hok =>
      simp only [Rem.Ok] at hok ⊢
      obtain ⟨h1, h2, h3⟩ := hok
      rw [fo.set]
      simp only [Inv, height, entries]
      refine ⟨⟨hkl, ?_⟩, Nat.le_refl _, ?_⟩
      · rw [fo.keys_eq, chain_iff fo.len]
        exact ⟨lo', b', fo.left, fo.set_chain h1 (by omega)⟩
      · rw [entriesL_append]; simp only [entriesL]; rw [h3]; simp
    | .stop c' (some (ik, nk)) gc, hok =>
      simp only [Rem.Ok] at hok
      obtain ⟨h1, h2, h3, h4, h5, h6, h7⟩ := hok
      simp only [height]
      rw [← h3]
      exact parentRedirect_spec fo hkl isRoot h4 (hin _ h4) h5 h1 (by omega) h6 h7
    | .up ik repl, hok =>
      simp only [Rem.Ok] at hok
      obtain ⟨_, h1, h2⟩ := hok
      simp only [height]
      refine parentRemove_spec fo hkl isRoot hroot h1 (hin _ h1) ?_
      rcases h2 with h2 | ⟨h2, h3, h4⟩
      · exact .inl h2
      · exact .inr ⟨h2, by omega, h4⟩

/-! ### The operations on a layer -/

/-- Inserting a slot under a key that is absent: with `commit`, the contents gain exactly that
slot at its place in the order; without, they do not change. -/
theorem insert_spec (x : LKey) (commit : Bool) (new : Slot α) {hi : Option Nat} {t : Node α} (h : Inv none hi t)
    (hx : inR none hi x.ikey)
    (hk : new.key = x.key) (habs : matching x (entries t) = []) :
    ∃ t', insert x commit new t = some t' ∧ Inv none hi t' ∧
      entries t' = replaceKey x (if commit then [new] else []) (entries t) := by
  have hok := upd_spec x [] (if commit then [new] else []) (leafInsert x commit new)
    (fun lo hi lm rm perm slots h1 h2 h3 h4 => leafInsert_spec x commit new lm rm h1 h2 h3 hk h4)
    t none hi true true h (by simp) hx habs
  unfold insert
  match upd (leafInsert x commit new) x.ikey true true t, hok with
  | .done n, hok => exact ⟨n, rfl, hok.1, hok.2.2⟩
  | .split h' st l k r, hok =>
    obtain ⟨h0, h1, h2, h3, h4, h5, h6, h7⟩ := hok
    refine ⟨_, rfl, ?_, ?_⟩
    · simp only [Inv, Chain, List.length_singleton]
      exact ⟨by omega, .inr ⟨h1, by omega, h5⟩, h6, h2, by omega⟩
    · simp only [entries, entriesL, List.append_nil]; exact h7

/-- Changing the slot of a key that is present. -/
theorem modify_spec (x : LKey) (g : Slot α → Slot α) {hi : Option Nat} {t : Node α} (h : Inv none hi t)
    (hx : inR none hi x.ikey) {s : Slot α}
    (hm : matching x (entries t) = [s]) (hg : (g s).key = s.key) :
    ∃ t', modify x g t = some t' ∧ Inv none hi t' ∧ entries t' = replaceKey x [g s] (entries t) := by
  have hok := upd_spec x [s] [g s] (leafModify x g)
    (fun lo hi lm rm perm slots h1 _ _ h4 => leafModify_spec x g lm rm h1 s h4 hg)
    t none hi true true h (by simp) hx hm
  unfold modify
  match upd (leafModify x g) x.ikey true true t, hok with
  | .done n, hok => exact ⟨n, rfl, hok.1, hok.2.2⟩
  | .split h' st l k r, hok =>
    obtain ⟨h0, h1, h2, h3, h4, h5, h6, h7⟩ := hok
    refine ⟨_, rfl, ?_, ?_⟩
    · simp only [Inv, Chain, List.length_singleton]
      exact ⟨by omega, .inr ⟨h1, by omega, h5⟩, h6, h2, by omega⟩
    · simp only [entries, entriesL, List.append_nil]; exact h7

/-- Removing a key that is present. -/
theorem remove_spec (x : LKey) {hi : Option Nat} {t : Node α} (h : Inv none hi t)
    (hx : inR none hi x.ikey) {s : Slot α}
    (hm : matching x (entries t) = [s]) :
    ∃ t' gc, remove x t = some (t', gc) ∧ Inv none hi t' ∧
      entries t' = replaceKey x [] (entries t) := by
  have hok := rem_spec x [s] (leafRemove x)
    (fun lo hi lm rm isRoot perm slots h1 h2 _ h4 h5 => leafRemove_spec x lm rm h1 h2 isRoot h4 s h5)
    t none hi true true true h (by simp) hx (by simp) hm
  unfold remove
  match rem (leafRemove x) x.ikey true true true t, hok with
  | .stop n none gc, hok => exact ⟨n, gc, rfl, hok.1, hok.2.2⟩
  | .stop n (some (ik, nk)) gc, hok => exact absurd rfl hok.2.2.2.2.1
  | .up _ _, hok => simp [Rem.Ok] at hok

theorem emptyLayer_inv {hi : Option Nat} : Inv none hi (emptyLayer : Node α) ∧ entries (emptyLayer : Node α) = [] := by
  have hu : Permuter.used Permuter.makeEmpty = [] := by
    apply List.length_eq_zero_iff.mp; rw [Permuter.used_length]; exact Permuter.makeEmpty_size
  have he : entries (emptyLayer : Node α) = [] := by
    simp [emptyLayer, entries, leafEntries, hu]
  refine ⟨?_, he⟩
  simp only [emptyLayer, entries] at he
  simp only [emptyLayer, Inv]
  refine ⟨.empty, by simp, ?_, ?_, by simp⟩
  · rw [he]; exact List.Pairwise.nil
  · rw [he]; simp

end Verif.Tree
