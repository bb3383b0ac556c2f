import Verif.Options.Model
import Mathlib.Data.List.InsertIdx
import Mathlib.Data.List.Sort
import Mathlib.Tactic.ByContra

/-! The table of value types. -/
namespace Verif.Options

variable {V : Type}

/-- The types in the table are in order. -/
def InOrder (a : List (ValType V)) : Prop := a.Pairwise fun x y => x.type < y.type

theorem InOrder.lt {a : List (ValType V)} (h : InOrder a) {i j : Nat} {x y : ValType V} (hi : a[i]? = some x) (hj : a[j]? = some y)
    (hij : i < j) : x.type < y.type := by
  obtain ⟨h1, rfl⟩ := List.getElem?_eq_some_iff.1 hi
  obtain ⟨h2, rfl⟩ := List.getElem?_eq_some_iff.1 hj
  exact List.pairwise_iff_getElem.1 h i j h1 h2 hij

/-- Everything before the position found is smaller, and everything from there on is not. -/
theorem binsearchLoop_spec {a : List (ValType V)} (ha : InOrder a) (t : Nat) (n l r : Nat) (hn : r - l ≤ n) (hlr : l ≤ r)
    (hr : r ≤ a.length) (hlo : ∀ i x, i < l → a[i]? = some x → x.type < t) (hhi : ∀ i x, r ≤ i → a[i]? = some x → t < x.type) :
    binsearchLoop a t l r ≤ a.length ∧ (∀ i x, i < binsearchLoop a t l r → a[i]? = some x → x.type < t) ∧
      ∀ i x, binsearchLoop a t l r ≤ i → a[i]? = some x → t ≤ x.type := by
  induction n generalizing l r with
  | zero =>
    have : l = r := by omega
    subst this
    rw [binsearchLoop, dif_neg (by omega)]
    exact ⟨hr, hlo, fun i x h hx => (hhi i x h hx).le⟩
  | succ n ih =>
    rw [binsearchLoop]
    by_cases h : l < r
    · rw [dif_pos h]
      have hm : l + (r - l) / 2 < r := by omega
      have hm' : l ≤ l + (r - l) / 2 := by omega
      generalize l + (r - l) / 2 = m at hm hm'
      have hx : a[m]? = some (a[m]'(by omega)) := List.getElem?_eq_getElem (by omega)
      generalize a[m]'(by omega) = x at hx
      simp only [hx]
      by_cases h1 : x.type = t
      · rw [if_pos h1]
        refine ⟨by omega, ?_, ?_⟩
        · intro i y hi hy; exact h1 ▸ ha.lt hy hx hi
        · intro i y hi hy
          rcases Nat.eq_or_lt_of_le hi with rfl | hi
          · rw [hx] at hy; cases hy; exact h1.ge
          · exact h1 ▸ (ha.lt hx hy hi).le
      · rw [if_neg h1]
        by_cases h2 : x.type < t
        · rw [if_pos h2]
          refine ih (m + 1) r (by omega) (by omega) hr ?_ hhi
          intro i y hi hy
          rcases Nat.eq_or_lt_of_le (Nat.le_of_lt_succ hi) with rfl | hi
          · rw [hx] at hy; cases hy; exact h2
          · exact (ha.lt hy hx hi).trans h2
        · rw [if_neg h2]
          refine ih l m (by omega) (by omega) (by omega) hlo ?_
          intro i y hi hy
          rcases Nat.eq_or_lt_of_le hi with rfl | hi
          · rw [hx] at hy; cases hy; omega
          · have := ha.lt hx hy hi; omega
    · rw [dif_neg h]
      have : l = r := by omega
      subst this
      exact ⟨hr, hlo, fun i x h hx => (hhi i x h hx).le⟩

theorem binsearch_spec {a : List (ValType V)} (ha : InOrder a) (t : Nat) :
    binsearch a t ≤ a.length ∧ (∀ i x, i < binsearch a t → a[i]? = some x → x.type < t) ∧
      ∀ i x, binsearch a t ≤ i → a[i]? = some x → t ≤ x.type :=
  binsearchLoop_spec ha t a.length 0 a.length (by omega) (by omega) (by omega) (by omega)
    (fun i x hi hx => by simp [List.getElem?_eq_none hi] at hx)

/-- What is looked for is found if it is there. -/
theorem find_iff {ts : Types V} (ha : InOrder ts.arr) (t : Nat) (v : ValType V) :
    ts.find t = some v ↔ v ∈ ts.arr ∧ v.type = t := by
  obtain ⟨-, h1, h2⟩ := binsearch_spec ha t
  unfold Types.find
  generalize binsearch ts.arr t = p at h1 h2
  constructor
  · intro h
    rcases hp : ts.arr[p]? with _ | w
    · simp [hp] at h
    · simp only [hp] at h
      split at h
      · cases h; exact ⟨List.mem_of_getElem? hp, by assumption⟩
      · simp at h
  · rintro ⟨hm, rfl⟩
    obtain ⟨j, hj⟩ := List.getElem?_of_mem hm
    have hpj : p = j := by
      rcases Nat.lt_trichotomy p j with h | h | h
      · have hlt : p < ts.arr.length := h.trans (List.getElem?_eq_some_iff.1 hj).1
        have hx : ts.arr[p]? = some ts.arr[p] := List.getElem?_eq_getElem hlt
        have := h2 p _ (Nat.le_refl _) hx
        have := ha.lt hx hj h
        omega
      · exact h
      · have := h1 j v h hj; omega
    subst hpj
    simp [hj]

/-- The table is in order and there is room for it. -/
structure Types.Ok (ts : Types V) : Prop where
  order : InOrder ts.arr
  room : ts.arr.length ≤ ts.cap
  cap : ts.cap = max 8 ((ts.arr.length + 7) / 8 * 8)

theorem Types.empty_ok : (Types.empty V).Ok := ⟨by simp [Types.empty, InOrder], by simp [Types.empty], by simp [Types.empty]⟩

/-- Adding a type stays inside the array; afterwards that type is as added and the others are as before. -/
theorem Types.add_ok {ts : Types V} (h : ts.Ok) (v : ValType V) :
    ∃ ts', ts.add v = some ts' ∧ ts'.Ok ∧ ∀ t, ts'.find t = if t = v.type then some v else ts.find t := by
  obtain ⟨ho, hroom, hcap⟩ := h
  obtain ⟨hp, h1, h2⟩ := binsearch_spec ho v.type
  have finish : ∀ ts' : Types V, InOrder ts'.arr → (∀ x, x ∈ ts'.arr ↔ x = v ∨ x ∈ ts.arr ∧ x.type ≠ v.type) →
      ∀ t, ts'.find t = if t = v.type then some v else ts.find t := by
    intro ts' ho' hm t
    by_cases ht : t = v.type
    · rw [if_pos ht, find_iff ho', hm]; exact ⟨Or.inl rfl, ht.symm⟩
    · rw [if_neg ht]
      ext x
      rw [find_iff ho', find_iff ho, hm]
      constructor
      · rintro ⟨rfl | hx, rfl⟩
        · exact absurd rfl ht
        · exact ⟨hx.1, rfl⟩
      · rintro ⟨hx, rfl⟩; exact ⟨Or.inr ⟨hx, ht⟩, rfl⟩
  unfold Types.add
  simp only
  generalize binsearch ts.arr v.type = p at hp h1 h2
  by_cases hf : (ts.arr[p]?).map (·.type) = some v.type
  · rw [if_pos hf]
    obtain ⟨w, hw, hwt⟩ := Option.map_eq_some_iff.1 hf
    have hpl := (List.getElem?_eq_some_iff.1 hw).1
    have ho' : InOrder (ts.arr.set p v) := by
      apply List.pairwise_iff_getElem.2
      intro i j hi hj hij
      rw [List.length_set] at hi hj
      have e : ∀ k (hk : k < ts.arr.length), ((ts.arr.set p v)[k]'(by simpa using hk)).type = (ts.arr[k]).type := by
        intro k hk
        by_cases hkp : p = k
        · subst hkp
          have := (List.getElem?_eq_some_iff.1 hw).2
          simp [this, hwt]
        · simp [hkp]
      rw [e i hi, e j hj]
      exact List.pairwise_iff_getElem.1 ho i j hi hj hij
    refine ⟨_, rfl, ⟨ho', by simpa using hroom, by simpa using hcap⟩, finish _ ho' ?_⟩
    intro x
    constructor
    · intro hx
      obtain ⟨k, hk⟩ := List.getElem?_of_mem hx
      rw [List.getElem?_set] at hk
      by_cases hkp : p = k
      · subst hkp; simp [hpl] at hk; exact Or.inl hk.symm
      · rw [if_neg hkp] at hk
        refine Or.inr ⟨List.mem_of_getElem? hk, ?_⟩
        rcases Nat.lt_or_gt_of_ne hkp with h | h
        · have := ho.lt hw hk h; omega
        · have := ho.lt hk hw h; omega
    · rintro (rfl | ⟨hx, ht⟩)
      · exact List.mem_of_getElem? (i := p) (by simp [hpl])
      · obtain ⟨k, hk⟩ := List.getElem?_of_mem hx
        have hkp : p ≠ k := by rintro rfl; rw [hw] at hk; cases hk; exact ht hwt
        exact List.mem_of_getElem? (i := k) (by rw [List.getElem?_set, if_neg hkp]; exact hk)
  · rw [if_neg hf]
    have hne : ∀ x ∈ ts.arr, x.type ≠ v.type := by
      intro x hx ht
      apply hf
      obtain ⟨j, hj⟩ := List.getElem?_of_mem hx
      have hpj : p = j := by
        rcases Nat.lt_trichotomy p j with h | h | h
        · have hlt : p < ts.arr.length := h.trans (List.getElem?_eq_some_iff.1 hj).1
          have hy : ts.arr[p]? = some ts.arr[p] := List.getElem?_eq_getElem hlt
          have := h2 p _ (Nat.le_refl _) hy
          have := ho.lt hy hj h
          omega
        · exact h
        · have := h1 j x h hj; omega
      rw [hpj, hj, Option.map_some, ht]
    have hins : ts.arr.insertIdx p v = ts.arr.take p ++ v :: ts.arr.drop p := by
      have : ∀ (l : List (ValType V)) (p : Nat), p ≤ l.length → l.insertIdx p v = l.take p ++ v :: l.drop p := by
        intro l
        induction l with
        | nil => intro p hp; obtain rfl : p = 0 := by simpa using hp
                 rfl
        | cons a l ih =>
          intro p hp
          cases p with
          | zero => rfl
          | succ p => simpa using ih p (by simpa using hp)
      exact this _ _ hp
    have ho' : InOrder (ts.arr.insertIdx p v) := by
      rw [hins]
      have hto : (ts.arr.take p ++ ts.arr.drop p).Pairwise fun x y => x.type < y.type := by rw [List.take_append_drop]; exact ho
      rw [List.pairwise_append] at hto
      refine List.pairwise_append.2 ⟨hto.1, List.pairwise_cons.2 ⟨?_, hto.2.1⟩, ?_⟩
      · intro x hx
        obtain ⟨k, hk⟩ := List.getElem?_of_mem hx
        rw [List.getElem?_drop] at hk
        have a1 := h2 (p + k) x (by omega) hk
        have a2 := hne x (List.mem_of_getElem? hk)
        omega
      · intro x hx y hy
        have hxt : x.type < v.type := by
          obtain ⟨k, hk⟩ := List.getElem?_of_mem hx
          rw [List.getElem?_take] at hk
          split at hk
          · exact h1 k x (by assumption) hk
          · simp at hk
        rcases List.mem_cons.1 hy with rfl | hy
        · exact hxt
        · exact hto.2.2 x hx y hy
    have hlen : (ts.arr.insertIdx p v).length = ts.arr.length + 1 := by rw [List.length_insertIdx_of_le_length hp]
    have hmem : ∀ x, x ∈ ts.arr.insertIdx p v ↔ x = v ∨ x ∈ ts.arr ∧ x.type ≠ v.type := by
      intro x
      rw [List.mem_insertIdx hp]
      exact ⟨fun h => h.imp id fun h => ⟨h, hne x h⟩, fun h => h.imp id And.left⟩
    by_cases hg : ts.arr.length ≠ 0 ∧ ts.arr.length % 8 = 0
    · simp only [if_pos hg]
      rw [if_pos (by omega)]
      exact ⟨_, rfl, ⟨ho', by simp only [hlen]; omega, by simp only [hlen]; omega⟩, finish _ ho' hmem⟩
    · simp only [if_neg hg]
      have : ts.arr.length < ts.cap := by omega
      rw [if_pos this]
      exact ⟨_, rfl, ⟨ho', by simp only [hlen]; omega, by simp only [hlen]; omega⟩, finish _ ho' hmem⟩

/-- Many types, added one after the other. -/
def Types.addAll (ts : Types V) : List (ValType V) → Option (Types V)
  | [] => some ts
  | v :: vs => (ts.add v).bind fun ts' => ts'.addAll vs

theorem Types.addAll_ok {ts : Types V} (h : ts.Ok) (vs : List (ValType V)) :
    ∃ ts', ts.addAll vs = some ts' ∧ ts'.Ok ∧ ∀ t, ts'.find t = ((vs.reverse.find? fun v => v.type == t).or (ts.find t)) := by
  induction vs generalizing ts with
  | nil => exact ⟨ts, rfl, h, by simp⟩
  | cons v vs ih =>
    obtain ⟨ts1, h1, h2, h3⟩ := Types.add_ok h v
    obtain ⟨ts2, h4, h5, h6⟩ := ih h2
    refine ⟨ts2, by simp [addAll, h1, h4], h5, ?_⟩
    intro t
    rw [h6, h3, List.reverse_cons, List.find?_append]
    by_cases ht : t = v.type
    · subst ht; cases List.find? (fun w => w.type == v.type) vs.reverse <;> simp
    · have ht' : (v.type == t) = false := by simpa using fun h => ht (Eq.symm h)
      cases List.find? (fun w => w.type == t) vs.reverse <;> simp [ht, ht']

end Verif.Options
