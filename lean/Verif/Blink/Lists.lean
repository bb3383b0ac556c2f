import Verif.Blink.Model

/-!
# Keys and children of an internode

What inserting a child and splitting do to the child chosen for a key.
-/
namespace Verif.Blink

/-- The child for key `k`. -/
def routeOf (K C : List Nat) (k : Nat) : Nat := C.getD (upper K k) 0

/-- A well-formed internode for the keys from `lo` below `hi`. -/
structure Good (lo hi : Nat) (K C : List Nat) : Prop where
  len : C.length = K.length + 1
  sorted : K.Pairwise (· < ·)
  inside : ∀ z ∈ K, lo < z ∧ z < hi
  nodup : C.Nodup

theorem upper_le (K : List Nat) (k : Nat) : upper K k ≤ K.length := List.countP_le_length

theorem upper_mono (K : List Nat) {k l : Nat} (h : k ≤ l) : upper K k ≤ upper K l :=
  List.countP_mono_left fun z _ hz => by simp only [decide_eq_true_eq] at *; omega

/-- In a sorted list exactly the first `upper K k` keys are at most `k`. -/
theorem upper_spec {K : List Nat} (h : K.Pairwise (· < ·)) (k : Nat) :
    ∀ j (hj : j < K.length), K[j] ≤ k ↔ j < upper K k := by
  induction K with
  | nil => intro j hj; simp at hj
  | cons a K ih =>
    rw [List.pairwise_cons] at h
    intro j hj
    unfold upper
    rw [List.countP_cons]
    by_cases ha : a ≤ k
    · simp only [ha, decide_true, if_true]
      match j with
      | 0 => simp [ha]
      | j + 1 =>
        have := ih h.2 j (by simpa using hj)
        unfold upper at this
        simp only [List.getElem_cons_succ]
        rw [this]; omega
    · simp only [ha, decide_false]
      have hz : K.countP (fun x => decide (x ≤ k)) = 0 := by
        rw [List.countP_eq_zero]
        intro z hz
        have := h.1 z hz
        simp only [decide_eq_true_eq]; omega
      rw [hz]
      match j with
      | 0 => simp; omega
      | j + 1 =>
        simp only [List.getElem_cons_succ]
        have := h.1 (K[j]'(by simpa using hj)) (List.getElem_mem _)
        simp; omega

theorem upper_unique {K : List Nat} (h : K.Pairwise (· < ·)) (k u : Nat) (hu : u ≤ K.length)
    (hs : ∀ j (hj : j < K.length), K[j] ≤ k ↔ j < u) : upper K k = u := by
  have h1 := upper_spec h k
  have h2 := upper_le K k
  rcases Nat.lt_trichotomy (upper K k) u with hlt | heq | hgt
  · have := (hs (upper K k) (by omega)).mpr hlt
    rw [h1] at this; omega
  · exact heq
  · have := (h1 u (by omega)).mpr hgt
    rw [hs] at this; omega

theorem getD_of_lt {C : List Nat} {j : Nat} (h : j < C.length) : C.getD j 0 = C[j] := by
  rw [List.getD_eq_getElem?_getD, List.getElem?_eq_getElem h]; rfl

variable {lo hi : Nat} {K C : List Nat}

theorem Good.route_mem (h : Good lo hi K C) (k : Nat) : routeOf K C k ∈ C := by
  unfold routeOf
  have := upper_le K k
  have hl := h.len
  rw [getD_of_lt (by omega)]
  exact List.getElem_mem _

theorem Good.route_eq (h : Good lo hi K C) (k l : Nat) : routeOf K C k = routeOf K C l ↔ upper K k = upper K l := by
  unfold routeOf
  have h1 := upper_le K k
  have h2 := upper_le K l
  have hl := h.len
  rw [getD_of_lt (by omega), getD_of_lt (by omega)]
  refine ⟨fun he => ?_, fun he => by simp only [he]⟩
  have hp := List.pairwise_iff_getElem.mp h.nodup
  rcases Nat.lt_trichotomy (upper K k) (upper K l) with hlt | heq | hgt
  · exact absurd he (hp _ _ _ _ hlt)
  · exact heq
  · exact absurd he.symm (hp _ _ _ _ hgt)

/-- Every child is the one for some key. -/
theorem Good.mem_route (h : Good lo hi K C) (hlt : lo < hi) {q : Nat} (hq : q ∈ C) :
    ∃ k, lo ≤ k ∧ k < hi ∧ routeOf K C k = q := by
  obtain ⟨j, hj, he⟩ := List.mem_iff_getElem.mp hq
  have hl := h.len
  have hp := List.pairwise_iff_getElem.mp h.sorted
  match j with
  | 0 =>
    refine ⟨lo, Nat.le_refl _, hlt, ?_⟩
    have : upper K lo = 0 := upper_unique h.sorted lo 0 (by omega) fun j hj => by
      have := (h.inside K[j] (List.getElem_mem _)).1
      omega
    unfold routeOf
    rw [this, getD_of_lt hj, he]
  | j + 1 =>
    have hin := h.inside (K[j]'(by omega)) (List.getElem_mem _)
    refine ⟨K[j]'(by omega), by omega, hin.2, ?_⟩
    have : upper K (K[j]'(by omega)) = j + 1 := by
      refine upper_unique h.sorted _ _ (by omega) fun a ha => ?_
      rcases Nat.lt_trichotomy a j with hlt | rfl | hgt
      · have := hp a j ha (by omega) hlt
        omega
      · omega
      · have := hp j a (by omega) ha hgt
        omega
    unfold routeOf
    rw [this, getD_of_lt hj, he]

/-- The child changes at a key. -/
theorem Good.route_change (h : Good lo hi K C) {x : Nat} (hx : x ∈ K) : routeOf K C (x - 1) ≠ routeOf K C x := by
  intro he
  rw [h.route_eq] at he
  obtain ⟨j, hj, hjx⟩ := List.mem_iff_getElem.mp hx
  have h1 := (upper_spec h.sorted x j hj).mp (by omega)
  have h2 := (upper_spec h.sorted (x - 1) j hj).mpr (by omega)
  have := h.inside x hx
  omega

/-- Adding a child. -/
theorem Good.insert (h : Good lo hi K C) {x c : Nat} (hx : lo < x ∧ x < hi) (hxk : x ∉ K) (hc : c ∉ C) :
    Good lo hi (K.insertIdx (upper K x) x) (C.insertIdx (upper K x + 1) c) ∧
    ∀ k, routeOf (K.insertIdx (upper K x) x) (C.insertIdx (upper K x + 1) c) k =
      if x ≤ k ∧ routeOf K C k = routeOf K C x then c else routeOf K C k := by
  have hl := h.len
  have hu := upper_le K x
  have hp := List.pairwise_iff_getElem.mp h.sorted
  have hlen : (K.insertIdx (upper K x) x).length = K.length + 1 := by
    rw [List.length_insertIdx_of_le_length hu]
  have hget : ∀ j (hj : j < (K.insertIdx (upper K x) x).length), (K.insertIdx (upper K x) x)[j] =
      if hlt : j < upper K x then K[j]'(by omega) else if heq : j = upper K x then x else K[j - 1]'(by omega) := by
    intro j hj
    rw [List.getElem_insertIdx]
  have hlo : ∀ j (hj : j < K.length), j < upper K x → K[j] < x := by
    intro j hj hlt
    have := (upper_spec h.sorted x j hj).mpr hlt
    have hne : K[j] ≠ x := fun he => hxk (he ▸ List.getElem_mem _)
    omega
  have hhi : ∀ j (hj : j < K.length), upper K x ≤ j → x < K[j] := by
    intro j hj hge
    have := mt (upper_spec h.sorted x j hj).mp (by omega)
    omega
  have hsort : (K.insertIdx (upper K x) x).Pairwise (· < ·) := by
    rw [List.pairwise_iff_getElem]
    intro a b ha hb hab
    rw [hget a ha, hget b hb]
    by_cases h1 : a < upper K x
    · rw [dif_pos h1]
      by_cases h2 : b < upper K x
      · rw [dif_pos h2]
        exact hp a b (by omega) (by omega) hab
      · rw [dif_neg h2]
        by_cases h3 : b = upper K x
        · rw [dif_pos h3]
          exact hlo a (by omega) h1
        · rw [dif_neg h3]
          exact hp a (b - 1) (by omega) (by omega) (by omega)
    · rw [dif_neg h1, dif_neg (show ¬ b < upper K x by omega), dif_neg (show ¬ b = upper K x by omega)]
      by_cases h3 : a = upper K x
      · rw [dif_pos h3]
        exact hhi (b - 1) (by omega) (by omega)
      · rw [dif_neg h3]
        exact hp (a - 1) (b - 1) (by omega) (by omega) (by omega)
  have hup : ∀ k, upper (K.insertIdx (upper K x) x) k = if x ≤ k then upper K k + 1 else upper K k := by
    intro k
    show List.countP _ (K.insertIdx (upper K x) x) = _
    rw [(List.perm_insertIdx x K hu).countP_eq, List.countP_cons]
    unfold upper
    by_cases hk : x ≤ k <;> simp [hk]
  refine ⟨⟨?_, hsort, ?_, ?_⟩, ?_⟩
  · rw [hlen, List.length_insertIdx_of_le_length (by omega)]; omega
  · intro z hz
    rw [List.mem_insertIdx hu] at hz
    rcases hz with rfl | hz
    · exact hx
    · exact h.inside z hz
  · exact (List.perm_insertIdx c C (by omega)).nodup_iff.mpr (List.nodup_cons.mpr ⟨hc, h.nodup⟩)
  · intro k
    have huk := upper_le K k
    simp only [h.route_eq]
    unfold routeOf
    rw [hup]
    have hclen : (C.insertIdx (upper K x + 1) c).length = C.length + 1 := List.length_insertIdx_of_le_length (by omega) _
    by_cases hk : x ≤ k
    · have hm := upper_mono K hk
      simp only [hk, if_true, true_and]
      rw [getD_of_lt (by omega), List.getElem_insertIdx, getD_of_lt (by omega)]
      rw [dif_neg (by omega)]
      split
      · rw [if_pos (by omega)]
      · rw [if_neg (by omega)]
        simp
    · have hm := upper_mono K (show k ≤ x by omega)
      simp only [hk, if_false, false_and]
      rw [getD_of_lt (by omega), List.getElem_insertIdx, getD_of_lt (by omega)]
      rw [dif_pos (by omega)]

/-- Splitting an internode at its key number `mid`. -/
theorem Good.split (h : Good lo hi K C) {mid y : Nat} (hy : K[mid]? = some y) :
    lo < y ∧ y < hi ∧ Good lo y (K.take mid) (C.take (mid + 1)) ∧ Good y hi (K.drop (mid + 1)) (C.drop (mid + 1)) ∧
    (∀ k, k < y → routeOf (K.take mid) (C.take (mid + 1)) k = routeOf K C k) ∧
    (∀ k, y ≤ k → routeOf (K.drop (mid + 1)) (C.drop (mid + 1)) k = routeOf K C k) ∧
    ∀ q, q ∈ C.take (mid + 1) → q ∉ C.drop (mid + 1) := by
  obtain ⟨hm, hy⟩ := List.getElem?_eq_some_iff.mp hy
  have hl := h.len
  have hp := List.pairwise_iff_getElem.mp h.sorted
  have hyin := h.inside y (hy ▸ List.getElem_mem _)
  have hsT : (K.take mid).Pairwise (· < ·) := h.sorted.sublist (List.take_sublist _ _)
  have hsD : (K.drop (mid + 1)).Pairwise (· < ·) := h.sorted.sublist (List.drop_sublist _ _)
  refine ⟨hyin.1, hyin.2, ⟨?_, hsT, ?_, h.nodup.sublist (List.take_sublist _ _)⟩,
    ⟨?_, hsD, ?_, h.nodup.sublist (List.drop_sublist _ _)⟩, ?_, ?_, ?_⟩
  · rw [List.length_take, List.length_take]; omega
  · intro z hz
    obtain ⟨j, hj, rfl⟩ := List.mem_iff_getElem.mp hz
    rw [List.length_take] at hj
    rw [List.getElem_take]
    have := hp j mid (by omega) hm (by omega)
    have := h.inside (K[j]'(by omega)) (List.getElem_mem _)
    omega
  · rw [List.length_drop, List.length_drop]; omega
  · intro z hz
    obtain ⟨j, hj, rfl⟩ := List.mem_iff_getElem.mp hz
    rw [List.length_drop] at hj
    rw [List.getElem_drop]
    have := hp mid (mid + 1 + j) hm (by omega) (by omega)
    have := h.inside (K[mid + 1 + j]'(by omega)) (List.getElem_mem _)
    omega
  · intro k hk
    have hu : upper K k ≤ mid := by
      by_contra hc
      have := (upper_spec h.sorted k mid hm).mpr (by omega)
      omega
    have he : upper (K.take mid) k = upper K k := by
      refine upper_unique hsT k _ (by rw [List.length_take]; omega) fun j hj => ?_
      rw [List.getElem_take]
      exact upper_spec h.sorted k j (by rw [List.length_take] at hj; omega)
    unfold routeOf
    rw [he, getD_of_lt (by rw [List.length_take]; omega), List.getElem_take,
      getD_of_lt (by omega)]
  · intro k hk
    have hu : mid < upper K k := (upper_spec h.sorted k mid hm).mp (by omega)
    have hu' := upper_le K k
    have he : upper (K.drop (mid + 1)) k = upper K k - (mid + 1) := by
      refine upper_unique hsD k _ (by rw [List.length_drop]; omega) fun j hj => ?_
      rw [List.getElem_drop, upper_spec h.sorted k _ (by rw [List.length_drop] at hj; omega)]
      omega
    unfold routeOf
    rw [he, getD_of_lt (by rw [List.length_drop]; omega), List.getElem_drop,
      getD_of_lt (by omega)]
    congr 1; omega
  · intro q hq hq'
    have := List.take_append_drop (mid + 1) C ▸ h.nodup
    exact (List.nodup_append.mp this).2.2 q hq q hq' rfl

/-- A new root. -/
theorem Good.single {x n c : Nat} (hx : lo < x ∧ x < hi) (hn : n ≠ c) : Good lo hi [x] [n, c] ∧
    ∀ k, routeOf [x] [n, c] k = if x ≤ k then c else n := by
  refine ⟨⟨rfl, by simp, by simpa using hx, by simp [hn]⟩, fun k => ?_⟩
  unfold routeOf upper
  by_cases hk : x ≤ k <;> simp [hk]

end Verif.Blink
