import Verif.Prune.Late
import Verif.Props.C08
import Verif.Props.C46

/-!
# C47: lookups racing with inserts, splits and removals of leaves are linearizable in tidy runs

The executions are those of `Verif.Prune.Step`: any number of threads, one access at a time, in any order.  C46 shows that not
all of them are linearizable.  A run is tidy (`Verif.Prune.Tidy`) if whenever an internode is changed, the search has found the
child that is meant and the new key is between its neighbours; for removals that is what the code asserts.
-/
namespace Verif.Props.C47

open Verif.Prune

variable {G : Type} {up : List Nat → Nat → Nat}

/-- The keys are sorted, so a search of the kind of C08 finds the number of keys that are not greater. -/
theorem counts_of {K : List Nat} {k i : Nat} (hK : K.Pairwise (· < ·))
    (h : C08.Sorted id (fun p => (k : Int) - (K.getD p 0 : Nat)) K.length →
      C08.IsUpper id (fun p => (k : Int) - (K.getD p 0 : Nat)) K.length i) : i = K.countP (· ≤ k) := by
  have hs : C08.Sorted id (fun p => (k : Int) - (K.getD p 0 : Nat)) K.length := by
    intro a b hab hb h0
    have := List.pairwise_iff_getElem.1 hK a b (by omega) hb hab
    simp only [id_eq, List.getD_eq_getElem?_getD, List.getElem?_eq_getElem hb,
      List.getElem?_eq_getElem (show a < K.length by omega), Option.getD_some] at h0 ⊢
    omega
  obtain ⟨h1, h2, h3⟩ := h hs
  conv_rhs => rw [← List.take_append_drop i K]
  rw [List.countP_append, List.countP_eq_length.2, List.countP_eq_zero.2, List.length_take]
  · omega
  · intro z hz
    obtain ⟨j, hj, rfl⟩ := List.mem_iff_getElem.1 hz
    rw [List.getElem_drop]
    rw [List.length_drop] at hj
    have := h3 (i + j) (by omega) (by omega)
    simp only [id_eq, List.getD_eq_getElem?_getD, List.getElem?_eq_getElem (show i + j < K.length by omega), Option.getD_some] at this
    simp; omega
  · intro z hz
    obtain ⟨j, hj, rfl⟩ := List.mem_iff_getElem.1 hz
    rw [List.getElem_take]
    rw [List.length_take] at hj
    have := h2 j (by omega)
    simp only [id_eq, List.getD_eq_getElem?_getD, List.getElem?_eq_getElem (show j < K.length by omega), Option.getD_some] at this
    simp; omega

/-- Both searches for a child find the number of keys that are not greater. -/
theorem binary_counts : Counts C46.binary := fun _ _ hK => counts_of hK fun hs => C08.upper_spec hs

theorem linear_counts : Counts C46.linear := fun _ _ hK => counts_of hK fun hs => C08.findUpper_spec hs

/-- The result of a lookup was current at some time during the lookup. -/
theorem lookup {r : Nat → State G} (h : TidyRun up r) {i a b : Nat} {v : Option G} (ho : Op r i a b)
    (hd : (r b).pc i = .done v) : ∃ t, a < t ∧ t ≤ b ∧ (r t).m ((r b).key i) = v := by
  have := Seen.since h ho
  rw [hd] at this
  exact this

/-- An update that has returned has published exactly once. -/
theorem update {r : Nat → State G} (h : Run up r) {i a b : Nat} {f : Option G → Option G} (ho : Op r i a b)
    (hf : (r b).fn i = some f) (hr : (r (b + 1)).pc i = .idle) :
    ∃ t, a < t ∧ t < b ∧ Publishes (r t) (r (t + 1)) i f ∧
      ∀ u g, a ≤ u → u ≤ b → Publishes (r u) (r (u + 1)) i g → u = t := by
  have hconst := Op.const h ho
  obtain ⟨h1, h2, h3⟩ := ho
  have hafter : ∀ t, (((r (t + 1)).pc i).After → ((r t).pc i).After ∨ ∃ n, (r t).pc i = .hold n ∧ (r (t + 1)).pc i = .pub n) ∧
      (((r t).pc i).After → ((r (t + 1)).pc i).After ∨ (r (t + 1)).pc i = .idle) := by
    intro t
    rcases h.step t with h4 | h4
    · rw [h4]; exact ⟨Or.inl, Or.inl⟩
    · exact ⟨(step_after h4).1, (step_after h4).2.1⟩
  -- it is not a lookup
  have hnd : ∀ t, a < t → t ≤ b → ∀ v, (r t).pc i ≠ .done v := by
    intro t
    induction t with
    | zero => intro h4; omega
    | succ t ih =>
      intro h4 h5 v hv
      rcases h.step t with h6 | h6
      · by_cases hat : a = t
        · subst hat; rw [h6, h2] at hv; cases hv
        · rw [h6] at hv; exact ih (by omega) (by omega) v hv
      · by_cases hat : a = t
        · subst hat
          rcases step_done h6 hv with h8 | ⟨_, _, _, _, h8, _⟩ <;> (rw [h2] at h8; cases h8)
        · rcases step_done h6 hv with h8 | ⟨h8, _⟩
          · exact ih (by omega) (by omega) v h8
          · rw [(hconst t (by omega) (by omega)).2, hf] at h8; cases h8
  -- the end
  have hend : ((r b).pc i).After := by
    rcases h.step b with h4 | h4
    · rw [h4] at hr; exact absurd hr (h3 b h1 (Nat.le_refl _))
    · rcases (step_after h4).2.2 hr (h3 b h1 (Nat.le_refl _)) with h5 | ⟨v, h5⟩
      · exact h5
      · exact absurd h5 (hnd b h1 (Nat.le_refl _) v)
  have hidle : ¬ (PC.idle : PC G).After := id
  have hhold : ∀ n, ¬ (PC.hold n : PC G).After := fun _ => id
  -- back to the first time
  have hback : ∀ d, d ≤ b - a → (∀ t, b - d ≤ t → t ≤ b → ((r t).pc i).After) ∨
      ∃ t, a < t ∧ t < b ∧ Publishes (r t) (r (t + 1)) i f ∧ ∀ u, t < u → u ≤ b → ((r u).pc i).After := by
    intro d
    induction d with
    | zero => intro _; exact Or.inl fun t h4 h5 => by obtain rfl : t = b := by omega
                                                      exact hend
    | succ d ih =>
      intro hd
      rcases ih (by omega) with h4 | h4
      · have hn := h4 (b - d) (Nat.le_refl _) (by omega)
        have he : b - d = (b - (d + 1)) + 1 := by omega
        rw [he] at hn
        rcases (hafter (b - (d + 1))).1 hn with h5 | ⟨n, h5, h5'⟩
        · refine Or.inl fun t h6 h7 => ?_
          by_cases ht : t = b - (d + 1)
          · subst ht; exact h5
          · exact h4 t (by omega) h7
        · by_cases hlt : b - (d + 1) = a
          · rw [hlt, h2] at h5; cases h5
          · refine Or.inr ⟨b - (d + 1), by omega, by omega, ⟨?_, n, h5, h5'⟩, fun u h6 h7 => h4 u (by omega) h7⟩
            rw [(hconst (b - (d + 1)) (by omega) (by omega)).2, hf]
      · exact Or.inr h4
  rcases hback (b - a) (Nat.le_refl _) with h4 | ⟨t, t1, t2, t3, t4⟩
  · have hn := h4 a (by omega) (by omega)
    rw [h2] at hn; exact hn.elim
  · refine ⟨t, t1, t2, t3, ?_⟩
    -- afterwards the thread only unlocks, or removes the leaf
    obtain ⟨_, n, hn, hn'⟩ := t3
    intro u g h5 h6 hu
    obtain ⟨_, m, hm, hm'⟩ := hu
    rcases Nat.lt_trichotomy u t with h7 | h7 | h7
    · -- before, it would have been idle in between
      exfalso
      have hstay : ∀ v, u < v → v ≤ t → ((r v).pc i).After := by
        intro v
        induction v with
        | zero => intro h8; omega
        | succ v ih =>
          intro h8 h9
          by_cases huv : u = v
          · subst huv; rw [hm']; trivial
          · rcases (hafter v).2 (ih (by omega) (by omega)) with h10 | h10
            · exact h10
            · exact absurd h10 (h3 (v + 1) (by omega) (by omega))
      have hk := hstay t h7 (Nat.le_refl _)
      rw [hn] at hk; exact hhold _ hk
    · exact h7
    · have hk := t4 u h7 h6
      rw [hm] at hk; exact (hhold _ hk).elim

/-- Linearizability: there is one history of the map, which begins with the contents of the layer and changes only by
publications, each of which applies the update of its thread to the current value of its key, which is in the leaf the thread
has locked.  Every lookup returns a value that was current during the lookup, and every update that returns takes effect
exactly once, during the update. -/
theorem linearizable {r : Nat → State G} (h : TidyRun up r) : ∃ M : Nat → Nat → Option G,
    M 0 = (r 0).items 0 ∧
    (∀ t, (M (t + 1) = M t ∧ ∀ i f, ¬ Publishes (r t) (r (t + 1)) i f) ∨
      ∃ i f, Publishes (r t) (r (t + 1)) i f ∧
        M (t + 1) = Function.update (M t) ((r t).key i) (f (M t ((r t).key i))) ∧
        (∃ n, (r t).pc i = .hold n ∧ (r t).items n ((r t).key i) = M t ((r t).key i)) ∧
        ∀ j g, Publishes (r t) (r (t + 1)) j g → j = i) ∧
    (∀ i a b v, Op r i a b → (r b).pc i = .done v → ∃ t, a < t ∧ t ≤ b ∧ M t ((r b).key i) = v) ∧
    ∀ i a b f, Op r i a b → (r b).fn i = some f → (r (b + 1)).pc i = .idle →
      ∃ t, a < t ∧ t < b ∧ (r t).key i = (r b).key i ∧ Publishes (r t) (r (t + 1)) i f ∧
        ∀ u g, a ≤ u → u ≤ b → Publishes (r u) (r (u + 1)) i g → u = t := by
  refine ⟨fun t => (r t).m, h.init.items.symm, fun t => ?_, fun i a b v => lookup h, fun i a b f ho hf hr => ?_⟩
  · rcases h.step t with h1 | h1
    · refine Or.inl ⟨by show (r (t + 1)).m = _; rw [h1], ?_⟩
      rintro i f ⟨_, n, h2, h3⟩
      rw [h1, h2] at h3; cases h3
    · exact step_map (h.inv t) h1
  · obtain ⟨t, t1, t2, t3, t4⟩ := update h.toRun ho hf hr
    exact ⟨t, t1, t2, (Op.const h.toRun ho t t1 (by omega)).1, t3, t4⟩

/-- A key that is present all the time is found, whatever leaves are removed meanwhile. -/
theorem present {r : Nat → State G} (h : TidyRun up r) {i a b : Nat} {v : Option G} (ho : Op r i a b)
    (hd : (r b).pc i = .done v) (hp : ∀ t, a < t → t ≤ b → (r t).m ((r b).key i) ≠ none) : v ≠ none := by
  obtain ⟨t, h1, h2, h3⟩ := lookup h ho hd
  rw [← h3]; exact hp t h1 h2

/-- A key nobody changes meanwhile is found with its value. -/
theorem unchanged {r : Nat → State G} (h : TidyRun up r) {i a b : Nat} {v w : Option G} (ho : Op r i a b)
    (hd : (r b).pc i = .done v) (hp : ∀ t, a < t → t ≤ b → (r t).m ((r b).key i) = w) : v = w := by
  obtain ⟨t, h1, h2, h3⟩ := lookup h ho hd
  rw [← h3]; exact hp t h1 h2

/-- A thread that has a leaf locked to change it has a leaf that is not deleted, and nobody else has it. -/
theorem held {r : Nat → State G} (h : TidyRun up r) {t i n : Nat} (hp : (r t).pc i = .hold n) :
    (r t).leaf n = true ∧ (r t).dead n = false ∧ ∀ j, (r t).pc j = .hold n → j = i := by
  have hl := (h.inv t).loc i
  rw [hp] at hl
  have ho : ∀ j, (r t).pc j = .hold n → (r t).lock n = some j := fun j hj => (h.inv t).own j n (by rw [hj]; rfl)
  refine ⟨hl.2.1, hl.2.2.2.2.1, fun j hj => ?_⟩
  have h1 := ho i hp
  rw [ho j hj] at h1
  exact Option.some.inj h1

/-! ### Examples -/

theorem race_op : Op Late.race 2 38 46 := by
  refine ⟨by omega, rfl, fun t h1 h2 => ?_⟩
  match t with
  | 39 | 40 | 41 | 42 | 43 | 44 | 45 | 46 => intro h; cases h
  | t + 47 => omega

theorem race_put : Op Late.race 0 0 40 := by
  refine ⟨by omega, rfl, fun t h1 h2 => ?_⟩
  match t with
  | 0 => omega
  | 1 | 2 | 3 | 4 | 5 | 6 | 7 | 8 | 9 | 10 | 11 | 12 | 13 | 14 | 15 | 16 | 17 | 18 | 19 | 20 | 21 | 22 | 23 | 24 | 25 | 26 | 27
  | 28 | 29 | 30 | 31 | 32 | 33 | 34 | 35 | 36 | 37 | 38 | 39 | 40 => intro h; cases h
  | t + 41 => omega

/-- Leaf 1 is removed while thread 0 is on its way from the split leaf 0, where it puts key 15 in the end; thread 2 finds it. -/
example : (∃ t, 38 < t ∧ t ≤ 46 ∧ (Late.race t).m 15 = some 7) ∧
    (∃ t, 0 < t ∧ t < 40 ∧ Publishes (Late.race t) (Late.race (t + 1)) 0 Lost.put ∧
      ∀ u g, 0 ≤ u → u ≤ 40 → Publishes (Late.race u) (Late.race (u + 1)) 0 g → u = t) ∧
    (Late.race 26).dead 1 = true ∧ (Late.race 26).kids 2 = [some 0, some 1] ∧ (Late.race 30).kids 2 = [some 0] ∧
    (Late.race 26).pc 0 = .read 0 0 0 none :=
  ⟨lookup (Late.race_ok binary_counts) race_op rfl, update (Late.race_run binary_counts) race_put rfl rfl, rfl, rfl, rfl, rfl⟩

end Verif.Props.C47
