import Verif.Range.World

/-!
# The way to a layer, and what a change of an entry means for the tree
-/
namespace Verif.Range

open Verif.Key (Bytes slice)

variable {W : Type} {L : Nat → Lay W}

/-! ### The value of a key in a layer -/

theorem at_val {t l : Nat} {k : Bytes} {w : W} (he : at_ L t l (pos k) = some (.val w)) :
    find (fun l => (L l).hist) t l k = some w := find_val (R := fun l => (L l).hist) he

theorem at_suf {t l : Nat} {k ρ : Bytes} {w : W} (he : at_ L t l (pos k) = some (.suf ρ w)) :
    find (fun l => (L l).hist) t l k = if ρ = k.drop 8 then some w else none := find_suf (R := fun l => (L l).hist) he

theorem at_link {t l l' : Nat} {k : Bytes} (he : at_ L t l (pos k) = some (.link l')) (hl : 8 < k.length) :
    find (fun l => (L l).hist) t l k = find (fun l => (L l).hist) t l' (k.drop 8) := find_link (R := fun l => (L l).hist) he hl

theorem at_none {t l : Nat} {k : Bytes} (he : at_ L t l (pos k) = none) : find (fun l => (L l).hist) t l k = none := by
  cases hf : find (fun l => (L l).hist) t l k with
  | none => rfl
  | some v =>
    obtain ⟨e, h1⟩ := find_entry (R := fun l => (L l).hist) (u := t) (l := l) (κ := k) (by rw [hf]; simp)
    change at_ L t l (pos k) = some e at h1
    rw [he] at h1; cases h1

/-! ### The way to a layer -/

/-- The keys of layer `l` continue the bytes given, at time `t`. -/
inductive Path (L : Nat → Lay W) (t : Nat) : Nat → Bytes → Prop where
  | root : Path L t 0 []
  | down {l l' p : Nat} {pre : Bytes} (h : Path L t l pre) (he : at_ L t l p = some (.link l')) : Path L t l' (pre ++ keyAt p)

theorem World.slot (h : World L) {t l p m : Nat} (he : at_ L t l p = some (.link m)) : Slot p ∧ m ≠ 0 := by
  cases (h.holds t).fits l p _ he with
  | link _ hp hl => exact ⟨hp, hl⟩

theorem keyAt_slot {p : Nat} (h : Slot p) : (keyAt p).length = 8 := (h.pos (κ := [0]) (by simp)).2

/-- There is one way to a layer. -/
theorem World.path_unique (h : World L) {t l : Nat} {pre pre' : Bytes} (h1 : Path L t l pre) (h2 : Path L t l pre') :
    pre = pre' := by
  induction h1 generalizing pre' with
  | root =>
    generalize hz : 0 = z at h2
    cases h2 with
    | root => rfl
    | down _ he => exact absurd hz.symm (h.slot he).2
  | down h1 he ih =>
    cases h2 with
    | root => exact absurd rfl (h.slot he).2
    | down h2 he' =>
      obtain ⟨rfl, rfl⟩ := (h.holds t).once _ _ _ _ _ he he'
      rw [ih h2]

/-- A layer with a link to an attached one is attached. -/
theorem World.path_up (h : World L) {t l p m : Nat} {pre : Bytes} (h1 : Path L t m pre) (he : at_ L t l p = some (.link m)) :
    ∃ pre', Path L t l pre' := by
  cases h1 with
  | root => exact absurd rfl (h.slot he).2
  | down h1 he' =>
    obtain ⟨rfl, rfl⟩ := (h.holds t).once _ _ _ _ _ he he'
    exact ⟨_, h1⟩

/-- The value of a key by way of a layer. -/
theorem World.path_find (h : World L) {t l : Nat} {pre : Bytes} (h1 : Path L t l pre) {k : Bytes} (hk : k ≠ [] ∨ l = 0) :
    get L t (pre ++ k) = find (fun l => (L l).hist) t l k := by
  induction h1 generalizing k with
  | root => rfl
  | down h1 he ih =>
    have hs := h.slot he
    have hk : k ≠ [] := hk.resolve_right hs.2
    have h2 := hs.1.pos hk
    rw [List.append_assoc, ih (Or.inl (List.append_ne_nil_of_right_ne_nil _ hk)),
      at_link (by rw [h2.1]; exact he) (by
        rw [List.length_append, h2.2]
        have : 0 < k.length := List.length_pos_iff.2 hk
        omega)]
    rw [List.drop_left' h2.2]

/-- A key whose value changes goes by way of the entry that does. -/
theorem World.find_change (h : World L) {t l : Nat} {pre : Bytes} (h1 : Path L t l pre) (k : Bytes) :
    find (fun l => (L l).hist) (t + 1) l k = find (fun l => (L l).hist) t l k ∨
    ∃ m pre' k', Path L t m pre' ∧ pre ++ k = pre' ++ k' ∧ at_ L (t + 1) m (pos k') ≠ at_ L t m (pos k') ∧ (k' ≠ [] ∨ m = l ∧ k' = k) := by
  induction hn : k.length using Nat.strongRecOn generalizing l pre k with
  | ind n ih =>
  by_cases hc : at_ L (t + 1) l (pos k) = at_ L t l (pos k)
  · cases he : at_ L t l (pos k) with
    | none =>
      left
      rw [he] at hc
      rw [at_none hc, at_none he]
    | some e =>
      rw [he] at hc
      cases e with
      | val w => left; rw [at_val hc, at_val he]
      | suf ρ w => left; rw [at_suf hc, at_suf he]
      | link l' =>
        by_cases hl : 8 < k.length
        · rw [at_link hc hl, at_link he hl]
          have hp := Path.down h1 he
          rw [keyAt_pos] at hp
          rcases ih (k.drop 8).length (by rw [List.length_drop]; omega) hp (k.drop 8) rfl with h2 | ⟨m, pre', k', h2, h3, h4, h5⟩
          · exact Or.inl h2
          · refine Or.inr ⟨m, pre', k', h2, ?_, h4, ?_⟩
            · rw [← h3, List.append_assoc, List.take_append_drop]
            · refine Or.inl ?_
              rcases h5 with h5 | ⟨_, rfl⟩
              · exact h5
              · intro h6
                have := congrArg List.length h6
                rw [List.length_drop] at this
                simp at this
                omega
        · exact absurd (h.slot he).1.long hl
  · exact Or.inr ⟨l, pre, k, h1, rfl, hc, Or.inr ⟨rfl, rfl⟩⟩

/-- The change of an entry does not change the way to its layer. -/
theorem World.path_next (h : World L) {t m p : Nat} {pre : Bytes} (hp : Path L t m pre)
    (hc : at_ L (t + 1) m p ≠ at_ L t m p) : Path L (t + 1) m pre := by
  have key : ∀ l pre', Path L t l pre' → Path L (t + 1) l pre' ∨ ∃ pre'', Path L t m pre'' ∧ pre''.length < pre'.length := by
    intro l pre' h1
    induction h1 with
    | root => exact Or.inl .root
    | @down l l' q pre' h1 he ih =>
      have h8 := keyAt_slot (h.slot he).1
      rcases ih with ih | ⟨x, h2, h3⟩
      · by_cases hq : at_ L (t + 1) l q = at_ L t l q
        · exact Or.inl (.down ih (hq.trans he))
        · obtain ⟨rfl, rfl⟩ := h.one t l q m p hq hc
          exact Or.inr ⟨pre', h1, by rw [List.length_append]; omega⟩
      · exact Or.inr ⟨x, h2, by rw [List.length_append]; omega⟩
  rcases key m pre hp with h1 | ⟨x, h1, h2⟩
  · exact h1
  · rw [h.path_unique h1 hp] at h2; omega

/-- If the key's entry does not change, its value does not, even if that of others does. -/
theorem World.get_change (h : World L) {t m p : Nat} (hc : at_ L (t + 1) m p ≠ at_ L t m p) (κ : Bytes) :
    get L (t + 1) κ = get L t κ ∨ ∃ pre k, Path L t m pre ∧ κ = pre ++ k ∧ pos k = p ∧ (k ≠ [] ∨ m = 0) := by
  rcases h.find_change (t := t) .root κ with h1 | ⟨m', pre, k, h1, h2, h3, h4⟩
  · exact Or.inl h1
  · obtain ⟨rfl, rfl⟩ := h.one t m' (pos k) m p h3 hc
    exact Or.inr ⟨pre, k, h1, h2, rfl, h4.imp id And.left⟩

/-! ### Changes that do not change the map -/

/-- A layer that is not attached may change as it likes. -/
theorem World.detached (h : World L) {t m p : Nat} (hc : at_ L (t + 1) m p ≠ at_ L t m p) (hd : ∀ pre, ¬ Path L t m pre) :
    get L (t + 1) = get L t := by
  funext κ
  rcases h.get_change hc κ with h1 | ⟨pre, _, h1, _⟩
  · exact h1
  · exact absurd h1 (hd pre)

/-- A key that is put into new layers is found there. -/
theorem Twig.find (h : World L) {t m p : Nat} {pre : Bytes} (hc : at_ L (t + 1) m p ≠ at_ L t m p) (hm : Path L t m pre)
    {l : Nat} {ρ : Bytes} {w : W} (ht : Twig L t l ρ w) (hd : ∀ pre, ¬ Path L t l pre) (k : Bytes) :
    Range.find (fun l => (L l).hist) (t + 1) l k = if ρ = k then some w else none := by
  have same : ∀ {l : Nat}, (∀ pre, ¬ Path L t l pre) → ∀ q, at_ L (t + 1) l q = at_ L t l q := by
    intro l hd q
    by_contra hq
    obtain ⟨rfl, rfl⟩ := h.one t l q m p hq hc
    exact hd _ hm
  have other : ∀ {l : Nat} {ρ k : Bytes}, (∀ q, q ≠ pos ρ → at_ L t l q = none) → (∀ pre, ¬ Path L t l pre) → pos k ≠ pos ρ →
      Range.find (fun l => (L l).hist) (t + 1) l k = none := by
    intro l ρ k ho hd hk
    have h1 := (same hd (pos k)).trans (ho _ hk)
    exact at_none h1
  induction ht generalizing k with
  | @val l ρ w hρ he ho =>
    by_cases hk : pos k = pos ρ
    · obtain rfl := eq_of_pos hk.symm hρ.2
      rw [if_pos rfl, at_val ((same hd _).trans he)]
    · rw [other ho hd hk, if_neg (fun h => hk (by rw [h]))]
  | @suf l ρ w hρ he ho =>
    by_cases hk : pos k = pos ρ
    · rw [at_suf ((same hd (pos k)).trans (by rw [hk]; exact he))]
      by_cases h1 : ρ = k
      · rw [if_pos h1, if_pos (by rw [h1])]
      · rw [if_neg h1, if_neg fun h2 => h1 (eq_of_drop hk.symm h2)]
    · rw [other ho hd hk, if_neg (fun h => hk (by rw [h]))]
  | @link l l' ρ w hρ he ho ht ih =>
    by_cases hk : pos k = pos ρ
    · have hl : 8 < k.length := (take_of_pos hk.symm hρ).1
      rw [at_link ((same hd (pos k)).trans (by rw [hk]; exact he)) hl]
      rw [ih fun pre' h1 => by
        obtain ⟨x, h2⟩ := h.path_up h1 he
        exact hd x h2]
      by_cases h1 : ρ = k
      · rw [if_pos h1, if_pos (by rw [h1])]
      · rw [if_neg h1, if_neg fun h2 => h1 (eq_of_drop hk.symm h2)]
    · rw [other ho hd hk, if_neg (fun h => hk (by rw [h]))]

/-- The creation of a layer does not change the map. -/
theorem World.created (h : World L) {t m p l : Nat} (hc : at_ L (t + 1) m p ≠ at_ L t m p)
    (he : at_ L (t + 1) m p = some (.link l)) : get L (t + 1) = get L t := by
  funext κ
  rcases h.get_change hc κ with h1 | ⟨pre, k, h1, rfl, rfl, h4⟩
  · exact h1
  · rw [h.path_find (h.path_next h1 hc) h4, h.path_find h1 h4]
    have hch := h.change t m (pos k) hc
    rw [he] at hch
    generalize hv : at_ L t m (pos k) = v at hch
    cases hch with
    | layer ρ w _ h0 hn ht =>
      have hl : 8 < k.length := (h.slot he).1.long
      rw [at_link he hl, at_suf hv]
      refine ht.find h hc h1 (fun x hx => ?_) (k.drop 8)
      generalize hz : l = z at hx
      cases hx with
      | root => exact h0 hz
      | down _ he' => subst hz; exact hn _ _ he'

/-- The collection of a layer does not change the map. -/
theorem World.collected (h : World L) {t m p l : Nat} (hc : at_ L (t + 1) m p ≠ at_ L t m p)
    (he : at_ L t m p = some (.link l)) : get L (t + 1) = get L t := by
  funext κ
  rcases h.get_change hc κ with h1 | ⟨pre, k, h1, rfl, rfl, h4⟩
  · exact h1
  · rw [h.path_find (h.path_next h1 hc) h4, h.path_find h1 h4]
    rcases h.held he with h2 | ⟨h2, x, hx, h3⟩
    · exact absurd (h2.trans he.symm) hc
    · have hl : 8 < k.length := (h.slot he).1.long
      rw [at_link he hl]
      rw [at_none h2, at_none (h.shut h3 hx _)]

/-! ### Changes that do -/

/-- The entry for key `k` of a layer, with value `w`. -/
def ent (k : Bytes) (w : W) : Ent W := if k.length ≤ 8 then .val w else .suf (k.drop 8) w

/-- The entry for key `k` of layer `m` changes at time `t` so that its value becomes `v`. -/
inductive Writes (L : Nat → Lay W) (t m : Nat) (k : Bytes) : Option W → Prop where
  | put (w : W) (he : at_ L (t + 1) m (pos k) = some (ent k w)) : Writes L t m k (some w)
  | remove (w : W) (he : at_ L t m (pos k) = some (ent k w)) (h : at_ L (t + 1) m (pos k) = none) : Writes L t m k none

theorem at_ent {u l : Nat} {k k' : Bytes} {w : W} (he : at_ L u l (pos k) = some (ent k w)) (hk : pos k' = pos k) :
    find (fun l => (L l).hist) u l k' = if k' = k then some w else none := by
  unfold ent at he
  by_cases h : k.length ≤ 8
  · rw [if_pos h] at he
    obtain rfl := eq_of_pos hk.symm h
    rw [if_pos rfl, at_val he]
  · rw [if_neg h] at he
    rw [at_suf (by rw [hk]; exact he)]
    by_cases h1 : k' = k
    · rw [if_pos h1, if_pos (by rw [h1])]
    · rw [if_neg h1, if_neg fun h2 => h1 (eq_of_drop hk h2.symm)]

/-- What was there before: nothing, or the same key. -/
theorem World.before (h : World L) {t m : Nat} {k : Bytes} {w : W} (hc : at_ L (t + 1) m (pos k) ≠ at_ L t m (pos k))
    (he : at_ L (t + 1) m (pos k) = some (ent k w)) :
    at_ L t m (pos k) = none ∨ ∃ w', at_ L t m (pos k) = some (ent k w') := by
  have hch := h.change t m (pos k) hc
  rw [he] at hch
  unfold ent at hch ⊢
  generalize at_ L t m (pos k) = v at hch
  by_cases hk : k.length ≤ 8
  · rw [if_pos hk] at hch
    simp only [if_pos hk]
    cases hch with
    | put _ k' _ _ _ _ hv =>
      cases v with
      | none => exact Or.inl rfl
      | some e => obtain ⟨w', rfl⟩ := hv e rfl; exact Or.inr ⟨w', rfl⟩
  · rw [if_neg hk] at hch
    simp only [if_neg hk]
    cases hch with
    | putLong _ ρ _ _ _ hv =>
      cases v with
      | none => exact Or.inl rfl
      | some e => obtain ⟨w', rfl⟩ := hv e rfl; exact Or.inr ⟨w', rfl⟩

/-- A change of the entry of a key changes the value of that key, and of no other. -/
theorem World.written (h : World L) {t m : Nat} {k pre : Bytes} {v : Option W} (hc : at_ L (t + 1) m (pos k) ≠ at_ L t m (pos k))
    (hp : Path L t m pre) (hk : k ≠ [] ∨ m = 0) (hw : Writes L t m k v) :
    get L (t + 1) = Function.update (get L t) (pre ++ k) v := by
  have hp' := h.path_next hp hc
  have now : ∀ k', pos k' = pos k → find (fun l => (L l).hist) (t + 1) m k' = if k' = k then v else none := by
    intro k' hk'
    cases hw with
    | put w he => exact at_ent he hk'
    | remove w _ hn => rw [at_none (by rw [hk']; exact hn)]; split <;> rfl
  have was : ∀ k', pos k' = pos k → k' ≠ k → find (fun l => (L l).hist) t m k' = none := by
    intro k' hk' hne
    have : at_ L t m (pos k) = none ∨ ∃ w', at_ L t m (pos k) = some (ent k w') := by
      cases hw with
      | put w he => exact h.before hc he
      | remove w he _ => exact Or.inr ⟨w, he⟩
    rcases this with h1 | ⟨w', h1⟩
    · exact at_none (by rw [hk']; exact h1)
    · rw [at_ent h1 hk', if_neg hne]
  funext κ
  by_cases hκ : κ = pre ++ k
  · subst hκ
    rw [Function.update_self, h.path_find hp' hk, now k rfl, if_pos rfl]
  · rw [Function.update_of_ne hκ]
    rcases h.get_change hc κ with h1 | ⟨x, k', h1, rfl, h3, h4⟩
    · exact h1
    · obtain rfl := h.path_unique h1 hp
      have hne : k' ≠ k := by rintro rfl; exact hκ rfl
      rw [h.path_find hp' h4, h.path_find hp h4, now k' h3, was k' h3 hne, if_neg hne]

/-- Every change of an entry is one of these. -/
theorem World.kinds (h : World L) {t m p : Nat} (hc : at_ L (t + 1) m p ≠ at_ L t m p) :
    (∃ k v, p = pos k ∧ (m ≠ 0 → k ≠ []) ∧ Writes L t m k v) ∨ (∃ l, at_ L (t + 1) m p = some (.link l)) ∨
    ∃ l, at_ L t m p = some (.link l) := by
  have hch := h.change t m p hc
  have short : ∀ {k : Bytes} (w : W), k.length ≤ 8 → ent k w = .val w := fun w hk => if_pos hk
  have long : ∀ {ρ : Bytes} (w : W), Slot p → ρ ≠ [] → p = pos (keyAt p ++ ρ) ∧ ent (keyAt p ++ ρ) w = .suf ρ w := by
    intro ρ w hp hρ
    obtain ⟨h1, h2⟩ := hp.pos hρ
    refine ⟨h1.symm, ?_⟩
    have : 0 < ρ.length := List.length_pos_iff.2 hρ
    unfold ent
    rw [if_neg (by rw [List.length_append]; omega), List.drop_left' h2]
  generalize hv : at_ L t m p = v at hch
  generalize hv' : at_ L (t + 1) m p = v' at hch
  cases hch with
  | put _ k w hk hp hl _ =>
    subst hp
    exact Or.inl ⟨k, some w, rfl, hl, .put w (by rw [hv', short w hk])⟩
  | putLong _ ρ w hp hρ _ =>
    obtain ⟨h1, h2⟩ := long w hp hρ
    refine Or.inl ⟨_, some w, h1, fun _ => List.append_ne_nil_of_right_ne_nil _ hρ, .put w ?_⟩
    rw [← h1, hv', h2]
  | remove w =>
    cases (h.holds t).fits m p _ hv with
    | val k _ hk hp hl =>
      subst hp
      exact Or.inl ⟨k, none, rfl, hl, .remove w (by rw [hv, short w hk]) hv'⟩
  | removeLong ρ w =>
    cases (h.holds t).fits m p _ hv with
    | suf _ _ hp hρ =>
      obtain ⟨h1, h2⟩ := long w hp hρ
      refine Or.inl ⟨_, none, h1, fun _ => List.append_ne_nil_of_right_ne_nil _ hρ, .remove w ?_ ?_⟩
      · rw [← h1, hv, h2]
      · rw [← h1]; exact hv'
  | layer ρ w l _ _ _ => exact Or.inr (Or.inl ⟨l, rfl⟩)
  | collect l _ _ _ => exact Or.inr (Or.inr ⟨l, rfl⟩)

end Verif.Range
