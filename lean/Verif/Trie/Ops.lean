import Verif.Trie.Inv

/-!
What each operation does to lookups, for every well-formed table and every key.
-/
namespace Verif.Trie
open Verif.Permuter (Word size used)
open Verif.Key (Bytes slice compareKeys)
open Verif.Tree
variable {V : Type}

theorem get_same {t : T V} (h : Tree.Inv none top t) {k k2 : Bytes} {m : List (Slot (LV V))}
    (hm : matching (lkey k) (entries t) = m) (he : (lkey k2).key = (lkey k).key) :
    get k2 t = resolve (get (k2.drop 8)) k2 m.head? := by
  rw [get_eq h, ← hm]
  unfold matching
  rw [he]

theorem key_ne {k k2 : Bytes} (h : ¬ (lkey k2).key = (lkey k).key) : k2 ≠ k := by
  rintro rfl; exact h rfl

/-- Facts about the slot a lookup meets. -/
theorem slot_cases {t : T V} (h : WF t) {k : Bytes} {s : Slot (LV V)}
    (hm : matching (lkey k) (entries t) = [s]) :
    s ∈ entries t ∧ s.key = (lkey k).key ∧
    ((s.klx ≤ 8 ∧ k.length ≤ 8 ∧ ∃ v, s.lv = some (.val v)) ∨
     (s.klx = 64 ∧ 8 < k.length ∧ ∃ v, s.lv = some (.val v)) ∨
     (s.klx = 128 ∧ 8 < k.length ∧ ∃ n, s.lv = some (.layer n) ∧ WF n)) := by
  obtain ⟨h1, h2⟩ := mem_matching (l := entries t) (x := lkey k) (s := s) (by rw [hm]; rfl)
  refine ⟨h1, h2, ?_⟩
  have h3 := h2
  simp only [Slot.key, lkey, LKey.key, Prod.mk.injEq] at h3
  rcases h.ok s h1 with ⟨a, _, v, c⟩ | ⟨a, _, _, v, c⟩ | ⟨a, _, n, c⟩
  · exact .inl ⟨a, by omega, v, c⟩
  · exact .inr (.inl ⟨a, by omega, v, c⟩)
  · exact .inr (.inr ⟨a, by omega, n, c, h.sub s h1 n c⟩)

theorem resolve_val {rec : T V → Option (Option V)} {k : Bytes} {s : Slot (LV V)} {v : V}
    (h : s.klx ≤ 8) (hv : s.lv = some (.val v)) : resolve rec k (some s) = some (some v) := by
  unfold resolve; dsimp only; rw [if_pos (by omega), hv]

theorem resolve_suf {rec : T V → Option (Option V)} {k : Bytes} {s : Slot (LV V)} {v : V}
    (h : s.klx = 64) (hv : s.lv = some (.val v)) :
    resolve rec k (some s) = if s.suf = k.drop 8 then some (some v) else some none := by
  unfold resolve; dsimp only; rw [if_neg (by omega), if_neg (by omega), hv]

theorem resolve_layer {rec : T V → Option (Option V)} {k : Bytes} {s : Slot (LV V)} {n : T V}
    (h : s.klx = 128) (hk : 8 < k.length) (hv : s.lv = some (.layer n)) :
    resolve rec k (some s) = rec n := by
  unfold resolve; dsimp only; rw [if_neg (by omega), if_pos h, if_pos hk, hv]

/-- A lookup in a well-formed table always ends. -/
theorem get_total {t : T V} (h : WF t) (k : Bytes) : ∃ r, get k t = some r := by
  induction hl : k.length using Nat.strongRecOn generalizing k t with
  | _ n ih =>
    rw [get_eq h.inv]
    rcases matching_le_one (x := lkey k) h.inv.sorted_range.1 with hm | ⟨s, hm⟩
    · rw [hm]; exact ⟨none, rfl⟩
    · rw [hm]
      simp only [List.head?_cons]
      obtain ⟨_, _, ⟨h1, _, v, h3⟩ | ⟨h1, _, v, h3⟩ | ⟨h1, h2, n', h3, h4⟩⟩ := slot_cases h hm
      · exact ⟨_, resolve_val h1 h3⟩
      · rw [resolve_suf h1 h3]; split
        · exact ⟨_, rfl⟩
        · exact ⟨_, rfl⟩
      · rw [resolve_layer h1 h2 h3]
        exact ih (k.drop 8).length (by simp; omega) h4 _ rfl

/-- Overwriting the value in the slot of `k`. -/
theorem setVal_spec {t : T V} (h : WF t) {k : Bytes} {s : Slot (LV V)} {v w : V}
    (hm : matching (lkey k) (entries t) = [s]) (hs : s.klx ≤ 8 ∨ s.klx = 64) (hv : s.lv = some (.val v))
    (hg : get k t = some (some v)) :
    ∃ t', setVal (lkey k) w t = some t' ∧ WF t' ∧
      ∀ k2, get k2 t' = if k2 = k then some (some w) else get k2 t := by
  obtain ⟨t', h1, h2, h3⟩ := modify_spec (lkey k) (fun s => { s with lv := some (.val w) }) h.inv (lkey_top k) hm rfl
  obtain ⟨hmem, hkey, hc⟩ := slot_cases h hm
  refine ⟨t', h1, ?_, ?_⟩
  · refine h.edit h2 h3 ?_ ?_
    · simp only [List.mem_singleton]
      rintro _ rfl
      rcases h.ok s hmem with ⟨a, b, _⟩ | ⟨a, b, c, _⟩ | ⟨a, _⟩
      · exact .inl ⟨a, b, w, rfl⟩
      · exact .inr (.inl ⟨a, b, c, w, rfl⟩)
      · omega
    · simp only [List.mem_singleton]
      rintro _ rfl n hn
      simp at hn
  · intro k2
    rw [get_edit h.inv h2 h3 (by simp only [List.mem_singleton]; rintro _ rfl; exact hkey)]
    split
    · next c =>
      simp only [List.head?_cons]
      rw [get_same h.inv hm c]
      rw [get_same h.inv hm rfl] at hg
      simp only [List.head?_cons] at hg ⊢
      rcases lkey_key_eq c with ⟨h4, rfl⟩ | ⟨h4, h5, h6⟩
      · have : s.klx ≤ 8 := by
          simp only [Slot.key, lkey, LKey.key, Prod.mk.injEq] at hkey; omega
        rw [resolve_val (v := w) (by exact this) rfl]; simp
      · have h64 : s.klx = 64 := by
          simp only [Slot.key, lkey, LKey.key, Prod.mk.injEq] at hkey; omega
        rw [resolve_suf (v := w) (by exact h64) rfl, resolve_suf h64 hv]
        rw [resolve_suf h64 hv] at hg
        have hsuf : s.suf = k.drop 8 := by
          by_cases c : s.suf = k.drop 8
          · exact c
          · rw [if_neg c] at hg; simp at hg
        simp only [eq_of_take_drop h6]
        rw [hsuf]
        by_cases c : k.drop 8 = k2.drop 8
        · rw [if_pos c, if_pos c.symm]
        · rw [if_neg c, if_neg (fun h => c h.symm), if_neg c]
    · next c => rw [if_neg (key_ne c)]

/-- Replacing a layer by another one with the given lookups. -/
theorem setLayer_spec {t : T V} (h : WF t) {k : Bytes} {s : Slot (LV V)} {n' : T V}
    (hm : matching (lkey k) (entries t) = [s]) (hk : 8 < k.length) (hn : WF n') (g : Slot (LV V) → Slot (LV V))
    (hg : g s = { s with klx := 128, lv := some (.layer n') }) :
    ∃ t', modify (lkey k) g t = some t' ∧ WF t' ∧
      ∀ k2, get k2 t' = if 8 < k2.length ∧ k2.take 8 = k.take 8 then get (k2.drop 8) n' else get k2 t := by
  obtain ⟨hmem, hkey, hc⟩ := slot_cases h hm
  have hkey' := hkey
  simp only [Slot.key, lkey, LKey.key, Prod.mk.injEq] at hkey'
  have hgk : (g s).key = s.key := by
    rw [hg]; simp only [Slot.key, Prod.mk.injEq, true_and]; omega
  obtain ⟨t', h1, h2, h3⟩ := modify_spec (lkey k) g h.inv (lkey_top k) hm hgk
  refine ⟨t', h1, ?_, ?_⟩
  · refine h.edit h2 h3 ?_ ?_
    · simp only [List.mem_singleton]
      rintro _ rfl
      rw [hg]
      refine .inr (.inr ⟨rfl, ⟨k.take 8, by simp; omega, ?_⟩, n', rfl⟩)
      rw [Key.slice_take8]; exact hkey'.1.symm
    · simp only [List.mem_singleton]
      rintro _ rfl n hn'
      rw [hg] at hn'
      simp only [Option.some.injEq, LV.layer.injEq] at hn'
      exact hn' ▸ hn
  · intro k2
    rw [get_edit h.inv h2 h3 (by
      simp only [List.mem_singleton]; rintro _ rfl; rw [hgk]; exact hkey)]
    by_cases c : (lkey k2).key = (lkey k).key
    · rw [if_pos c]
      rcases lkey_key_eq c with h4 | ⟨_, h5, h6⟩
      · omega
      · rw [if_pos ⟨h5, h6⟩]
        simp only [List.head?_cons]
        rw [resolve_layer (n := n') (by rw [hg]) h5 (by rw [hg])]
    · rw [if_neg c, if_neg]
      rintro ⟨h5, h6⟩
      apply c
      simp only [lkey, LKey.key, Prod.mk.injEq]
      refine ⟨?_, by omega⟩
      rw [← Key.slice_take8 k2, ← Key.slice_take8 k, h6]

/-- `find_insert` reports whether the key was present, and a committed insertion changes the
lookup of this key and of no other; an abandoned one changes nothing. -/
theorem upsert_spec (commit : Bool) (f : Option V → V) (k : Bytes) (t : T V) (h : WF t) :
    ∃ old t', get k t = some old ∧ upsert commit f k t = some (old.isSome, t') ∧ WF t' ∧
      ∀ k2, get k2 t' = if k2 = k ∧ commit = true then some (some (f old)) else get k2 t := by
  induction hl : k.length using Nat.strongRecOn generalizing k t with
  | _ len ih =>
    rcases matching_le_one (x := lkey k) h.inv.sorted_range.1 with hm | ⟨s, hm⟩
    · -- absent, and nothing shares its slot
      have hget : get k t = some none := by rw [get_same h.inv hm rfl]; rfl
      have hf : find (lkey k) t = some none := by rw [find_spec _ h.inv, hm]; rfl
      obtain ⟨t', h1, h2, h3⟩ := insert_spec (lkey k) commit
        (mkSlot k (if commit then some (.val (f none)) else none)) h.inv (lkey_top k) (mkSlot_key _ _) hm
      refine ⟨none, t', hget, ?_, ?_, ?_⟩
      · rw [upsert]; simp only [hf, h1]; rfl
      · refine h.edit h2 h3 ?_ ?_
        · cases commit with
          | false => simp
          | true =>
            simp only [if_true, List.mem_singleton]
            rintro _ rfl; exact slotOk_mkSlot _ _
        · cases commit with
          | false => simp
          | true =>
            simp only [if_true, List.mem_singleton]
            rintro _ rfl n hn; simp [mkSlot] at hn
      · intro k2
        rw [get_edit h.inv h2 h3 (by
          cases commit with
          | false => simp
          | true => simp only [if_true, List.mem_singleton]; rintro _ rfl; exact mkSlot_key _ _)]
        by_cases c : (lkey k2).key = (lkey k).key
        · rw [if_pos c, get_same h.inv hm c]
          cases commit with
          | false => simp
          | true =>
            simp only [if_true, List.head?_cons, and_true, List.head?_nil]
            rw [resolve_mkSlot _ _ c]; rfl
        · rw [if_neg c]; simp [key_ne c]
    · have hf : find (lkey k) t = some (some s) := by rw [find_spec _ h.inv, hm]; rfl
      have hget : get k t = resolve (get (k.drop 8)) k (some s) := by rw [get_same h.inv hm rfl]; rfl
      have found : ∀ v, s.lv = some (.val v) → s.klx ≤ 8 ∨ s.klx = 64 → get k t = some (some v) →
          upsert commit f k t = (if commit then (setVal (lkey k) (f (some v)) t).map fun t' => (true, t')
            else some (true, t)) →
          ∃ old t', get k t = some old ∧ upsert commit f k t = some (old.isSome, t') ∧ WF t' ∧
            ∀ k2, get k2 t' = if k2 = k ∧ commit = true then some (some (f old)) else get k2 t := by
        intro v hv hkl hg hu
        cases commit with
        | false => exact ⟨some v, t, hg, by rw [hu]; rfl, h, by simp⟩
        | true =>
          obtain ⟨t', h1, h2, h3⟩ := setVal_spec (w := f (some v)) h hm hkl hv hg
          refine ⟨some v, t', hg, by rw [hu]; simp [h1], h2, ?_⟩
          intro k2; rw [h3]; simp
      obtain ⟨hmem, hkey, ⟨h1, h2, v, h3⟩ | ⟨h1, h2, v, h3⟩ | ⟨h1, h2, n, h3, h4⟩⟩ := slot_cases h hm
      · refine found v h3 (.inl h1) (by rw [hget, resolve_val h1 h3]) ?_
        rw [upsert]; simp only [hf]
        rw [if_pos (by omega)]
        simp only [h3]
      · by_cases c : s.suf = k.drop 8
        · refine found v h3 (.inr h1) (by rw [hget, resolve_suf h1 h3, if_pos c]) ?_
          rw [upsert]; simp only [hf]
          rw [if_neg (by omega), if_neg (by omega), if_pos c]
          simp only [h3]
        · -- a new layer separates the two keys
          have hg : get k t = some none := by rw [hget, resolve_suf h1 h3, if_neg c]
          obtain ⟨n, q1, q2, q3⟩ := mkTwig_spec commit v (f none)
            (if commit then some (.val (f none)) else none) (by rintro rfl; rfl) s.suf (k.drop 8) c
          obtain ⟨t', r1, r2, r3⟩ := setLayer_spec h hm h2 q2
            (fun s => { s with klx := 128, lv := some (.layer n) }) rfl
          refine ⟨none, t', hg, ?_, r2, ?_⟩
          · rw [upsert]; simp only [hf]
            rw [if_neg (by omega), if_neg (by omega), if_neg c, h3]
            simp only [q1, r1]; rfl
          · intro k2
            rw [r3]
            by_cases c2 : 8 < k2.length ∧ k2.take 8 = k.take 8
            · rw [if_pos c2, q3]
              have hk2 : (lkey k2).key = (lkey k).key := by
                simp only [lkey, LKey.key, Prod.mk.injEq]
                refine ⟨?_, by omega⟩
                rw [← Key.slice_take8 k2, ← Key.slice_take8 k, c2.2]
              rw [get_same h.inv hm hk2]
              simp only [List.head?_cons]
              rw [resolve_suf h1 h3]
              simp only [eq_of_take_drop c2.2]
              by_cases c3 : k2.drop 8 = s.suf
              · rw [if_pos c3, if_neg (by rw [c3]; exact fun h => c h.1), if_pos c3.symm]
              · rw [if_neg c3, if_neg (c := s.suf = k2.drop 8) (fun h => c3 h.symm)]
            · rw [if_neg c2, if_neg]
              rintro ⟨rfl, _⟩
              exact c2 ⟨h2, rfl⟩
      · -- descend into the layer
        obtain ⟨old, n', q1, q2, q3, q4⟩ := ih (k.drop 8).length (by simp; omega) (k.drop 8) n h4 rfl
        obtain ⟨t', r1, r2, r3⟩ := setLayer_spec h hm h2 q3
          (fun s => { s with lv := some (.layer n') }) (by rw [← h1])
        refine ⟨old, t', ?_, ?_, r2, ?_⟩
        · rw [hget, resolve_layer h1 h2 h3, q1]
        · rw [upsert]; simp only [hf]
          rw [if_neg (by omega), if_pos h1, dif_pos h2]
          simp only [h3, q2, r1]; rfl
        · intro k2
          rw [r3]
          by_cases c2 : 8 < k2.length ∧ k2.take 8 = k.take 8
          · rw [if_pos c2, q4]
            have hk2 : (lkey k2).key = (lkey k).key := by
              simp only [lkey, LKey.key, Prod.mk.injEq]
              refine ⟨?_, by omega⟩
              rw [← Key.slice_take8 k2, ← Key.slice_take8 k, c2.2]
            rw [get_same h.inv hm hk2]
            simp only [List.head?_cons]
            rw [resolve_layer h1 c2.1 h3]
            simp only [eq_of_take_drop c2.2]
          · rw [if_neg c2, if_neg]
            rintro ⟨rfl, _⟩
            exact c2 ⟨h2, rfl⟩

/-- Removal reports whether the key was present; afterwards it is absent and every other
lookup is unchanged. -/
theorem remove_spec (k : Bytes) (t : T V) (h : WF t) :
    ∃ old t' gc, get k t = some old ∧ remove k t = some (old.isSome, t', gc) ∧ WF t' ∧
      ∀ k2, get k2 t' = if k2 = k then some none else get k2 t := by
  induction hl : k.length using Nat.strongRecOn generalizing k t with
  | _ len ih =>
    have absent : get k t = some none → remove k t = some (false, t, none) →
        ∃ old t' gc, get k t = some old ∧ remove k t = some (old.isSome, t', gc) ∧ WF t' ∧
        ∀ k2, get k2 t' = if k2 = k then some none else get k2 t := by
      intro hg hr
      refine ⟨none, t, none, hg, hr, h, ?_⟩
      intro k2; split
      · next c => rw [c, hg]
      · rfl
    rcases matching_le_one (x := lkey k) h.inv.sorted_range.1 with hm | ⟨s, hm⟩
    · have hf : find (lkey k) t = some none := by rw [find_spec _ h.inv, hm]; rfl
      refine absent (by rw [get_same h.inv hm rfl]; rfl) ?_
      rw [remove]; simp only [hf]
    · have hf : find (lkey k) t = some (some s) := by rw [find_spec _ h.inv, hm]; rfl
      have hget : get k t = resolve (get (k.drop 8)) k (some s) := by rw [get_same h.inv hm rfl]; rfl
      have found : ∀ v, s.lv = some (.val v) → s.klx ≤ 8 ∨ s.klx = 64 → get k t = some (some v) →
          remove k t = ((Tree.remove (lkey k) t).map fun r => (true, r.1, if r.2 then some [] else none)) →
          ∃ old t' gc, get k t = some old ∧ remove k t = some (old.isSome, t', gc) ∧ WF t' ∧
            ∀ k2, get k2 t' = if k2 = k then some none else get k2 t := by
        intro v hv hkl hg hu
        obtain ⟨t', gc, r1, r2, r3⟩ := Tree.remove_spec (lkey k) h.inv (lkey_top k) hm
        refine ⟨some v, t', if gc then some [] else none, hg, by rw [hu, r1]; rfl,
          h.edit r2 r3 (by simp) (by simp), ?_⟩
        intro k2
        rw [get_edit h.inv r2 r3 (by simp)]
        by_cases c : (lkey k2).key = (lkey k).key
        · rw [if_pos c, get_same h.inv hm c]
          simp only [List.head?_nil, resolve.eq_1, List.head?_cons]
          obtain ⟨hmem, hkey, _⟩ := slot_cases h hm
          simp only [Slot.key, lkey, LKey.key, Prod.mk.injEq] at hkey
          rcases lkey_key_eq c with ⟨h4, rfl⟩ | ⟨h4, h5, h6⟩
          · rw [if_pos rfl]
          · have h64 : s.klx = 64 := by omega
            rw [resolve_suf h64 hv]
            rw [hget, resolve_suf h64 hv] at hg
            have hsuf : s.suf = k.drop 8 := by
              by_cases c : s.suf = k.drop 8
              · exact c
              · rw [if_neg c] at hg; simp at hg
            simp only [eq_of_take_drop h6]
            rw [hsuf]
            by_cases c : k.drop 8 = k2.drop 8
            · rw [if_pos c.symm]
            · rw [if_neg c, if_neg (fun h => c h.symm)]
        · rw [if_neg c, if_neg (key_ne c)]
      obtain ⟨hmem, hkey, ⟨h1, h2, v, h3⟩ | ⟨h1, h2, v, h3⟩ | ⟨h1, h2, n, h3, h4⟩⟩ := slot_cases h hm
      · refine found v h3 (.inl h1) (by rw [hget, resolve_val h1 h3]) ?_
        rw [remove]; simp only [hf]
        rw [if_pos (by omega)]
      · by_cases c : s.suf = k.drop 8
        · refine found v h3 (.inr h1) (by rw [hget, resolve_suf h1 h3, if_pos c]) ?_
          rw [remove]; simp only [hf]
          rw [if_neg (by omega), if_neg (by omega), if_pos c]
        · refine absent (by rw [hget, resolve_suf h1 h3, if_neg c]) ?_
          rw [remove]; simp only [hf]
          rw [if_neg (by omega), if_neg (by omega), if_neg c]
      · obtain ⟨old, n', gc, q1, q2, q3, q4⟩ := ih (k.drop 8).length (by simp; omega) (k.drop 8) n h4 rfl
        obtain ⟨t', r1, r2, r3⟩ := setLayer_spec h hm h2 q3
          (fun s => { s with lv := some (.layer n') }) (by rw [← h1])
        refine ⟨old, t', gc.map (k.take 8 ++ ·), ?_, ?_, r2, ?_⟩
        · rw [hget, resolve_layer h1 h2 h3, q1]
        · rw [remove]; simp only [hf]
          rw [if_neg (by omega), if_pos h1, dif_pos h2]
          simp only [h3, q2, r1]; rfl
        · intro k2
          rw [r3]
          by_cases c2 : 8 < k2.length ∧ k2.take 8 = k.take 8
          · rw [if_pos c2, q4]
            have hk2 : (lkey k2).key = (lkey k).key := by
              simp only [lkey, LKey.key, Prod.mk.injEq]
              refine ⟨?_, by omega⟩
              rw [← Key.slice_take8 k2, ← Key.slice_take8 k, c2.2]
            rw [get_same h.inv hm hk2]
            simp only [List.head?_cons]
            rw [resolve_layer h1 c2.1 h3]
            simp only [eq_of_take_drop c2.2]
          · rw [if_neg c2, if_neg]
            rintro rfl
            exact c2 ⟨h2, rfl⟩

end Verif.Trie
