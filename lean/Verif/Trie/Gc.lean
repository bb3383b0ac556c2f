import Verif.Trie.Deep

/-!
`gc_layer` does not change any lookup.
-/
namespace Verif.Trie
open Verif.Permuter (Word size used)
open Verif.Key (Bytes slice compareKeys)
open Verif.Tree
variable {V : Type} {α : Type}

/-- The cursor key under which a layer slot is stored. -/
def layerKey (x : LKey) : LKey := ⟨x.ikey, 9⟩

/-- In a leaf, `gc_layer` finds the layer of its slice if there is one, and nothing otherwise. -/
theorem gcSlot_spec {lo hi : Option Nat} {perm : Word} {slots : List (Slot α)} (x : LKey) (hx : x.len = 8)
    (h : LeafInv lo hi perm slots) :
    (∃ A s B, AllBelow (layerKey x) A ∧ AllAbove (layerKey x) B ∧ s.key = (layerKey x).key ∧ s.klx > 127 ∧
      leafEntries perm slots = A ++ s :: B ∧ gcSlot x perm slots = some A.length) ∨
    (gcSlot x perm slots = none ∧ ∀ s ∈ leafEntries perm slots, s.key = (layerKey x).key → ¬ s.klx > 127) := by
  obtain ⟨A, B, hi1, hA, hB, hcase⟩ := leafLower_spec x h.sorted
  -- the slots at or below (slice, 8) and those above
  obtain ⟨A', hi2, hA', he⟩ : ∃ A', (leafLower x perm slots).1 +
      (if (leafLower x perm slots).2.isSome then 1 else 0) = A'.length ∧
      AllBelow (layerKey x) A' ∧ leafEntries perm slots = A' ++ B := by
    have hAA : AllBelow (layerKey x) A := by
      intro s hs
      have := hA s hs
      simp only [KLt, Slot.key, LKey.key, layerKey, hx] at this ⊢; omega
    rcases hcase with ⟨h1, h2⟩ | ⟨h1, h2, h3, h4⟩
    · exact ⟨A, by rw [h1, hi1]; simp, hAA, h2⟩
    · refine ⟨A ++ [slotAt slots (Permuter.get perm A.length)], by rw [h1, hi1]; simp, ?_, by rw [h4]; simp⟩
      intro s hs
      rcases List.mem_append.mp hs with hs | hs
      · exact hAA s hs
      · simp only [List.mem_singleton] at hs
        subst hs
        rw [h2]; simp [KLt, LKey.key, layerKey, hx]
  have hlen := leafEntries_length perm slots
  have hsort := h.sorted
  rw [he] at hlen hsort
  unfold gcSlot
  dsimp only
  rw [hi2]
  cases B with
  | nil =>
    right
    rw [if_pos (by simp at hlen; omega)]
    refine ⟨rfl, ?_⟩
    intro s hs hk
    rw [he, List.append_nil] at hs
    exact absurd (hk ▸ hA' s hs) (KLt.irrefl _)
  | cons b B =>
    rw [if_neg (by simp at hlen; omega)]
    have hb : slotAt slots (Permuter.get perm A'.length) = b := by
      rw [← leafEntries_get perm slots A'.length (by rw [he]; simp)]
      simp [he]
    rw [hb]
    have hbx := hB b (by simp)
    have hBb : ∀ s ∈ B, KLt b.key s.key :=
      (List.pairwise_cons.mp (List.pairwise_append.mp hsort).2.1).1
    by_cases c : b.ikey ≠ x.ikey ∨ ¬ b.klx > 127
    · right
      rw [if_pos c]
      refine ⟨rfl, ?_⟩
      intro s hs hk hgt
      rw [he] at hs
      rcases List.mem_append.mp hs with hs | hs
      · exact absurd (hk ▸ hA' s hs) (KLt.irrefl _)
      · rcases List.mem_cons.mp hs with rfl | hs
        · simp only [Slot.key, layerKey, LKey.key, Prod.mk.injEq] at hk
          rcases c with c | c
          · exact c hk.1
          · exact c hgt
        · have := hBb s hs
          rw [hk] at this
          simp only [KLt, Slot.key, LKey.key, layerKey, hx] at this hbx
          omega
    · left
      rw [if_neg c]
      have hkey : b.key = (layerKey x).key := by
        simp only [Slot.key, layerKey, LKey.key, Prod.mk.injEq]; omega
      refine ⟨A', b, B, hA', ?_, hkey, by omega, he, rfl⟩
      intro s hs
      rw [← hkey]; exact hBb s hs

theorem gcReplace_spec {lo hi : Option Nat} {perm : Word} {slots : List (Slot α)} (x : LKey) (hx : x.len = 8)
    (h : LeafInv lo hi perm slots) (lm rm : Bool) (lv : α) (s : Slot α) (hs : s.klx > 127)
    (hm : matching (layerKey x) (leafEntries perm slots) = [s]) :
    Ins.Ok lo hi 0 (replaceKey (layerKey x) [{ s with lv := some lv }] (leafEntries perm slots))
      (gcReplace x lv lm rm perm slots) := by
  unfold gcReplace
  rcases gcSlot_spec x hx h with ⟨A, s', B, hA, hB, h1, h2, h3, h4⟩ | ⟨h1, h2⟩
  · have hss : s' = s := by rw [h3, matching_hit hA hB h1] at hm; simpa using hm
    subst hss
    rw [h4]
    have hb : slotAt slots (Permuter.get perm A.length) = s' := by
      rw [← leafEntries_get perm slots A.length (by rw [h3]; simp)]
      simp [h3]
    dsimp only
    rw [hb]
    exact leafSetAt_spec (layerKey x) h hA hB h1 h3 rfl
  · have := mem_matching (l := leafEntries perm slots) (x := layerKey x) (s := s) (by rw [hm]; rfl)
    exact absurd hs (h2 s this.1 this.2)

theorem gcRemove_spec {lo hi : Option Nat} {perm : Word} {slots : List (Slot α)} (x : LKey) (hx : x.len = 8)
    (h : LeafInv lo hi perm slots) (lm rm : Bool) (hlm : lm = true ↔ lo = none) (isRoot : Bool)
    (hroot : isRoot = true → lo = none) (s : Slot α) (hs : s.klx > 127)
    (hm : matching (layerKey x) (leafEntries perm slots) = [s]) :
    Rem.Ok lo hi 0 isRoot (replaceKey (layerKey x) [] (leafEntries perm slots))
      (gcRemove x lm rm perm slots) := by
  unfold gcRemove
  rcases gcSlot_spec x hx h with ⟨A, s', B, hA, hB, h1, h2, h3, h4⟩ | ⟨h1, h2⟩
  · rw [h4]
    exact leafRemoveAt_spec (layerKey x) lm rm h hlm isRoot hroot hA hB h1 h3
  · have := mem_matching (l := leafEntries perm slots) (x := layerKey x) (s := s) (by rw [hm]; rfl)
    exact absurd hs (h2 s this.1 this.2)

/-- Dropping internodes without keys keeps the contents. -/
theorem collapse_spec (n : Node α) (h : Tree.Inv none top n) :
    Tree.Inv none top (collapse n) ∧ entries (collapse n) = entries n := by
  fun_induction collapse n with
  | case1 ht c ih =>
    simp only [Tree.Inv, Chain] at h
    obtain ⟨h1, h2⟩ := ih h.2.1
    refine ⟨h1, ?_⟩
    rw [h2]; simp [entries, entriesL]
  | case2 n _ => exact ⟨h, rfl⟩

theorem WF.of_entries {t t' : T V} (h : WF t) (hi : Tree.Inv none top t') (he : entries t' = entries t) :
    WF t' := ⟨_, hi, fun s hs => h.ok s (he ▸ hs), fun s hs => h.sub s (he ▸ hs)⟩

theorem get_of_entries {t t' : T V} (h : WF t) (hi : Tree.Inv none top t') (he : entries t' = entries t)
    (k : Bytes) : get k t' = get k t := by
  rw [get_eq hi, get_eq h.inv, he]

/-- The key of a layer slot as seen by any cursor that goes through it. -/
theorem lkey_layer {k2 : Bytes} {x : LKey} :
    (lkey k2).key = (layerKey x).key ↔ slice k2 = x.ikey ∧ 8 < k2.length := by
  simp only [lkey, layerKey, LKey.key, Prod.mk.injEq]; omega

theorem replaceKey_self {x : LKey} {l : List (Slot α)} (h : SSorted l) {s : Slot α}
    (hm : matching x l = [s]) : replaceKey x [s] l = l := by
  obtain ⟨h1, h2⟩ := mem_matching (l := l) (x := x) (s := s) (by rw [hm]; rfl)
  obtain ⟨A, B, rfl⟩ := List.append_of_mem h1
  have hp := List.pairwise_append.mp h
  have hA : AllBelow x A := fun a ha => h2 ▸ hp.2.2 a ha s (by simp)
  have hB : AllAbove x B := fun b hb => h2 ▸ (List.pairwise_cons.mp hp.2.1).1 b hb
  rw [replaceKey_hit hA hB h2]; simp

/-- Changing the slot under `x`, when the lookups that go through it agree before and after. -/
theorem edit_gets {t t' : T V} (h : WF t) (h2 : Tree.Inv none top t') {x : LKey} {ls : List (Slot (LV V))}
    (he : entries t' = replaceKey x ls (entries t)) (hk : ∀ s ∈ ls, s.key = x.key) (k2 : Bytes) :
    get k2 t' = if (lkey k2).key = x.key then resolve (get (k2.drop 8)) k2 ls.head? else get k2 t := by
  rw [get_eq h2, he]
  split
  · next c =>
    have : matching (lkey k2) (replaceKey x ls (entries t)) = matching x (replaceKey x ls (entries t)) := by
      unfold matching; rw [c]
    rw [this, matching_replace_eq hk rfl]
  · next c =>
    rw [matching_replace_ne hk c, ← get_eq h.inv]

/-- `gc_layer`, run at any moment with any prefix for which a callback can exist (a positive
number of whole slices), changes no lookup. -/
theorem gcLayer_spec (k : Bytes) (t : T V) (h : WF t) (hk : k.length % 8 = 0) (hk0 : k ≠ []) :
    ∃ t', gcLayer k t = some t' ∧ WF t' ∧ (∀ k2, get k2 t' = get k2 t) ∧
      ∀ r ne, Deep r ne t → Deep r ne t' := by
  induction hl : k.length using Nat.strongRecOn generalizing k t with
  | _ len ih =>
    by_cases hlen : 8 < k.length
    · rcases matching_le_one (x := lkey k) h.inv.sorted_range.1 with hm | ⟨s, hm⟩
      · have hf : find (lkey k) t = some none := by rw [find_spec _ h.inv, hm]; rfl
        refine ⟨t, ?_, h, fun _ => rfl, fun _ _ hd => hd⟩
        rw [gcLayer]; simp only [dif_pos hlen, hf]
      · have hf : find (lkey k) t = some (some s) := by rw [find_spec _ h.inv, hm]; rfl
        obtain ⟨hmem, hkey, ⟨h1, h2, v, h3⟩ | ⟨h1, h2, v, h3⟩ | ⟨h1, h2, n, h3, h4⟩⟩ := slot_cases h hm
        · omega
        · refine ⟨t, ?_, h, fun _ => rfl, fun _ _ hd => hd⟩
          rw [gcLayer]; simp only [dif_pos hlen, hf]; rw [if_neg (by omega)]
        · obtain ⟨n', q2, q3, q4, q5⟩ := ih (k.drop 8).length (by simp; omega) (k.drop 8) n h4
            (by simp; omega) (by
              intro h0; have := congrArg List.length h0; simp at this; omega) rfl
          obtain ⟨t', r1, r2, r3⟩ := setLayer_spec h hm h2 q3
            (fun s => { s with lv := some (.layer n') }) (by rw [← h1])
          refine ⟨t', ?_, r2, ?_, ?_⟩
          · rw [gcLayer]; simp only [dif_pos hlen, hf]
            rw [if_pos h1]
            simp only [h3, q2, r1]
          · intro k2
            rw [r3]
            split
            · next c2 =>
              rw [q4]
              have hk2 : (lkey k2).key = (lkey k).key := by
                simp only [lkey, LKey.key, Prod.mk.injEq]
                refine ⟨?_, by omega⟩
                rw [← Key.slice_take8 k2, ← Key.slice_take8 k, c2.2]
              rw [get_same h.inv hm hk2]
              simp only [List.head?_cons]
              rw [resolve_layer h1 c2.1 h3]
            · rfl
          · intro r ne hd
            obtain ⟨d1, d2⟩ := hd.sub s hmem n h3
            exact setLayer_deep h hd hm h2 d1 (q5 _ _ d2) _ (by rw [← h1]) r1
    · have hl8 : k.length = 8 := by
        have : 0 < k.length := List.length_pos_iff.mpr hk0
        omega
      have hx : (lkey k).len = 8 := hl8
      obtain ⟨lo', hi', perm, slots, A, B, h1, h2, h3, h4, h5, h6⟩ :=
        reach_spec (lkey k) t none top h.inv (lkey_top k)
      rcases gcSlot_spec (lkey k) hx h2 with ⟨A', s, B', hA, hB, g1, g2, g3, g4⟩ | ⟨g1, _⟩
      · -- there is such a layer
        have hmem : s ∈ entries t := by rw [h4, g3]; simp
        obtain ⟨hklx, n, hn, hwf⟩ : s.klx = 128 ∧ ∃ n, s.lv = some (.layer n) ∧ WF n := by
          rcases h.ok s hmem with ⟨a, _⟩ | ⟨a, _⟩ | ⟨a, _, n, c⟩
          · omega
          · omega
          · exact ⟨a, n, c, h.sub s hmem n c⟩
        have hm : matching (layerKey (lkey k)) (entries t) = [s] := by
          rcases matching_le_one (x := layerKey (lkey k)) h.inv.sorted_range.1 with hm | ⟨s', hm⟩
          · have : s ∈ matching (layerKey (lkey k)) (entries t) := by
              unfold matching; rw [List.mem_filter]; exact ⟨hmem, by simpa using g1⟩
            rw [hm] at this; simp at this
          · have : s ∈ matching (layerKey (lkey k)) (entries t) := by
              unfold matching; rw [List.mem_filter]; exact ⟨hmem, by simpa using g1⟩
            rw [hm] at this ⊢; simp at this; rw [this]
        have hb : slotAt slots (Permuter.get perm A'.length) = s := by
          rw [← leafEntries_get perm slots A'.length (by rw [g3]; simp)]
          simp [g3]
        obtain ⟨c1, c2⟩ := collapse_spec n hwf.inv
        have cwf : WF (collapse n) := hwf.of_entries c1 c2
        have cget : ∀ j, get j (collapse n) = get j n := get_of_entries hwf c1 c2
        -- what a lookup through the slot sees
        have thru : ∀ k2, (lkey k2).key = (layerKey (lkey k)).key →
            get k2 t = get (k2.drop 8) n := by
          intro k2 hk2
          have : matching (lkey k2) (entries t) = [s] := by
            rw [← hm]; unfold matching; rw [hk2]
          rw [get_same h.inv this rfl]
          exact resolve_layer hklx (lkey_layer.mp hk2).2 hn
        -- replacing the layer by its collapsed root
        have keep : ∃ t', (upd (gcReplace (lkey k) (LV.layer (collapse n))) (lkey k).ikey true true t).root
            = some t' ∧ WF t' ∧ (∀ k2, get k2 t' = get k2 t) ∧ ∀ r ne, Deep r ne t → Deep r ne t' := by
          have hok := upd_spec (layerKey (lkey k)) [s] [{ s with lv := some (.layer (collapse n)) }]
            (gcReplace (lkey k) (LV.layer (collapse n)))
            (fun lo hi lm rm perm slots e1 _ _ e4 =>
              gcReplace_spec (lkey k) hx e1 lm rm _ s g2 e4)
            t none top true true h.inv (by simp) (lkey_top k) hm
          have fin : ∀ t', Tree.Inv none top t' →
              entries t' = replaceKey (layerKey (lkey k)) [{ s with lv := some (.layer (collapse n)) }] (entries t) →
              WF t' ∧ (∀ k2, get k2 t' = get k2 t) ∧ ∀ r ne, Deep r ne t → Deep r ne t' := by
            intro t' i1 i2
            refine ⟨h.edit i1 i2 ?_ ?_, ?_, ?_⟩
            · simp only [List.mem_singleton]
              rintro _ rfl
              rcases h.ok s hmem with ⟨a, _⟩ | ⟨a, _⟩ | ⟨a, b, _⟩
              · omega
              · omega
              · exact .inr (.inr ⟨a, b, _, rfl⟩)
            · simp only [List.mem_singleton]
              rintro _ rfl n2 hn2
              simp only [Option.some.injEq, LV.layer.injEq] at hn2
              exact hn2 ▸ cwf
            · intro k2
              rw [edit_gets h i1 i2 (by simp only [List.mem_singleton]; rintro _ rfl; exact g1)]
              split
              · next c =>
                rw [thru k2 c]
                simp only [List.head?_cons]
                rw [resolve_layer (n := collapse n) (by exact hklx) (lkey_layer.mp c).2 rfl, cget]
              · rfl
            · intro r ne hd
              refine hd.edit i2 ?_
              simp only [List.mem_singleton]
              rintro _ rfl
              have sd := hd.slot hmem
              refine ⟨sd.len, sd.nonempty, sd.suf, ?_⟩
              intro n2 hn2
              simp only [Option.some.injEq, LV.layer.injEq] at hn2
              obtain ⟨d1, d2⟩ := sd.sub n hn
              exact hn2 ▸ ⟨d1, d2.of_entries c2⟩
          have hik : (layerKey (lkey k)).ikey = (lkey k).ikey := rfl
          rw [hik] at hok
          match upd (gcReplace (lkey k) (LV.layer (collapse n))) (lkey k).ikey true true t, hok with
          | .done n2, hok => exact ⟨n2, rfl, fin n2 hok.1 hok.2.2⟩
          | .split h' st l kk r, hok =>
            obtain ⟨h0, h1, h2, h3, h4, h5, h6, h7⟩ := hok
            refine ⟨_, rfl, fin _ ?_ ?_⟩
            · simp only [Tree.Inv, Chain, List.length_singleton]
              exact ⟨by omega, .inr ⟨h1, by omega, h5⟩, h6, h2, by omega⟩
            · simp only [entries, entriesL, List.append_nil]; exact h7
        rw [gcLayer]
        simp only [dif_neg hlen, h1, g4, hb, hn]
        match hcol : collapse n with
        | .null => rw [hcol] at c1; simp [Tree.Inv] at c1
        | .inode _ _ _ => rw [hcol] at keep; exact keep
        | .leaf lp ls =>
          dsimp only
          by_cases hsz : size lp > 0
          · rw [if_pos hsz]; rw [hcol] at keep; exact keep
          · rw [if_neg hsz]
            -- the layer is empty and its slot goes away
            have hok := rem_spec (layerKey (lkey k)) [s] (gcRemove (lkey k))
              (fun lo hi lm rm isRoot perm slots e1 e2 _ e4 e5 =>
                gcRemove_spec (lkey k) hx e1 lm rm e2 isRoot e4 s g2 e5)
              t none top true true true h.inv (by simp) (lkey_top k) (by simp) hm
            have hik : (layerKey (lkey k)).ikey = (lkey k).ikey := rfl
            rw [hik] at hok
            have hnil : entries (collapse n) = [] := by
              rw [hcol]; simp only [entries]
              apply List.length_eq_zero_iff.mp
              rw [leafEntries_length]; omega
            have hnone : ∀ j, get j n = some none := by
              intro j
              rw [← cget, get_eq c1, hnil]; rfl
            match rem (gcRemove (lkey k)) (lkey k).ikey true true true t, hok with
            | .stop n2 none gc, hok =>
              refine ⟨n2, rfl, h.edit hok.1 hok.2.2 (by simp) (by simp), ?_,
                fun r ne hd => hd.edit hok.2.2 (by simp)⟩
              intro k2
              rw [edit_gets h hok.1 hok.2.2 (by simp)]
              split
              · next c => rw [thru k2 c, hnone]; rfl
              · rfl
            | .stop n2 (some (ik, nk)) gc, hok => exact absurd rfl hok.2.2.2.2.1
            | .up _ _, hok => simp [Rem.Ok] at hok
      · refine ⟨t, ?_, h, fun _ => rfl, fun _ _ hd => hd⟩
        rw [gcLayer]; simp only [dif_neg hlen, h1, g1]

/-- Removal asks for `gc_layer` only on prefixes of whole slices of the removed key. -/
theorem remove_gc (k : Bytes) (t : T V) {b : Bool} {t' : T V} {p : Bytes}
    (h : remove k t = some (b, t', some p)) : p.length % 8 = 0 ∧ p <+: k := by
  induction hl : k.length using Nat.strongRecOn generalizing k t b t' p with
  | _ len ih =>
    have fin : ∀ {r : Option (T V × Bool)}, (r.map fun r => (true, r.1, if r.2 then some [] else none))
        = some (b, t', some p) → p.length % 8 = 0 ∧ p <+: k := by
      rintro (_ | ⟨t1, _ | _⟩) h <;> simp at h
      obtain ⟨_, _, rfl⟩ := h
      exact ⟨rfl, List.nil_prefix⟩
    rw [remove] at h
    split at h
    · simp at h
    · simp at h
    · next s _ =>
      split at h
      · exact fin h
      · split at h
        · split at h
          · next hlen =>
            split at h
            · next n _ =>
              split at h
              · simp at h
              · next r b' n' gc hr =>
                cases hmod : modify (lkey k) (fun s => { s with lv := some (.layer n') }) t with
                | none => rw [hmod] at h; simp at h
                | some t2 =>
                  rw [hmod] at h
                  cases gc with
                  | none => simp at h
                  | some p' =>
                    simp only [Option.map_some, Option.some.injEq, Prod.mk.injEq] at h
                    obtain ⟨rfl, rfl, rfl⟩ := h
                    obtain ⟨h1, h2⟩ := ih (k.drop 8).length (by simp; omega) (k.drop 8) n hr rfl
                    refine ⟨by simp; omega, ?_⟩
                    obtain ⟨r, hr⟩ := h2
                    refine ⟨r, ?_⟩
                    rw [List.append_assoc, hr, List.take_append_drop]
            · simp at h
          · simp at h
        · split at h
          · exact fin h
          · simp at h

end Verif.Trie
