import Verif.Tree.Full
import Verif.Trie.History

/-!
In every layer, every leaf but the leftmost holds a key, as long as cursors finish what they began: preserved by
committed insertions and updates, by removals and by `gc_layer`.
-/
namespace Verif.Trie
open Verif.Permuter (Word size used)
open Verif.Key (Bytes slice compareKeys)
open Verif.Tree
variable {V : Type}

/-- No empty leaf in any layer, except perhaps the leftmost one of the layer. -/
inductive Packed : T V → Prop
  | mk (t : T V) (full : Full true t) (sub : ∀ s ∈ entries t, ∀ n, s.lv = some (.layer n) → Packed n) : Packed t

theorem Packed.full {t : T V} (h : Packed t) : Full true t := by cases h; assumption
theorem Packed.sub {t : T V} (h : Packed t) : ∀ s ∈ entries t, ∀ n, s.lv = some (.layer n) → Packed n := by
  cases h; assumption

theorem Packed.edit {t t' : T V} (h : Packed t) (hf : Full true t') {x : LKey} {ls : List (Slot (LV V))}
    (he : entries t' = replaceKey x ls (entries t)) (hls : ∀ s ∈ ls, ∀ n, s.lv = some (.layer n) → Packed n) : Packed t' := by
  refine ⟨_, hf, ?_⟩
  intro s hs
  rw [he] at hs
  rcases mem_replace hs with hs | hs
  · exact hls s hs
  · exact h.sub s hs

theorem modify_full {x : LKey} {g : Slot (LV V) → Slot (LV V)} {t t' : T V} (h : Tree.Inv none top t)
    (hx : inR none top x.ikey) {s : Slot (LV V)} (hm : matching x (entries t) = [s]) (hg : (g s).key = s.key)
    (hf : Full true t) (ht : modify x g t = some t') : Full true t' := by
  have := upd_full x [s] [g s] (leafModify x g)
    (fun lo hi lm rm perm slots h1 _ _ h4 => leafModify_spec x g lm rm h1 s h4 hg)
    (fun lo hi lm rm perm slots _ h2 => leafModify_full x g lm rm h2)
    t none top true true h (by simp) hx hm hf
  exact root_full this ht

theorem insert_full {x : LKey} {new : Slot (LV V)} {t t' : T V} (h : Tree.Inv none top t)
    (hx : inR none top x.ikey) (hk : new.key = x.key) (hm : matching x (entries t) = [])
    (hf : Full true t) (ht : insert x true new t = some t') : Full true t' := by
  have := upd_full x [] [new] (leafInsert x true new)
    (fun lo hi lm rm perm slots h1 h2 h3 h4 => leafInsert_spec x true new lm rm h1 h2 h3 hk h4)
    (fun lo hi lm rm perm slots h1 _ => leafInsert_full x new lm rm h1)
    t none top true true h (by simp) hx hm hf
  exact root_full this ht

theorem remove_full {x : LKey} {t t' : T V} {gc : Bool} (h : Tree.Inv none top t)
    (hx : inR none top x.ikey) {s : Slot (LV V)} (hm : matching x (entries t) = [s])
    (hf : Full true t) (ht : Tree.remove x t = some (t', gc)) : Full true t' := by
  have := rem_full x [s] (leafRemove x)
    (fun lo hi lm rm isRoot perm slots h1 h2 _ h4 h5 => leafRemove_spec x lm rm h1 h2 isRoot h4 s h5)
    (fun lm rm perm slots => leafRemove_full x lm rm perm slots)
    t none top true true true h (by simp) hx (by simp) hm hf
  exact rem_root_full this ht

theorem mkTwig_packed (commit : Bool) {v w : V} {nlv : Option (LV V)} (hn : commit = true → nlv = some (.val w))
    (oka ka : Bytes) : ∀ (n : T V), mkTwig commit oka ka (some (.val v)) nlv = some n → Packed n := by
  have leafp : ∀ (perm : Word) (slots : List (Slot (LV V))),
      (∀ s ∈ leafEntries perm slots, ∀ n, s.lv = some (.layer n) → Packed n) → Packed (Node.leaf perm slots) :=
    fun perm slots h => ⟨_, .inl rfl, h⟩
  fun_induction mkTwig commit oka ka (some (.val v)) nlv with
  | case1 => intro n h; simp at h
  | case2 oka ka c h0 hlen n' hr ih =>
    intro n h
    simp only [Option.some.injEq] at h
    subst h
    apply leafp
    intro s hs
    simp only [leafEntries, used_sorted1, List.map_cons, List.map_nil, List.mem_singleton] at hs
    subst hs
    intro n2 hn2
    have e : n' = n2 := by
      have : some (LV.layer n') = some (.layer n2) := hn2
      simpa using this
    exact e ▸ ih n' hr
  | case3 => intro n h; simp at h
  | case4 oka ka c h0 =>
    intro n h
    simp only [Option.some.injEq] at h
    subst h
    apply leafp
    intro s hs n2 hn2
    cases commit with
    | false =>
      have hu : used (finishPerm false (Permuter.makeSorted 1) 1) = [0] := by decide
      simp only [leafEntries, hu, List.map_cons, List.map_nil, List.mem_singleton] at hs
      subst hs
      exact absurd hn2 (by simp [slotAt, freshSlots, mkSlot])
    | true =>
      have hu : used (finishPerm true (Permuter.makeSorted 1) 1) = [0, 1] := by decide
      simp only [leafEntries, hu, List.map_cons, List.map_nil, List.mem_cons, List.not_mem_nil, or_false] at hs
      rw [hn rfl] at hs
      rcases hs with rfl | rfl
      · exact absurd hn2 (by simp [slotAt, freshSlots, mkSlot])
      · exact absurd hn2 (by simp [slotAt, freshSlots, mkSlot])
  | case5 oka ka c h0 =>
    intro n h
    simp only [Option.some.injEq] at h
    subst h
    apply leafp
    intro s hs n2 hn2
    cases commit with
    | false =>
      have hu : used (finishPerm false (Permuter.removeToBack (Permuter.makeSorted 2) 0) 0) = [1] := by decide
      simp only [leafEntries, hu, List.map_cons, List.map_nil, List.mem_singleton] at hs
      subst hs
      exact absurd hn2 (by simp [slotAt, freshSlots, mkSlot])
    | true =>
      have hu : used (finishPerm true (Permuter.removeToBack (Permuter.makeSorted 2) 0) 0) = [0, 1] := by decide
      simp only [leafEntries, hu, List.map_cons, List.map_nil, List.mem_cons, List.not_mem_nil, or_false] at hs
      rw [hn rfl] at hs
      rcases hs with rfl | rfl
      · exact absurd hn2 (by simp [slotAt, freshSlots, mkSlot])
      · exact absurd hn2 (by simp [slotAt, freshSlots, mkSlot])

theorem setLayer_packed {t t' : T V} (h : WF t) (hd : Packed t) {k : Bytes}
    {s : Slot (LV V)} {n' : T V} (hm : matching (lkey k) (entries t) = [s]) (hk : 8 < k.length)
    (hn : Packed n') (g : Slot (LV V) → Slot (LV V))
    (hg : g s = { s with klx := 128, lv := some (.layer n') }) (ht : modify (lkey k) g t = some t') : Packed t' := by
  obtain ⟨hmem, hkey, hc⟩ := slot_cases h hm
  have hkey' := hkey
  simp only [Slot.key, lkey, LKey.key, Prod.mk.injEq] at hkey'
  have hgk : (g s).key = s.key := by
    rw [hg]; simp only [Slot.key, Prod.mk.injEq, true_and]; omega
  obtain ⟨t2, h1, h2, h3⟩ := modify_spec (lkey k) g h.inv (lkey_top k) hm hgk
  have hfull := modify_full h.inv (lkey_top k) hm hgk hd.full ht
  rw [ht] at h1
  simp only [Option.some.injEq] at h1
  subst h1
  refine hd.edit hfull h3 ?_
  simp only [List.mem_singleton]
  rintro _ rfl n hn'
  rw [hg] at hn'
  simp only [Option.some.injEq, LV.layer.injEq] at hn'
  exact hn' ▸ hn

theorem setVal_packed {t t' : T V} (h : WF t) (hd : Packed t) {k : Bytes}
    {s : Slot (LV V)} {w : V} (hm : matching (lkey k) (entries t) = [s])
    (ht : setVal (lkey k) w t = some t') : Packed t' := by
  obtain ⟨t2, h1, h2, h3⟩ := modify_spec (lkey k) (fun s => { s with lv := some (.val w) }) h.inv (lkey_top k) hm rfl
  unfold setVal at ht
  have hfull := modify_full h.inv (lkey_top k) hm rfl hd.full ht
  rw [ht] at h1
  simp only [Option.some.injEq] at h1
  subst h1
  refine hd.edit hfull h3 ?_
  simp only [List.mem_singleton]
  rintro _ rfl n hn
  simp at hn

theorem upsert_packed (f : Option V → V) (k : Bytes) (t : T V) (h : WF t) (hd : Packed t) {b : Bool} {t' : T V}
    (hu : upsert true f k t = some (b, t')) : Packed t' := by
  induction hl : k.length using Nat.strongRecOn generalizing k t b t' with
  | _ len ih =>
    rw [upsert] at hu
    rcases matching_le_one (x := lkey k) h.inv.sorted_range.1 with hm | ⟨s, hm⟩
    · have hf : find (lkey k) t = some none := by rw [find_spec _ h.inv, hm]; rfl
      obtain ⟨t2, h1, h2, h3⟩ := insert_spec (lkey k) true
        (mkSlot k (some (.val (f none)))) h.inv (lkey_top k) (mkSlot_key _ _) hm
      have hfull := insert_full h.inv (lkey_top k) (mkSlot_key _ _) hm hd.full h1
      simp only [hf, if_true, h1, Option.map_some, Option.some.injEq, Prod.mk.injEq] at hu
      obtain ⟨_, rfl⟩ := hu
      refine hd.edit hfull h3 ?_
      simp only [if_true, List.mem_singleton]
      rintro _ rfl n hn
      simp [mkSlot] at hn
    · have hf : find (lkey k) t = some (some s) := by rw [find_spec _ h.inv, hm]; rfl
      have found : ∀ v, ((setVal (lkey k) (f (some v)) t).map fun t' => (true, t')) = some (b, t') → Packed t' := by
        intro v hu
        cases hv : setVal (lkey k) (f (some v)) t with
        | none => rw [hv] at hu; simp at hu
        | some t2 =>
          rw [hv] at hu
          simp only [Option.map_some, Option.some.injEq, Prod.mk.injEq] at hu
          rw [← hu.2]
          exact setVal_packed h hd hm hv
      simp only [hf, if_true] at hu
      obtain ⟨hmem, hkey, ⟨h1, h2, v, h3⟩ | ⟨h1, h2, v, h3⟩ | ⟨h1, h2, n, h3, h4⟩⟩ := slot_cases h hm
      · rw [if_pos (by omega)] at hu
        simp only [h3] at hu
        exact found v hu
      · rw [if_neg (by omega), if_neg (by omega)] at hu
        by_cases c : s.suf = k.drop 8
        · rw [if_pos c] at hu
          simp only [h3] at hu
          exact found v hu
        · rw [if_neg c, h3] at hu
          cases q1 : mkTwig true s.suf (k.drop 8) (some (.val v)) (some (.val (f none))) with
          | none => rw [q1] at hu; simp at hu
          | some n =>
            simp only [q1] at hu
            cases hmod : modify (lkey k) (fun s => { s with klx := 128, lv := some (.layer n) }) t with
            | none => rw [hmod] at hu; simp at hu
            | some t2 =>
              rw [hmod] at hu
              simp only [Option.map_some, Option.some.injEq, Prod.mk.injEq] at hu
              rw [← hu.2]
              refine setLayer_packed h hd hm h2 ?_ _ rfl hmod
              exact mkTwig_packed true (w := f none) (fun _ => rfl) _ _ _ q1
      · rw [if_neg (by omega), if_pos h1, dif_pos h2] at hu
        simp only [h3] at hu
        cases hup : upsert true f (k.drop 8) n with
        | none => rw [hup] at hu; simp at hu
        | some r2 =>
          obtain ⟨b2, n'⟩ := r2
          rw [hup] at hu
          simp only at hu
          cases hmod : modify (lkey k) (fun s => { s with lv := some (.layer n') }) t with
          | none => rw [hmod] at hu; simp at hu
          | some t2 =>
            rw [hmod] at hu
            simp only [Option.map_some, Option.some.injEq, Prod.mk.injEq] at hu
            rw [← hu.2]
            refine setLayer_packed h hd hm h2 ?_ _ (by rw [← h1]) hmod
            exact ih (k.drop 8).length (by simp; omega) (k.drop 8) n h4 (hd.sub s hmem n h3) hup rfl

theorem remove_packed (k : Bytes) (t : T V) (h : WF t) (hd : Packed t) {b : Bool}
    {t' : T V} {gc : Option Bytes} (hu : remove k t = some (b, t', gc)) : Packed t' := by
  induction hl : k.length using Nat.strongRecOn generalizing k t b t' gc with
  | _ len ih =>
    rw [remove] at hu
    rcases matching_le_one (x := lkey k) h.inv.sorted_range.1 with hm | ⟨s, hm⟩
    · have hf : find (lkey k) t = some none := by rw [find_spec _ h.inv, hm]; rfl
      simp only [hf, Option.some.injEq, Prod.mk.injEq] at hu
      rw [← hu.2.1]; exact hd
    · have hf : find (lkey k) t = some (some s) := by rw [find_spec _ h.inv, hm]; rfl
      have found : ((Tree.remove (lkey k) t).map fun r => (true, r.1, if r.2 then some ([] : Bytes) else none))
          = some (b, t', gc) → Packed t' := by
        intro hu
        obtain ⟨t2, gc2, r1, r2, r3⟩ := Tree.remove_spec (lkey k) h.inv (lkey_top k) hm
        have hfull := remove_full h.inv (lkey_top k) hm hd.full r1
        rw [r1] at hu
        simp only [Option.map_some, Option.some.injEq, Prod.mk.injEq] at hu
        rw [← hu.2.1]
        exact hd.edit hfull r3 (by simp)
      simp only [hf] at hu
      obtain ⟨hmem, hkey, ⟨h1, h2, v, h3⟩ | ⟨h1, h2, v, h3⟩ | ⟨h1, h2, n, h3, h4⟩⟩ := slot_cases h hm
      · rw [if_pos (by omega)] at hu
        exact found hu
      · rw [if_neg (by omega), if_neg (by omega)] at hu
        by_cases c : s.suf = k.drop 8
        · rw [if_pos c] at hu; exact found hu
        · rw [if_neg c] at hu
          simp only [Option.some.injEq, Prod.mk.injEq] at hu
          rw [← hu.2.1]; exact hd
      · rw [if_neg (by omega), if_pos h1, dif_pos h2] at hu
        simp only [h3] at hu
        cases hup : remove (k.drop 8) n with
        | none => rw [hup] at hu; simp at hu
        | some r2 =>
          obtain ⟨b2, n', gc2⟩ := r2
          rw [hup] at hu
          simp only at hu
          cases hmod : modify (lkey k) (fun s => { s with lv := some (.layer n') }) t with
          | none => rw [hmod] at hu; simp at hu
          | some t2 =>
            rw [hmod] at hu
            simp only [Option.map_some, Option.some.injEq, Prod.mk.injEq] at hu
            rw [← hu.2.1]
            refine setLayer_packed h hd hm h2 ?_ _ (by rw [← h1]) hmod
            exact ih (k.drop 8).length (by simp; omega) (k.drop 8) n h4 (hd.sub s hmem n h3) hup rfl

theorem collapse_full {α : Type} (n : Node α) (h : Full true n) : Full true (collapse n) := by
  fun_induction collapse n with
  | case1 ht c ih => exact ih h.1
  | case2 n _ => exact h

theorem gcReplace_full {x : LKey} {lv : LV V} (lm rm : Bool) {perm : Word} {slots : List (Slot (LV V))}
    (h : Full lm (.leaf perm slots : T V)) : FullIns lm (gcReplace x lv lm rm perm slots) := by
  unfold gcReplace
  split
  · trivial
  · exact h

theorem gcRemove_full (x : LKey) (lm rm : Bool) (perm : Word) (slots : List (Slot (LV V))) :
    FullRem lm (gcRemove x lm rm perm slots) := by
  unfold gcRemove
  split
  · trivial
  · exact leafRemoveAt_full _ _ _ _ _

theorem gcLayer_packed (k : Bytes) (t : T V) (h : WF t) (hk : k.length % 8 = 0) (hk0 : k ≠ []) (hd : Packed t)
    {t' : T V} (hu : gcLayer k t = some t') : Packed t' := by
  induction hl : k.length using Nat.strongRecOn generalizing k t t' with
  | _ len ih =>
    by_cases hlen : 8 < k.length
    · rw [gcLayer] at hu
      simp only [dif_pos hlen] at hu
      rcases matching_le_one (x := lkey k) h.inv.sorted_range.1 with hm | ⟨s, hm⟩
      · have hf : find (lkey k) t = some none := by rw [find_spec _ h.inv, hm]; rfl
        simp only [hf, Option.some.injEq] at hu
        exact hu ▸ hd
      · have hf : find (lkey k) t = some (some s) := by rw [find_spec _ h.inv, hm]; rfl
        simp only [hf] at hu
        obtain ⟨hmem, hkey, ⟨h1, h2, v, h3⟩ | ⟨h1, h2, v, h3⟩ | ⟨h1, h2, n, h3, h4⟩⟩ := slot_cases h hm
        · omega
        · rw [if_neg (by omega)] at hu
          simp only [Option.some.injEq] at hu
          exact hu ▸ hd
        · rw [if_pos h1] at hu
          simp only [h3] at hu
          cases hup : gcLayer (k.drop 8) n with
          | none => rw [hup] at hu; simp at hu
          | some n' =>
            rw [hup] at hu
            simp only at hu
            refine setLayer_packed h hd hm h2 ?_ _ (by rw [← h1]) hu
            exact ih (k.drop 8).length (by simp; omega) (k.drop 8) n h4 (by simp; omega) (drop8_ne h2)
              (hd.sub s hmem n h3) hup rfl
    · have hl8 : k.length = 8 := by
        have : 0 < k.length := List.length_pos_iff.mpr hk0
        omega
      have hx : (lkey k).len = 8 := hl8
      rw [gcLayer] at hu
      simp only [dif_neg hlen] at hu
      obtain ⟨lo', hi', perm, slots, A, B, h1, h2, h3, h4, h5, h6⟩ :=
        reach_spec (lkey k) t none top h.inv (lkey_top k)
      simp only [h1] at hu
      rcases gcSlot_spec (lkey k) hx h2 with ⟨A', s, B', hA, hB, g1, g2, g3, g4⟩ | ⟨g1, _⟩
      · have hmem : s ∈ entries t := by rw [h4, g3]; simp
        obtain ⟨hklx, n, hn, hwf⟩ : s.klx = 128 ∧ ∃ n, s.lv = some (.layer n) ∧ WF n := by
          rcases h.ok s hmem with ⟨a, _⟩ | ⟨a, _⟩ | ⟨a, _, n, c⟩
          · omega
          · omega
          · exact ⟨a, n, c, h.sub s hmem n c⟩
        have hm : matching (layerKey (lkey k)) (entries t) = [s] := by
          have this : s ∈ matching (layerKey (lkey k)) (entries t) := by
            unfold matching; rw [List.mem_filter]; exact ⟨hmem, by simpa using g1⟩
          rcases matching_le_one (x := layerKey (lkey k)) h.inv.sorted_range.1 with hm | ⟨s', hm⟩
          · rw [hm] at this; simp at this
          · rw [hm] at this ⊢; simp at this; rw [this]
        have hb : slotAt slots (Permuter.get perm A'.length) = s := by
          rw [← leafEntries_get perm slots A'.length (by rw [g3]; simp)]
          simp [g3]
        obtain ⟨c1, c2⟩ := collapse_spec n hwf.inv
        have cp : Packed (collapse n) := by
          have hp := hd.sub s hmem n hn
          exact ⟨_, collapse_full n hp.full, fun s hs => hp.sub s (c2 ▸ hs)⟩
        have hik : (layerKey (lkey k)).ikey = (lkey k).ikey := rfl
        have keep : ∀ t', (upd (gcReplace (lkey k) (LV.layer (collapse n))) (lkey k).ikey true true t).root = some t' →
            Packed t' := by
          intro t' ht'
          have sp : ∀ lo hi lm rm perm slots, LeafInv lo hi perm slots → (lm = true ↔ lo = none) →
              inR lo hi (layerKey (lkey k)).ikey → matching (layerKey (lkey k)) (leafEntries perm slots) = [s] →
              Ins.Ok lo hi 0 (replaceKey (layerKey (lkey k)) [{ s with lv := some (.layer (collapse n)) }]
                (leafEntries perm slots)) (gcReplace (lkey k) (LV.layer (collapse n)) lm rm perm slots) :=
            fun lo hi lm rm perm slots e1 _ _ e4 => gcReplace_spec (lkey k) hx e1 lm rm _ s g2 e4
          have hok := upd_spec (layerKey (lkey k)) [s] [{ s with lv := some (.layer (collapse n)) }]
            (gcReplace (lkey k) (LV.layer (collapse n))) sp t none top true true h.inv (by simp) (lkey_top k) hm
          have hfu := upd_full (layerKey (lkey k)) [s] [{ s with lv := some (.layer (collapse n)) }]
            (gcReplace (lkey k) (LV.layer (collapse n))) sp
            (fun _ _ lm rm _ _ _ e => gcReplace_full lm rm e) t none top true true h.inv (by simp) (lkey_top k) hm hd.full
          rw [hik] at hok hfu
          have hfull := root_full hfu ht'
          have he : entries t' = replaceKey (layerKey (lkey k)) [{ s with lv := some (.layer (collapse n)) }] (entries t) := by
            match upd (gcReplace (lkey k) (LV.layer (collapse n))) (lkey k).ikey true true t, hok, ht' with
            | .done n2, hok, ht' =>
              simp only [Ins.root, Option.some.injEq] at ht'
              exact ht' ▸ hok.2.2
            | .split h' st l kk r, hok, ht' =>
              obtain ⟨_, _, _, _, _, _, _, h7⟩ := hok
              simp only [Ins.root, Option.some.injEq] at ht'
              subst ht'
              simp only [entries, entriesL, List.append_nil]; exact h7
          refine hd.edit hfull he ?_
          simp only [List.mem_singleton]
          rintro _ rfl n2 hn2
          simp only [Option.some.injEq, LV.layer.injEq] at hn2
          exact hn2 ▸ cp
        simp only [g4, hb, hn] at hu
        match hcol : collapse n with
        | .null => rw [hcol] at c1; simp [Tree.Inv] at c1
        | .inode _ _ _ => rw [hcol] at keep hu; exact keep t' hu
        | .leaf lp ls =>
          rw [hcol] at keep hu
          dsimp only at hu
          by_cases hsz : size lp > 0
          · rw [if_pos hsz] at hu; exact keep t' hu
          · rw [if_neg hsz] at hu
            have sp : ∀ lo hi lm rm isRoot perm slots, LeafInv lo hi perm slots → (lm = true ↔ lo = none) →
                inR lo hi (layerKey (lkey k)).ikey → (isRoot = true → lo = none) →
                matching (layerKey (lkey k)) (leafEntries perm slots) = [s] →
                Rem.Ok lo hi 0 isRoot (replaceKey (layerKey (lkey k)) [] (leafEntries perm slots))
                  (gcRemove (lkey k) lm rm perm slots) :=
              fun lo hi lm rm isRoot perm slots e1 e2 _ e4 e5 => gcRemove_spec (lkey k) hx e1 lm rm e2 isRoot e4 s g2 e5
            have hok := rem_spec (layerKey (lkey k)) [s] (gcRemove (lkey k)) sp
              t none top true true true h.inv (by simp) (lkey_top k) (by simp) hm
            have hfu := rem_full (layerKey (lkey k)) [s] (gcRemove (lkey k)) sp
              (fun lm rm perm slots => gcRemove_full (lkey k) lm rm perm slots)
              t none top true true true h.inv (by simp) (lkey_top k) (by simp) hm hd.full
            rw [hik] at hok hfu
            match rem (gcRemove (lkey k)) (lkey k).ikey true true true t, hok, hfu, hu with
            | .stop n2 none gc, hok, hfu, hu =>
              simp only [Rem.root, Option.map_some, Option.some.injEq] at hu
              subst hu
              exact hd.edit hfu hok.2.2 (by simp)
            | .stop n2 (some (ik, nk)) gc, hok, _, _ => exact absurd rfl hok.2.2.2.2.1
            | .up _ _, hok, _, _ => simp [Rem.Ok] at hok
      · simp only [g1, Option.some.injEq] at hu
        exact hu ▸ hd

theorem empty_packed : Packed (empty : T V) := by
  refine ⟨_, .inl rfl, ?_⟩
  have := (emptyLayer_inv (α := LV V) (hi := top)).2
  unfold empty
  rw [this]
  simp

/-- Operations whose insertions are committed, as everywhere in the server. -/
def Op.Committed : Op V → Prop
  | .update c _ _ => c = true
  | _ => True

theorem step_packed {o : Op V} (ho : o.Valid) (hc : o.Committed) {t t' : T V} (h : WF t) (hd : Packed t)
    {b : Option Bool} (hs : step o t = some (b, t')) : Packed t' := by
  have ups : ∀ f k, (upsert true f k t).map (fun r => (some r.1, r.2)) = some (b, t') → Packed t' := by
    intro f k hs
    cases hu : upsert true f k t with
    | none => rw [hu] at hs; simp at hs
    | some r =>
      rw [hu] at hs
      simp only [Option.map_some, Option.some.injEq, Prod.mk.injEq] at hs
      obtain ⟨b2, t2⟩ := r
      exact hs.2 ▸ upsert_packed f k t h hd hu
  cases o with
  | put k v => exact ups _ _ hs
  | update c f k => have e : c = true := hc; subst e; exact ups _ _ hs
  | remove k =>
    simp only [step] at hs
    cases hu : remove k t with
    | none => rw [hu] at hs; simp at hs
    | some r =>
      rw [hu] at hs
      simp only [Option.map_some, Option.some.injEq, Prod.mk.injEq] at hs
      obtain ⟨b2, t2, gc⟩ := r
      exact hs.2 ▸ remove_packed k t h hd hu
  | gc k =>
    simp only [step] at hs
    cases hu : gcLayer k t with
    | none => rw [hu] at hs; simp at hs
    | some t2 =>
      rw [hu] at hs
      simp only [Option.map_some, Option.some.injEq, Prod.mk.injEq] at hs
      exact hs.2 ▸ gcLayer_packed k t h ho.1 ho.2 hd hu

theorem run_packed : ∀ (ops : List (Op V)) (t : T V), (∀ o ∈ ops, o.Valid ∧ o.Committed) → (∃ m, Repr t m) → Packed t →
    ∀ outs t', run ops t = some (outs, t') → Packed t' := by
  intro ops
  induction ops with
  | nil => intro t _ _ hd outs t' h; simp only [run, Option.some.injEq, Prod.mk.injEq] at h; exact h.2 ▸ hd
  | cons o os ih =>
    intro t ho hr hd outs t' h
    obtain ⟨m, hr⟩ := hr
    obtain ⟨t1, h1, h2⟩ := step_spec hr o (ho o (by simp)).1
    have hp := step_packed (ho o (by simp)).1 (ho o (by simp)).2 hr.1 hd h1
    simp only [run, h1] at h
    cases hrun : run os t1 with
    | none => rw [hrun] at h; simp at h
    | some r =>
      rw [hrun] at h
      simp only [Option.map_some, Option.some.injEq, Prod.mk.injEq] at h
      obtain ⟨o2, t2⟩ := r
      exact h.2 ▸ ih t1 (fun o h' => ho o (by simp [h'])) ⟨_, h2⟩ hp o2 t2 hrun

end Verif.Trie
