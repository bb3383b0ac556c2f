import Verif.Trie.Model
import Verif.Tree.Layer
import Verif.Props.C05

/-!
Invariant of the whole table and the effect of every operation on lookups.
-/
namespace Verif.Trie
open Verif.Permuter (Word size used)
open Verif.Key (Bytes slice compareKeys)
open Verif.Tree
open Verif.Props.C07 (Reachable)
variable {V : Type}

/-- Upper end of the range of slices. -/
def top : Option Nat := some (2 ^ 64)

theorem lkey_top (k : Bytes) : inR none top (lkey k).ikey :=
  ⟨trivial, by simpa [top, ltHi, lkey] using Key.slice_lt k⟩

/-- A slot in use is of one of three kinds: a key that ends in this layer, a key with a
suffix, or a layer; its slice is that of some byte string of the right length. -/
def SlotOk (s : Slot (LV V)) : Prop :=
  (s.klx ≤ 8 ∧ (∃ b : Bytes, b.length = s.klx ∧ slice b = s.ikey) ∧ ∃ v, s.lv = some (.val v)) ∨
  (s.klx = 64 ∧ (∃ b : Bytes, b.length = 8 ∧ slice b = s.ikey) ∧ s.suf ≠ [] ∧ ∃ v, s.lv = some (.val v)) ∨
  (s.klx = 128 ∧ (∃ b : Bytes, b.length = 8 ∧ slice b = s.ikey) ∧ ∃ n, s.lv = some (.layer n))

/-- Every layer satisfies the layer invariant and holds only proper slots. -/
inductive WF : T V → Prop
  | mk (t : T V) (inv : Inv none top t) (ok : ∀ s ∈ entries t, SlotOk s)
      (sub : ∀ s ∈ entries t, ∀ n, s.lv = some (.layer n) → WF n) : WF t

theorem WF.inv {t : T V} (h : WF t) : Inv none top t := by cases h; assumption
theorem WF.ok {t : T V} (h : WF t) : ∀ s ∈ entries t, SlotOk s := by cases h; assumption
theorem WF.sub {t : T V} (h : WF t) : ∀ s ∈ entries t, ∀ n, s.lv = some (.layer n) → WF n := by
  cases h; assumption

theorem empty_wf : WF (empty : T V) := by
  have h := emptyLayer_inv (α := LV V) (hi := top)
  refine ⟨_, h.1, ?_, ?_⟩ <;> unfold empty <;> rw [h.2] <;> simp

/-! ### Lookup, resolved slot by slot -/

/-- What a lookup does with the slot it found. -/
def resolve (rec : T V → Option (Option V)) (k : Bytes) : Option (Slot (LV V)) → Option (Option V)
  | none => some none
  | some s =>
    if s.klx < 64 then
      match s.lv with
      | some (.val v) => some (some v)
      | _ => none
    else if s.klx = 128 then
      if 8 < k.length then
        match s.lv with
        | some (.layer n) => rec n
        | _ => none
      else none
    else if s.suf = k.drop 8 then
      match s.lv with
      | some (.val v) => some (some v)
      | _ => none
    else some none

theorem get_eq {t : T V} (h : Inv none top t) (k : Bytes) :
    get k t = resolve (get (k.drop 8)) k (matching (lkey k) (entries t)).head? := by
  rw [get, find_spec _ h]
  cases (matching (lkey k) (entries t)).head? with
  | none => rfl
  | some s =>
    simp only [resolve]
    split
    · rfl
    · split
      · split <;> rfl
      · rfl

theorem lkey_key_eq {k k2 : Bytes} (h : (lkey k2).key = (lkey k).key) :
    (k.length ≤ 8 ∧ k2 = k) ∨ (8 < k.length ∧ 8 < k2.length ∧ k2.take 8 = k.take 8) := by
  simp only [lkey, LKey.key, Prod.mk.injEq] at h
  have hp := Key.pad_eq_of_slice_eq h.1
  by_cases c : k.length ≤ 8
  · have : k2.length = k.length := by omega
    exact .inl ⟨c, Key.eq_of_pad_eq hp (by omega) (by omega)⟩
  · exact .inr ⟨by omega, by omega, Key.take_eq_of_pad_eq hp (by omega) (by omega)⟩

theorem eq_of_take_drop {a b : Bytes} (h : a.take 8 = b.take 8) : a = b ↔ a.drop 8 = b.drop 8 := by
  constructor
  · rintro rfl; rfl
  · intro h2
    rw [← List.take_append_drop 8 a, ← List.take_append_drop 8 b, h, h2]

theorem mem_matching {α : Type} {x : LKey} {l : List (Slot α)} {s : Slot α}
    (h : (matching x l).head? = some s) : s ∈ l ∧ s.key = x.key := by
  have : s ∈ matching x l := List.mem_of_head? h
  unfold matching at this
  simpa using List.mem_filter.mp this

theorem matching_replace_ne {x y : LKey} {ls l : List (Slot (LV V))} (hls : ∀ s ∈ ls, s.key = x.key)
    (h : y.key ≠ x.key) : matching y (replaceKey x ls l) = matching y l := by
  have hm : matching y ls = [] := by
    unfold matching
    rw [List.filter_eq_nil_iff]
    intro s hs
    simp only [decide_eq_true_eq]
    rw [hls s hs]
    exact fun h' => h h'.symm
  unfold replaceKey
  rw [matching_append, matching_append, hm, List.append_nil]
  unfold matching below above
  rw [List.filter_filter, List.filter_filter]
  have hor : KLt y.key x.key ∨ KLt x.key y.key := by
    rcases KLt.tri y.key x.key with c | c | c
    · exact .inl c
    · exact absurd c h
    · exact .inr c
  rcases hor with c | c
  · have e1 : ∀ s : Slot (LV V), (decide (s.key = y.key) && decide (KLt s.key x.key))
        = decide (s.key = y.key) := by
      intro s; by_cases e : s.key = y.key <;> simp [e, c]
    have e2 : ∀ s : Slot (LV V), (decide (s.key = y.key) && decide (KLt x.key s.key)) = false := by
      intro s; by_cases e : s.key = y.key <;> simp [e, c.asymm]
    simp [e1, e2]
  · have e1 : ∀ s : Slot (LV V), (decide (s.key = y.key) && decide (KLt x.key s.key))
        = decide (s.key = y.key) := by
      intro s; by_cases e : s.key = y.key <;> simp [e, c]
    have e2 : ∀ s : Slot (LV V), (decide (s.key = y.key) && decide (KLt s.key x.key)) = false := by
      intro s; by_cases e : s.key = y.key <;> simp [e, c.asymm]
    simp [e1, e2]

theorem matching_replace_eq {x y : LKey} {ls l : List (Slot (LV V))} (hls : ∀ s ∈ ls, s.key = x.key)
    (h : y.key = x.key) : matching y (replaceKey x ls l) = ls := by
  unfold replaceKey
  rw [matching_append, matching_append]
  have e1 : matching y (below x l) = [] := by
    unfold matching below
    rw [List.filter_eq_nil_iff]
    intro s hs
    have := (List.mem_filter.mp hs).2
    simp only [decide_eq_true_eq] at this ⊢
    rw [h]; exact this.ne
  have e2 : matching y (above x l) = [] := by
    unfold matching above
    rw [List.filter_eq_nil_iff]
    intro s hs
    have := (List.mem_filter.mp hs).2
    simp only [decide_eq_true_eq] at this ⊢
    rw [h]; exact this.ne.symm
  have e3 : matching y ls = ls := by
    unfold matching
    rw [List.filter_eq_self]
    intro s hs
    simp only [decide_eq_true_eq]
    rw [h]; exact hls s hs
  rw [e1, e2, e3]; simp

theorem mem_replace {x : LKey} {ls l : List (Slot (LV V))} {s : Slot (LV V)}
    (h : s ∈ replaceKey x ls l) : s ∈ ls ∨ s ∈ l := by
  unfold replaceKey below above at h
  simp only [List.mem_append, List.mem_filter] at h
  rcases h with (h | h) | h
  · exact .inr h.1
  · exact .inl h
  · exact .inr h.1

/-- The table after a layer's contents were edited under one key. -/
theorem WF.edit {t t' : T V} {x : LKey} {ls : List (Slot (LV V))} (h : WF t) (hi : Inv none top t')
    (he : entries t' = replaceKey x ls (entries t)) (hok : ∀ s ∈ ls, SlotOk s)
    (hsub : ∀ s ∈ ls, ∀ n, s.lv = some (.layer n) → WF n) : WF t' := by
  refine ⟨_, hi, ?_, ?_⟩ <;> rw [he] <;> intro s hs
  · rcases mem_replace hs with hs | hs
    · exact hok s hs
    · exact h.ok s hs
  · rcases mem_replace hs with hs | hs
    · exact hsub s hs
    · exact h.sub s hs

/-- Lookups after a layer's contents were edited under the slice of `k`. -/
theorem get_edit {t t' : T V} {k : Bytes} {ls : List (Slot (LV V))} (h : Inv none top t)
    (hi : Inv none top t') (he : entries t' = replaceKey (lkey k) ls (entries t))
    (hls : ∀ s ∈ ls, s.key = (lkey k).key) (k2 : Bytes) :
    get k2 t' = if (lkey k2).key = (lkey k).key then resolve (get (k2.drop 8)) k2 ls.head? else get k2 t := by
  rw [get_eq hi, he]
  split
  · next c => rw [matching_replace_eq hls c]
  · next c => rw [matching_replace_ne hls c, ← get_eq h]

theorem slotOk_mkSlot (k : Bytes) (v : V) : SlotOk (mkSlot k (some (.val v))) := by
  unfold SlotOk mkSlot
  by_cases c : 8 < k.length
  · simp only [c, if_true]
    refine .inr (.inl ⟨trivial, ⟨k.take 8, by simp; omega, Key.slice_take8 k⟩, ?_, v, rfl⟩)
    intro h; have := congrArg List.length h; simp at this; omega
  · simp only [c, if_false]
    exact .inl ⟨by omega, ⟨k, rfl, rfl⟩, v, rfl⟩

theorem mkSlot_key (k : Bytes) (lv : Option (LV V)) : (mkSlot k lv).key = (lkey k).key := by
  simp only [mkSlot, Slot.key, lkey, LKey.key]
  split
  · rw [Nat.min_eq_right (by omega), Nat.min_eq_right (by omega)]
  · rfl

/-- A lookup that meets the slot of a key finds exactly that key. -/
theorem resolve_mkSlot {k k2 : Bytes} (rec : T V → Option (Option V)) (v : V)
    (h : (lkey k2).key = (lkey k).key) :
    resolve rec k2 (some (mkSlot k (some (.val v)))) = if k2 = k then some (some v) else some none := by
  have e1 : (mkSlot k (some (.val v)) : Slot (LV V)).klx = if 8 < k.length then 64 else k.length := rfl
  have e2 : (mkSlot k (some (.val v)) : Slot (LV V)).suf = k.drop 8 := rfl
  have e3 : (mkSlot k (some (.val v)) : Slot (LV V)).lv = some (.val v) := rfl
  generalize (mkSlot k (some (.val v)) : Slot (LV V)) = s at *
  unfold resolve
  dsimp only
  rw [e3]
  rcases lkey_key_eq h with ⟨h1, rfl⟩ | ⟨h1, h2, h3⟩
  · rw [if_neg (by omega)] at e1
    rw [if_pos (by omega), if_pos rfl]
  · rw [if_pos h1] at e1
    rw [if_neg (by omega), if_neg (by omega), e2]
    simp only [eq_of_take_drop h3]
    by_cases c : k2.drop 8 = k.drop 8
    · rw [if_pos c.symm, if_pos c]
    · rw [if_neg (fun h => c h.symm), if_neg c]

/-! ### New layers -/

theorem slotAt_fresh1 (a : Slot (LV V)) : slotAt (freshSlots [a]) 0 = a := rfl
theorem slotAt_fresh2a (a b : Slot (LV V)) : slotAt (freshSlots [a, b]) 0 = a := rfl
theorem slotAt_fresh2b (a b : Slot (LV V)) : slotAt (freshSlots [a, b]) 1 = b := rfl

theorem used_sorted1 : used (Permuter.makeSorted 1) = [0] := by decide
theorem used_lt (c : Bool) : used (finishPerm c (Permuter.makeSorted 1) 1) = if c then [0, 1] else [0] := by
  revert c; decide
theorem used_gt (c : Bool) : used (finishPerm c (Permuter.removeToBack (Permuter.makeSorted 2) 0) 0)
    = if c then [0, 1] else [1] := by
  revert c; decide

theorem reach_lt (c : Bool) : Reachable (finishPerm c (Permuter.makeSorted 1) 1) := by
  cases c
  · exact .sorted 1 (by omega)
  · exact .insert 1 (.sorted 1 (by omega)) (by decide) (by decide)
theorem reach_gt (c : Bool) :
    Reachable (finishPerm c (Permuter.removeToBack (Permuter.makeSorted 2) 0) 0) := by
  have h : Reachable (Permuter.removeToBack (Permuter.makeSorted 2) 0) :=
    .removeToBack 0 (.sorted 2 (by omega)) (by decide)
  cases c
  · exact h
  · exact .insert 0 h (by decide) (by decide)

theorem leaf_inv {perm : Word} {slots : List (Slot (LV V))} (h1 : Reachable perm) (h2 : slots.length = 15)
    (h3 : SSorted (leafEntries perm slots)) (h4 : ∀ s ∈ leafEntries perm slots, ∃ k, s.ikey = slice k) :
    Inv none top (.leaf perm slots : T V) := by
  simp only [Tree.Inv]
  refine ⟨h1, h2, h3, ?_, by simp⟩
  intro s hs
  obtain ⟨k, hk⟩ := h4 s hs
  rw [hk]; exact lkey_top k

theorem compareKeys_klt {a b : Bytes} (h : compareKeys a b < 0) : KLt (lkey a).key (lkey b).key := by
  rw [Props.C05.compareKeys_neg] at h
  simp only [lkey, LKey.key, KLt]
  omega

theorem compareKeys_pos {a b : Bytes} (h : 0 < compareKeys a b) : KLt (lkey b).key (lkey a).key := by
  rcases KLt.tri (lkey a).key (lkey b).key with c | c | c
  · exfalso
    have : compareKeys a b < 0 := by
      rw [Props.C05.compareKeys_neg]; simp only [lkey, LKey.key, KLt] at c; omega
    omega
  · exfalso
    have : compareKeys a b = 0 := by
      rw [Props.C05.compareKeys_zero]; simp only [lkey, LKey.key, Prod.mk.injEq] at c; omega
    omega
  · exact c

/-- The twig built for two different keys holds the old key, and the new one if the cursor
committed. -/
theorem mkTwig_spec (commit : Bool) (v w : V) (nlv : Option (LV V)) (hn : commit = true → nlv = some (.val w))
    (oka ka : Bytes) : oka ≠ ka →
    ∃ n, mkTwig commit oka ka (some (.val v)) nlv = some n ∧ WF n ∧
      ∀ j, get j n = if j = oka then some (some v) else if j = ka ∧ commit = true then some (some w)
        else some none := by
  fun_induction mkTwig commit oka ka (some (.val v)) nlv with
  | case1 oka ka c h h8 hnone ih =>
    intro hne
    have hz := (Props.C05.layer_order oka ka).2.2 h
    have ht : oka.take 8 = ka.take 8 := by
      rcases hz with h' | h'
      · omega
      · exact h'.2.2
    obtain ⟨n, h1, _⟩ := ih (fun h' => hne ((eq_of_take_drop ht).mpr h'))
    rw [hnone] at h1; simp at h1
  | case2 oka ka c h h8 n hsome ih =>
    intro hne
    have hz := (Props.C05.layer_order oka ka).2.2 h
    obtain ⟨hk8, ht⟩ : 8 < ka.length ∧ oka.take 8 = ka.take 8 := by
      rcases hz with h' | h'
      · omega
      · exact h'.2
    obtain ⟨n', h1, h2, h3⟩ := ih (fun h' => hne ((eq_of_take_drop ht).mpr h'))
    rw [hsome] at h1
    obtain rfl : n = n' := by simpa using h1
    generalize hs : ({ ikey := slice oka, klx := 128, suf := [], lv := some (.layer n) } : Slot (LV V)) = s
    have he : leafEntries (Permuter.makeSorted 1) (freshSlots [s]) = [s] := by
      unfold leafEntries; rw [used_sorted1]; rfl
    have hinv : Inv none top (.leaf (Permuter.makeSorted 1) (freshSlots [s]) : T V) := by
      refine leaf_inv (.sorted 1 (by omega)) rfl ?_ ?_
      · rw [he]; exact List.pairwise_singleton _ _
      · rw [he, ← hs]; simp only [List.mem_singleton]; rintro _ rfl; exact ⟨oka, rfl⟩
    have hkey : s.key = (lkey oka).key := by
      rw [← hs]; simp only [Slot.key, lkey, LKey.key]
      rw [Nat.min_eq_right (by omega), Nat.min_eq_right (by omega)]
    refine ⟨_, rfl, ⟨_, hinv, ?_, ?_⟩, ?_⟩
    · simp only [entries, he, List.mem_singleton]
      rintro _ rfl
      rw [← hs]
      exact .inr (.inr ⟨rfl, ⟨oka.take 8, by simp; omega, Key.slice_take8 oka⟩, n, rfl⟩)
    · simp only [entries, he, List.mem_singleton]
      rintro _ rfl m hm
      rw [← hs] at hm
      obtain rfl : n = m := by simpa using hm
      exact h2
    · intro j
      rw [get_eq hinv]
      simp only [entries, he, matching]
      by_cases cc : s.key = (lkey j).key
      · rw [List.filter_cons_of_pos (by simpa using cc)]
        rw [hkey] at cc
        rcases lkey_key_eq cc.symm with h' | ⟨_, h4, h5⟩
        · omega
        · simp only [List.head?_cons, resolve, ← hs]
          rw [if_neg (by omega), if_pos trivial, if_pos h4]
          rw [h3]
          simp only [eq_of_take_drop h5, eq_of_take_drop (h5.trans ht)]
      · rw [List.filter_cons_of_neg (by simpa using cc)]
        simp only [List.filter_nil, List.head?_nil, resolve]
        have hj1 : j ≠ oka := by rintro rfl; exact cc hkey
        have hj2 : j ≠ ka := by
          rintro rfl
          apply cc
          rw [hkey]
          simp only [lkey, LKey.key, Prod.mk.injEq]
          exact ⟨(Props.C05.compareKeys_zero.mp h).1, by omega⟩
        rw [if_neg hj1, if_neg (fun h => hj2 h.1)]
  | case3 oka ka c h h8 =>
    intro hne
    have hz := (Props.C05.layer_order oka ka).2.2 h
    rcases hz with h' | h'
    · exact absurd h'.1 hne
    · omega
  | case4 oka ka c h0 hlt =>
    intro hne
    refine ⟨_, rfl, ?_⟩
    have he : leafEntries (finishPerm commit (Permuter.makeSorted 1) 1)
        (freshSlots [mkSlot oka (some (.val v)), mkSlot ka nlv])
        = mkSlot oka (some (.val v)) :: (if commit then [mkSlot ka nlv] else []) := by
      unfold leafEntries; rw [used_lt]; cases commit <;> rfl
    have hinv : Inv none top (.leaf (finishPerm commit (Permuter.makeSorted 1) 1)
        (freshSlots [mkSlot oka (some (.val v)), mkSlot ka nlv]) : T V) := by
      refine leaf_inv (reach_lt _) rfl ?_ ?_
      · rw [he]
        refine List.pairwise_cons.mpr ⟨?_, by cases commit <;> simp⟩
        cases commit <;> simp [mkSlot_key, compareKeys_klt hlt]
      · rw [he]
        cases commit <;> simp only [mkSlot, List.mem_append, List.mem_cons, List.not_mem_nil, if_true,
          Bool.false_eq_true, if_false, or_false, false_or, forall_eq, forall_eq_or_imp]
        · exact ⟨_, rfl⟩
        · exact ⟨⟨_, rfl⟩, ⟨_, rfl⟩⟩
    have hkl := compareKeys_klt hlt
    refine ⟨⟨_, hinv, ?_, ?_⟩, ?_⟩
    · simp only [entries, he]
      intro s hs
      rcases List.mem_cons.mp hs with rfl | hs
      · exact slotOk_mkSlot _ _
      · cases commit with
        | false => simp at hs
        | true =>
          rw [hn rfl] at hs
          simp only [if_true, List.mem_singleton] at hs
          subst hs; exact slotOk_mkSlot _ _
    · simp only [entries, he]
      intro s hs n hl
      rcases List.mem_cons.mp hs with rfl | hs
      · simp [mkSlot] at hl
      · cases commit with
        | false => simp at hs
        | true =>
          rw [hn rfl] at hs
          simp only [if_true, List.mem_singleton] at hs
          subst hs; simp [mkSlot] at hl
    · intro j
      rw [get_eq hinv]
      simp only [entries, he, matching]
      by_cases c1 : (lkey j).key = (lkey oka).key
      · rw [List.filter_cons_of_pos (by simp [mkSlot_key, c1])]
        simp only [List.head?_cons]
        rw [resolve_mkSlot _ _ c1]
        have : j ≠ ka := by rintro rfl; exact hkl.ne c1.symm
        simp [this]
      · rw [List.filter_cons_of_neg (by simp [mkSlot_key]; exact fun h => c1 h.symm)]
        have hj : j ≠ oka := by rintro rfl; exact c1 rfl
        rw [if_neg hj]
        cases commit with
        | false => simp [resolve]
        | true =>
          rw [hn rfl]
          simp only [if_true, and_true]
          by_cases c2 : (lkey j).key = (lkey ka).key
          · rw [List.filter_cons_of_pos (by simp [mkSlot_key, c2])]
            simp only [List.head?_cons]
            rw [resolve_mkSlot _ _ c2]
          · rw [List.filter_cons_of_neg (by simp [mkSlot_key]; exact fun h => c2 h.symm)]
            have hj : j ≠ ka := by rintro rfl; exact c2 rfl
            simp [resolve, hj]
  | case5 oka ka c h0 hlt =>
    intro hne
    refine ⟨_, rfl, ?_⟩
    have hkl := compareKeys_pos (a := oka) (b := ka) (by omega)
    have he : leafEntries (finishPerm commit (Permuter.removeToBack (Permuter.makeSorted 2) 0) 0)
        (freshSlots [mkSlot ka nlv, mkSlot oka (some (.val v))])
        = (if commit then [mkSlot ka nlv] else []) ++ [mkSlot oka (some (.val v))] := by
      unfold leafEntries; rw [used_gt]; cases commit <;> rfl
    have hinv : Inv none top (.leaf (finishPerm commit (Permuter.removeToBack (Permuter.makeSorted 2) 0) 0)
        (freshSlots [mkSlot ka nlv, mkSlot oka (some (.val v))]) : T V) := by
      refine leaf_inv (reach_gt _) rfl ?_ ?_
      · rw [he]
        cases commit <;> simp [SSorted, mkSlot_key, hkl]
      · rw [he]
        cases commit <;> simp only [mkSlot, List.mem_append, List.mem_cons, List.not_mem_nil, if_true,
          Bool.false_eq_true, if_false, or_false, false_or, forall_eq, forall_eq_or_imp]
        · exact ⟨_, rfl⟩
        · exact ⟨⟨_, rfl⟩, ⟨_, rfl⟩⟩
    refine ⟨⟨_, hinv, ?_, ?_⟩, ?_⟩
    · simp only [entries, he]
      intro s hs
      rcases List.mem_append.mp hs with hs | hs
      · cases commit with
        | false => simp at hs
        | true =>
          rw [hn rfl] at hs
          simp only [if_true, List.mem_singleton] at hs
          subst hs; exact slotOk_mkSlot _ _
      · simp only [List.mem_singleton] at hs
        subst hs; exact slotOk_mkSlot _ _
    · simp only [entries, he]
      intro s hs n hl
      rcases List.mem_append.mp hs with hs | hs
      · cases commit with
        | false => simp at hs
        | true =>
          rw [hn rfl] at hs
          simp only [if_true, List.mem_singleton] at hs
          subst hs; simp [mkSlot] at hl
      · simp only [List.mem_singleton] at hs
        subst hs; simp [mkSlot] at hl
    · intro j
      rw [get_eq hinv]
      simp only [entries, he]
      rw [matching_append]
      have hms : ∀ (k : Bytes) (lv : Option (LV V)), matching (lkey j) [mkSlot k lv]
          = if (lkey j).key = (lkey k).key then [mkSlot k lv] else [] := by
        intro k lv
        unfold matching
        by_cases c : (lkey j).key = (lkey k).key
        · rw [List.filter_cons_of_pos (by simp [mkSlot_key, c]), if_pos c]; rfl
        · rw [List.filter_cons_of_neg (by simp [mkSlot_key]; exact fun h => c h.symm), if_neg c]; rfl
      rw [hms]
      by_cases c2 : (lkey j).key = (lkey ka).key
      · have hj : j ≠ oka := by rintro rfl; exact hkl.ne c2.symm
        have c1 : ¬ (lkey j).key = (lkey oka).key := fun h => hkl.ne (c2.symm.trans h)
        rw [if_neg c1, if_neg hj]
        cases commit with
        | false => simp [matching, resolve]
        | true =>
          rw [hn rfl]
          simp only [if_true, and_true]
          rw [hms, if_pos c2]
          simp only [List.append_nil, List.head?_cons]
          rw [resolve_mkSlot _ _ c2]
      · have hj : j ≠ ka := by rintro rfl; exact c2 rfl
        have hm0 : matching (lkey j) (if commit = true then [mkSlot ka nlv] else []) = [] := by
          cases commit with
          | false => simp [matching]
          | true => simp only [if_true]; rw [hms, if_neg c2]
        rw [hm0]
        simp only [hj, false_and, if_false, List.nil_append]
        by_cases c1 : (lkey j).key = (lkey oka).key
        · rw [if_pos c1]
          simp only [List.head?_cons]
          rw [resolve_mkSlot _ _ c1]
        · have hj : j ≠ oka := by rintro rfl; exact c1 rfl
          rw [if_neg c1, if_neg hj]
          simp [resolve]

end Verif.Trie
