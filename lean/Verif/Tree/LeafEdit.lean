import Verif.Tree.Inv

/-!
Insertion into, modification of, and removal from a leaf.
-/
set_option linter.unusedSimpArgs false
namespace Verif.Tree
open Verif.Permuter (Word size back used free)
open Verif.Props.C07 (Reachable)
variable {α : Type}

/-! ### The split point -/

/-- What the split point has to satisfy. -/
def GoodMid (width : Nat) (ik : Nat → Nat) (mid : Nat) : Prop :=
  1 ≤ mid ∧ mid ≤ width ∧ ik (mid - 1) ≠ ik mid

theorem adjustLoop_spec (ik : Nat → Nat) (width m mid : Nat) (hw : ∃ i, i ≤ width ∧ ik i ≠ m)
    (hm1 : 1 ≤ mid) (hm2 : mid ≤ width) :
    ∀ (fuel d : Nat), fuel + d = width + 2 →
      (∀ i : Nat, (mid : Int) - 2 - d < i → i < mid + 1 + d → i ≤ width → ik i = m) →
      ∃ r, adjustLoop ik width m fuel ((mid : Int) - 2 - d) (mid + 1 + d) = some r ∧
        GoodMid width ik r := by
  intro fuel
  induction fuel with
  | zero =>
    intro d hd hall
    obtain ⟨i, hi, hne⟩ := hw
    exact absurd (hall i (by omega) (by omega) hi) hne
  | succ fuel ih =>
    intro d hd hall
    unfold adjustLoop
    by_cases c1 : mid + 1 + d ≤ width ∧ m ≠ ik (mid + 1 + d)
    · rw [if_pos c1]
      refine ⟨_, rfl, by omega, c1.1, ?_⟩
      have : ik (mid + 1 + d - 1) = m := hall (mid + 1 + d - 1) (by omega) (by omega) (by omega)
      rw [this]; exact c1.2
    · rw [if_neg c1]
      by_cases c2 : 0 ≤ (mid : Int) - 2 - d ∧ m ≠ ik ((mid : Int) - 2 - d).toNat
      · rw [if_pos c2]
        refine ⟨_, rfl, by omega, by omega, ?_⟩
        have : ik (((mid : Int) - 2 - d).toNat + 1) = m := hall _ (by omega) (by omega) (by omega)
        rw [this, Nat.add_sub_cancel]
        exact fun h => c2.2 h.symm
      · rw [if_neg c2]
        have e1 : (mid : Int) - 2 - d - 1 = (mid : Int) - 2 - (d + 1 : Nat) := by omega
        have e2 : mid + 1 + d + 1 = mid + 1 + (d + 1) := by omega
        rw [e1, e2]
        apply ih (d + 1) (by omega)
        intro i hi1 hi2 hi3
        by_cases h1 : i = mid + 1 + d
        · subst h1
          rcases Classical.em (ik (mid + 1 + d) = m) with h | h
          · exact h
          · exact absurd ⟨hi3, fun h' => h h'.symm⟩ c1
        · by_cases h2 : (i : Int) = (mid : Int) - 2 - d
          · have e3 : ((mid : Int) - 2 - d).toNat = i := by omega
            rw [e3] at c2
            rcases Classical.em (ik i = m) with h | h
            · exact h
            · exact absurd ⟨by omega, fun h' => h h'.symm⟩ c2
          · exact hall i (by omega) (by omega) hi3

theorem splitPoint_spec (lm rm : Bool) (width p : Nat) (ik : Nat → Nat) (hw : 14 ≤ width)
    (hne : ∀ m, ∃ i, i ≤ width ∧ ik i ≠ m) (h15 : width ≤ 15) :
    ∃ mid, splitPoint lm rm width p ik = some mid ∧ GoodMid width ik mid := by
  unfold splitPoint
  have key : ∀ mid, 1 ≤ mid → mid ≤ width →
      ∃ r, (if ik mid = ik (mid - 1) then
        adjustLoop ik width (ik mid) (width + 2) ((mid : Int) - 2) (mid + 1) else some mid) = some r ∧
        GoodMid width ik r := by
    intro mid h1 h2
    by_cases c : ik mid = ik (mid - 1)
    · rw [if_pos c]
      have := adjustLoop_spec ik width (ik mid) mid (hne _) h1 h2 (width + 2) 0 (by omega) (by
        intro i hi1 hi2 _
        rcases (show i = mid ∨ i = mid - 1 by omega) with h | h
        · rw [h]
        · rw [h, c])
      simpa using this
    · rw [if_neg c]
      exact ⟨mid, rfl, h1, h2, fun h => c h.symm⟩
  dsimp only
  apply key
  · split
    · omega
    · split <;> omega
  · split
    · omega
    · split <;> omega

/-! ### Moving items to the new leaf -/

theorem valueFrom_low (perm : Word) (i : Nat) : (Permuter.valueFrom perm i &&& 15#64).toNat = Permuter.get perm i := by
  unfold Permuter.valueFrom Permuter.get
  rw [show 4 * (i + 1) = 4 * i + 4 by omega]

theorem valueFrom_shift (perm : Word) (i : Nat) :
    Permuter.valueFrom perm i >>> 4 = Permuter.valueFrom perm (i + 1) := by
  unfold Permuter.valueFrom
  rw [← BitVec.shiftRight_add]
  congr 1

theorem moveLoop_spec (perm : Word) (slots : List (Slot α)) (p : Nat) (new : Slot α)
    (hp : p ≤ size perm) : ∀ (n x : Nat), x + n = size perm + 1 →
    moveLoop slots p new n x (Permuter.valueFrom perm (x - (if p < x then 1 else 0)))
      = ((leafEntries perm slots).insertIdx p new).drop x := by
  intro n
  have hlen := leafEntries_length perm slots
  have hL : ((leafEntries perm slots).insertIdx p new).length = size perm + 1 := by
    rw [List.length_insertIdx, hlen, if_pos hp]
  induction n with
  | zero =>
    intro x hx
    unfold moveLoop
    rw [List.drop_eq_nil_of_le (by omega)]
  | succ n ih =>
    intro x hx
    unfold moveLoop
    rw [← List.getElem_cons_drop (i := x) (h := by omega), List.getElem_insertIdx]
    by_cases c : x = p
    · subst c
      rw [if_pos rfl]
      simp only [Nat.lt_irrefl, dite_false, if_false, dif_neg, if_pos]
      congr 1
      rw [← ih (x + 1) (by omega)]
      simp
    · rw [if_neg c, valueFrom_low, valueFrom_shift]
      have ih' := ih (x + 1) (by omega)
      by_cases c2 : p < x
      · rw [if_pos c2] 
        rw [if_pos (by omega)] at ih'
        rw [dif_neg (by omega), dif_neg c, leafEntries_get]
        congr 1
        rw [← ih']
        congr 2; omega
      · rw [if_neg c2]
        rw [if_neg (by omega)] at ih'
        rw [dif_pos (by omega), leafEntries_get]
        congr 1

/-! ### The new right leaf -/

theorem freshSlots_length {R : List (Slot α)} (h : R.length ≤ 15) : (freshSlots R).length = 15 := by
  simp [freshSlots]; omega

theorem slotAt_fresh {R : List (Slot α)} {i : Nat} (h : i < R.length) : slotAt (freshSlots R) i = R[i] := by
  simp [slotAt, freshSlots, List.getElem?_append_left h, List.getElem?_eq_getElem h]

theorem entries_range {R : List (Slot α)} {perm : Word} (hu : used perm = List.range R.length) :
    leafEntries perm (freshSlots R) = R := by
  unfold leafEntries
  rw [hu]
  apply List.ext_getElem
  · simp
  · intro i h1 h2
    simp [slotAt_fresh h2]

theorem used_remove_insert {m j : Nat} (hm : m ≤ 15) (hj : j < m) :
    back (Permuter.removeToBack (Permuter.makeSorted m) j) = j ∧
    used (Permuter.insertFromBack (Permuter.removeToBack (Permuter.makeSorted m) j) j).1 = List.range m := by
  have hsz := Permuter.makeSorted_size m hm
  obtain ⟨h1, h2⟩ := Props.C07.removeToBack_spec (Permuter.makeSorted m) j (by omega)
  have hrs := Permuter.removeToBack_size (Permuter.makeSorted m) j (by omega)
  have hg : Permuter.get (Permuter.makeSorted m) j = j := by
    rw [Permuter.makeSorted_get m hm j (by omega), if_pos hj]
  have hback : back (Permuter.removeToBack (Permuter.makeSorted m) j) = j := by
    have hfl := Permuter.free_length (Permuter.removeToBack (Permuter.makeSorted m) j)
    have hff := Permuter.free_length (Permuter.makeSorted m)
    have := Permuter.free_get (Permuter.removeToBack (Permuter.makeSorted m) j) (15 - m) (by omega)
    rw [hrs, hsz] at this
    have e : m - 1 + (15 - m) = 14 := by omega
    rw [e] at this
    unfold back
    show Permuter.get _ 14 = j
    rw [← this]
    simp only [h2, hg]
    rw [List.getElem_append_right (by omega)]
    simp
  refine ⟨hback, ?_⟩
  rw [(Props.C07.insertFromBack_spec _ j (by omega) (by omega)).1]
  have hv : (Permuter.insertFromBack (Permuter.removeToBack (Permuter.makeSorted m) j) j).2 = j := hback
  rw [hv, h1, (Props.C07.makeSorted_spec m hm).1]
  apply List.ext_getElem
  · simp [List.length_insertIdx, List.length_eraseIdx]; repeat (first | omega | split)
  · intro i h1 h2
    rw [List.getElem_insertIdx]
    simp only [List.length_range] at h2
    split
    · rw [List.getElem_eraseIdx]; split <;> simp <;> omega
    · split
      · simp; omega
      · rw [List.getElem_eraseIdx]; split <;> simp <;> omega

theorem ikeyAfterInsert_eq (perm : Word) (slots : List (Slot α)) (p : Nat) (new : Slot α)
    (hp : p ≤ size perm) (i : Nat) (hi : i < ((leafEntries perm slots).insertIdx p new).length) :
    ikeyAfterInsert perm slots p new.ikey i = (((leafEntries perm slots).insertIdx p new)[i]).ikey := by
  unfold ikeyAfterInsert
  rw [List.getElem_insertIdx]
  split
  · rw [leafEntries_get]
  · split
    · rfl
    · rw [leafEntries_get]

theorem map_take_used (perm : Word) (slots : List (Slot α)) (n : Nat) :
    ((used perm).take n).map (slotAt slots) = (leafEntries perm slots).take n := by
  simp [leafEntries, List.map_take]

theorem SSorted.take {l : List (Slot α)} (h : SSorted l) (n : Nat) : SSorted (l.take n) :=
  List.Pairwise.sublist (List.take_sublist _ _) h
theorem SSorted.drop {l : List (Slot α)} (h : SSorted l) (n : Nat) : SSorted (l.drop n) :=
  List.Pairwise.sublist (List.drop_sublist _ _) h

theorem SSorted.ikey_le {l : List (Slot α)} (h : SSorted l) {i j : Nat} (hij : i ≤ j) (hj : j < l.length) :
    (l[i]'(by omega)).ikey ≤ l[j].ikey := by
  rcases Nat.lt_or_eq_of_le hij with c | c
  · exact KLt.fst_le (List.pairwise_iff_getElem.mp h i j (by omega) hj c)
  · subst c; exact Nat.le_refl _

theorem take_insertIdx_le {β : Type} (l : List β) (p m : Nat) (a : β) (h : p < m) (hp : p ≤ l.length) :
    (l.insertIdx p a).take m = (l.take (m - 1)).insertIdx p a := by
  apply List.ext_getElem?
  intro i
  simp only [List.getElem?_take, List.getElem?_insertIdx]
  have : (l.take (m-1)).length = min (m-1) l.length := List.length_take
  rw [this]
  grind

theorem take_insertIdx_ge {β : Type} (l : List β) (p m : Nat) (a : β) (h : m ≤ p) :
    (l.insertIdx p a).take m = l.take m := by
  apply List.ext_getElem?
  intro i
  simp only [List.getElem?_take, List.getElem?_insertIdx]
  grind

theorem drop_insertIdx_lt {β : Type} (l : List β) (p m : Nat) (a : β) (h : p < m) :
    (l.insertIdx p a).drop m = l.drop (m - 1) := by
  apply List.ext_getElem?
  intro i
  simp only [List.getElem?_drop, List.getElem?_insertIdx]
  grind

theorem drop_insertIdx_ge {β : Type} (l : List β) (p m : Nat) (a : β) (h : m ≤ p) (hp : p ≤ l.length) :
    (l.insertIdx p a).drop m = (l.drop m).insertIdx (p - m) a := by
  apply List.ext_getElem?
  intro i
  simp only [List.getElem?_drop, List.getElem?_insertIdx, List.length_drop]
  grind

theorem eraseIdx_insertIdx_drop {β : Type} (l : List β) (p m : Nat) (a : β) (h : m ≤ p)
    (hp : p ≤ l.length) :
    ((l.insertIdx p a).drop m).eraseIdx (p - m) = l.drop m := by
  rw [drop_insertIdx_ge _ _ _ _ h hp, List.eraseIdx_insertIdx_self]

theorem sublist_insertIdx {β : Type} (l : List β) (i : Nat) (a : β) : l.Sublist (l.insertIdx i a) := by
  induction l generalizing i with
  | nil => exact List.nil_sublist _
  | cons b l ih =>
    cases i with
    | zero => simp
    | succ i => simpa using (ih i)

theorem map_eraseIdx {β γ : Type} (f : β → γ) (l : List β) (i : Nat) :
    (l.eraseIdx i).map f = (l.map f).eraseIdx i := by
  induction l generalizing i with
  | nil => simp
  | cons b l ih => cases i <;> simp [ih]

theorem setSize_reachable {perm : Word} (h : Reachable perm) {n : Nat} (hn : n ≤ 15) :
    Reachable (Permuter.setSize perm n) := .setSize n h hn

/-- A full leaf that is not leftmost does not have its bound slot in last position. -/
theorem last_ne_zero {lo hi : Option Nat} {perm : Word} {slots : List (Slot α)}
    (h : LeafInv lo hi perm slots) {b : Nat} (hlo : lo = some b) (hw : size perm = 15) :
    Permuter.get perm 14 ≠ 0 := by
  intro h0
  have hlen := leafEntries_length perm slots
  have e14 := leafEntries_get perm slots 14 (by omega)
  rw [h0] at e14
  have hb := h.bound b hlo
  have hr := (h.range _ (List.getElem_mem (l := leafEntries perm slots) (n := 0) (by omega))).1
  rw [hlo, loLe_some] at hr
  have hle := h.sorted.ikey_le (i := 0) (j := 14) (by omega) (by omega)
  have heq : ((leafEntries perm slots)[0]'(by omega)).ikey = ((leafEntries perm slots)[14]'(by omega)).ikey := by
    rw [e14, hb] at hle ⊢
    omega
  have := same_slice_le h.sorted 0 14 (by omega) (by omega) heq
  omega

theorem splitLeaf_spec {lo hi : Option Nat} {perm : Word} {slots : List (Slot α)}
    (h : LeafInv lo hi perm slots) (commit : Bool) (new : Slot α) (lm rm : Bool) (p : Nat)
    (hp : p ≤ size perm) (hw : 14 ≤ size perm)
    (h14 : size perm = 14 → lo ≠ none → Permuter.get perm 14 = 0)
    (hnew : inR lo hi new.ikey) (hs : SSorted ((leafEntries perm slots).insertIdx p new)) :
    Ins.Ok lo hi 0
      (if commit then (leafEntries perm slots).insertIdx p new else leafEntries perm slots)
      (splitLeaf commit new lm rm p perm slots) := by
  have hlen := leafEntries_length perm slots
  have hsl := Permuter.size_le perm
  generalize hE : leafEntries perm slots = E at *
  generalize hL : E.insertIdx p new = L at *
  have hLl : L.length = size perm + 1 := by
    rw [← hL, List.length_insertIdx, hlen, if_pos hp]
  have hik : ∀ i, (hi : i < L.length) → ikeyAfterInsert perm slots p new.ikey i = L[i].ikey := by
    intro i hi
    have := ikeyAfterInsert_eq perm slots p new hp i (by rw [hE, hL]; exact hi)
    simp only [hE, hL] at this
    exact this
  -- the split point
  obtain ⟨mid, hmid, hm1, hm2, hm3⟩ := splitPoint_spec lm rm (size perm) p
    (ikeyAfterInsert perm slots p new.ikey) hw (by
      intro m
      apply Classical.byContradiction
      intro hn
      have hall : ∀ i, i ≤ size perm → ikeyAfterInsert perm slots p new.ikey i = m := by
        intro i hi
        apply Classical.byContradiction
        intro hne
        exact hn ⟨i, hi, hne⟩
      have h0 := hall 0 (by omega)
      have h1 := hall 14 (by omega)
      rw [hik 0 (by omega)] at h0
      rw [hik 14 (by omega)] at h1
      have := same_slice_le hs 0 14 (by omega) (by omega) (by rw [h0, h1])
      omega) hsl
  rw [hik _ (by omega), hik _ (by omega)] at hm3
  have hlt : (L[mid - 1]'(by omega)).ikey < (L[mid]'(by omega)).ikey := by
    have := hs.ikey_le (i := mid - 1) (j := mid) (by omega) (by omega)
    omega
  -- all slices of the new sequence are in range
  have hLr : ∀ s ∈ L, inR lo hi s.ikey := by
    intro s hs'
    rw [← hL] at hs'
    rcases (List.mem_insertIdx (by omega)).mp hs' with rfl | h'
    · exact hnew
    · exact h.range s (by rw [hE]; exact h')
  -- right leaf
  have hmove : moveLoop slots p new (size perm + 1 - mid) mid
      (Permuter.valueFrom perm (mid - (if p < mid then 1 else 0))) = L.drop mid := by
    rw [moveLoop_spec perm slots p new hp _ _ (by omega), hE, hL]
  have hRl : (L.drop mid).length = size perm + 1 - mid := by rw [List.length_drop, hLl]
  have hR15 : (L.drop mid).length ≤ 15 := by omega
  have hk : (slotAt (freshSlots (L.drop mid)) 0).ikey = (L[mid]'(by omega)).ikey := by
    rw [slotAt_fresh (by omega), List.getElem_drop]
    congr 1
  have hms := Permuter.makeSorted_size (size perm + 1 - mid) (by omega)
  have hmr : Reachable (Permuter.makeSorted (size perm + 1 - mid)) := .sorted _ (by omega)
  have hright : ∀ (pr : Word) (R : List (Slot α)), Reachable pr →
      leafEntries pr (freshSlots (L.drop mid)) = R → R.Sublist (L.drop mid) →
      LeafInv (some (L[mid]'(by omega)).ikey) hi pr (freshSlots (L.drop mid)) := by
    intro pr R hpr he hsub
    refine ⟨hpr, freshSlots_length hR15, ?_, ?_, ?_⟩
    · rw [he]; exact List.Pairwise.sublist hsub (hs.drop mid)
    · rw [he]
      intro s hs'
      have hs'' := hsub.subset hs'
      refine ⟨?_, (hLr s (List.mem_of_mem_drop hs'')).2⟩
      obtain ⟨j, hj, rfl⟩ := List.getElem_of_mem hs''
      rw [List.getElem_drop, loLe_some]
      rw [List.length_drop] at hj
      exact hs.ikey_le (by omega) (by omega)
    · intro b hb
      rw [hk]
      simpa using hb
  -- left leaf
  have hleft : ∀ (pl : Word) (sl : List (Slot α)) (R : List (Slot α)), Reachable pl → sl.length = 15 →
      leafEntries pl sl = R → R.Sublist (L.take mid) → (∀ b, lo = some b → (slotAt sl 0).ikey = b) →
      LeafInv lo (some (L[mid]'(by omega)).ikey) pl sl := by
    intro pl sl R hpl hsl he hsub hb
    refine ⟨hpl, hsl, ?_, ?_, hb⟩
    · rw [he]; exact List.Pairwise.sublist hsub (hs.take mid)
    · rw [he]
      intro s hs'
      have hs'' := hsub.subset hs'
      refine ⟨(hLr s (List.mem_of_mem_take hs'')).1, ?_⟩
      obtain ⟨j, hj, rfl⟩ := List.getElem_of_mem hs''
      rw [List.length_take] at hj
      rw [List.getElem_take, ltHi_some]
      have := hs.ikey_le (i := j) (j := mid - 1) (by omega) (by omega)
      omega
  have hklo : loLt lo (L[mid]'(by omega)).ikey :=
    loLt.of_le_lt (hLr _ (List.getElem_mem (n := mid - 1) (by omega))).1 hlt
  have hkhi : ltHi (L[mid]'(by omega)).ikey hi := (hLr _ (List.getElem_mem _)).2
  -- the stripped left permutation
  have hstrip : ∀ s, s ≤ mid → s ≤ size perm →
      let pl0 := Permuter.setSize perm s
      let pl := if size perm ≠ 15 then Permuter.exchange pl0 (size pl0) 14 else pl0
      Reachable pl ∧ used pl = (used perm).take s ∧ size pl = s ∧
        (s < size perm → ∀ b, lo = some b → back pl ≠ 0) := by
    intro s hs1 hs2
    have e1 := Permuter.setSize_size perm s (by omega)
    have r1 : Reachable (Permuter.setSize perm s) := .setSize s h.ord (by omega)
    dsimp only
    by_cases c : size perm = 15
    · rw [if_neg (by omega)]
      refine ⟨r1, used_setSize (by omega), e1, ?_⟩
      intro _ b hb
      unfold back
      rw [Permuter.setSize_get perm s (by omega) _ (by decide)]
      exact last_ne_zero h hb c
    · rw [if_pos c, e1]
      refine ⟨.exchange _ _ r1 (by omega) (by omega), ?_, ?_, ?_⟩
      · rw [used_exchange_free (by omega) (by omega) (by omega) (by omega), used_setSize (by omega)]
      · rw [Permuter.exchange_size, e1]
      · intro hs3 b hb
        have hz := h14 (by omega) (by rw [hb]; simp)
        unfold back
        show Permuter.get _ 14 ≠ 0
        rw [Permuter.exchange_get _ _ _ 14 (by omega), if_neg (by omega), if_pos rfl,
          Permuter.setSize_get perm s (by omega) _ (by omega)]
        intro he
        have := get_inj h.ord (i := s) (j := 14) (by omega) (by omega) (by rw [he, hz])
        omega
  unfold splitLeaf
  dsimp only
  rw [hmid]
  dsimp only
  rw [hmove]
  by_cases c : p < mid
  · -- the new key goes left
    have hsz : size perm - size (Permuter.makeSorted (size perm + 1 - mid)) = mid - 1 := by omega
    rw [if_neg (show ¬ p ≥ mid by omega), if_pos c, hsz]
    obtain ⟨r1, u1, s1, b1⟩ := hstrip (mid - 1) (by omega) (by omega)
    generalize (if size perm ≠ 15 then
      Permuter.exchange (Permuter.setSize perm (mid - 1)) (size (Permuter.setSize perm (mid - 1))) 14
      else Permuter.setSize perm (mid - 1)) = pl at r1 u1 s1 b1 ⊢
    simp only [Ins.Ok, Inv, height, entries, hk, true_and]
    have her : leafEntries (Permuter.makeSorted (size perm + 1 - mid)) (freshSlots (L.drop mid)) = L.drop mid := by
      apply entries_range
      rw [(Props.C07.makeSorted_spec _ (by omega)).1, hRl]
    have hbl : back pl < 15 := get_lt r1 14 (by omega)
    have hbu : back pl ∉ used pl := not_mem_used r1 (i := 14) (by omega) (by omega)
    have hel0 : leafEntries pl slots = E.take (mid - 1) := by
      unfold leafEntries; rw [u1, map_take_used, hE]
    have hbound : ∀ b, lo = some b → (slotAt (slots.set (back pl) new) 0).ikey = b := by
      intro b hb
      rw [slotAt_set_ne _ (b1 (by omega) b hb)]
      exact h.bound b hb
    have hdrop : L.drop mid = E.drop (mid - 1) := by rw [← hL, drop_insertIdx_lt _ _ _ _ c]
    have htake : L.take mid = (E.take (mid - 1)).insertIdx p new := by
      rw [← hL, take_insertIdx_le _ _ _ _ c (by omega)]
    have hright' := hright _ _ hmr her (List.Sublist.refl _)
    cases commit with
    | true =>
      have hel : leafEntries (Permuter.insertFromBack pl p).1 (slots.set (back pl) new) = L.take mid := by
        rw [leafEntries_insert r1 h.len (by omega) (by omega), hel0, htake]
      simp only [finishPerm, if_true]
      refine ⟨?_, hright', hklo, hkhi, ?_⟩
      · exact hleft _ _ _ (.insert p r1 (by omega) (by omega)) (by simp [h.len]) hel (List.Sublist.refl _) hbound
      · rw [hel, her, List.take_append_drop]
    | false =>
      have hel : leafEntries pl (slots.set (back pl) new) = E.take (mid - 1) := by
        rw [leafEntries_set _ hbu, hel0]
      simp only [finishPerm, Bool.false_eq_true, if_false]
      refine ⟨?_, hright', hklo, hkhi, ?_⟩
      · refine hleft _ _ _ r1 (by simp [h.len]) hel ?_ hbound
        rw [htake]
        exact sublist_insertIdx _ _ _
      · rw [hel, her, hdrop, List.take_append_drop]
  · -- the new key goes right
    have hc : p ≥ mid := by omega
    have hrb := Permuter.removeToBack_size (Permuter.makeSorted (size perm + 1 - mid)) (p - mid) (by omega)
    rw [hms] at hrb
    have hsz : size perm - (size perm + 1 - mid - 1) = mid := by omega
    rw [if_pos hc, hrb, if_neg c, hsz]
    obtain ⟨r1, u1, s1, -⟩ := hstrip mid (by omega) (by omega)
    generalize (if size perm ≠ 15 then
      Permuter.exchange (Permuter.setSize perm mid) (size (Permuter.setSize perm mid)) 14
      else Permuter.setSize perm mid) = pl at r1 u1 s1 ⊢
    simp only [Ins.Ok, Inv, height, entries, hk, true_and, s1]
    have hrr : Reachable (Permuter.removeToBack (Permuter.makeSorted (size perm + 1 - mid)) (p - mid)) :=
      .removeToBack _ hmr (by omega)
    have hel : leafEntries pl slots = E.take mid := by
      unfold leafEntries; rw [u1, map_take_used, hE]
    have htake : L.take mid = E.take mid := by rw [← hL, take_insertIdx_ge _ _ _ _ hc]
    have hleft' := hleft pl slots _ r1 h.len hel (by rw [htake]; exact List.Sublist.refl _) h.bound
    cases commit with
    | true =>
      have her : leafEntries (Permuter.insertFromBack
          (Permuter.removeToBack (Permuter.makeSorted (size perm + 1 - mid)) (p - mid)) (p - mid)).1
          (freshSlots (L.drop mid)) = L.drop mid := by
        apply entries_range
        rw [(used_remove_insert (by omega) (by omega)).2, hRl]
      simp only [finishPerm, if_true]
      refine ⟨hleft', hright _ _ (.insert _ hrr (by omega) (by omega)) her (List.Sublist.refl _), hklo, hkhi, ?_⟩
      rw [hel, her, ← htake, List.take_append_drop]
    | false =>
      have her : leafEntries (Permuter.removeToBack (Permuter.makeSorted (size perm + 1 - mid)) (p - mid))
          (freshSlots (L.drop mid)) = E.drop mid := by
        have hz := (Props.C07.removeToBack_spec (Permuter.makeSorted (size perm + 1 - mid)) (p - mid) (by omega)).1
        have h0 : leafEntries (Permuter.makeSorted (size perm + 1 - mid)) (freshSlots (L.drop mid)) = L.drop mid := by
          apply entries_range
          rw [(Props.C07.makeSorted_spec _ (by omega)).1, hRl]
        have h1 : leafEntries (Permuter.removeToBack (Permuter.makeSorted (size perm + 1 - mid)) (p - mid))
            (freshSlots (L.drop mid)) = (L.drop mid).eraseIdx (p - mid) := by
          have h2 := congrArg (fun l => l.eraseIdx (p - mid)) h0
          simp only [leafEntries] at h2 ⊢
          rw [hz, map_eraseIdx, h2]
        rw [h1, ← hL, eraseIdx_insertIdx_drop _ _ _ _ hc (by omega)]
      simp only [finishPerm, Bool.false_eq_true, if_false]
      refine ⟨hleft', hright _ _ hrr her ?_, hklo, hkhi, ?_⟩
      · rw [← hL, drop_insertIdx_ge _ _ _ _ hc (by omega)]
        exact sublist_insertIdx _ _ _
      · rw [hel, her, List.take_append_drop]

theorem insertIdx_length_append {β : Type} (A B : List β) (a : β) :
    (A ++ B).insertIdx A.length a = A ++ a :: B := by
  induction A with
  | nil => simp
  | cons b A ih => simp [ih]

theorem ssorted_insert {x : LKey} {A B : List (Slot α)} {new : Slot α} (h : SSorted (A ++ B))
    (ha : AllBelow x A) (hb : AllAbove x B) (hk : new.key = x.key) : SSorted (A ++ new :: B) := by
  unfold SSorted at *
  rw [List.pairwise_append] at h ⊢
  obtain ⟨h1, h2, h3⟩ := h
  refine ⟨h1, ?_, ?_⟩
  · rw [List.pairwise_cons]
    exact ⟨fun s hs => by rw [hk]; exact hb s hs, h2⟩
  · intro a ha' b hb'
    rcases List.mem_cons.mp hb' with rfl | hb'
    · rw [hk]; exact ha a ha'
    · exact h3 a ha' b hb'

theorem leafInsert_spec {lo hi : Option Nat} {perm : Word} {slots : List (Slot α)} (x : LKey)
    (commit : Bool) (new : Slot α) (lm rm : Bool) (h : LeafInv lo hi perm slots)
    (hlm : lm = true ↔ lo = none) (hx : inR lo hi x.ikey) (hk : new.key = x.key)
    (habs : matching x (leafEntries perm slots) = []) :
    Ins.Ok lo hi 0 (replaceKey x (if commit then [new] else []) (leafEntries perm slots))
      (leafInsert x commit new lm rm perm slots) := by
  obtain ⟨A, B, hi1, hA, hB, hcase⟩ := leafLower_spec x h.sorted
  have hE : leafEntries perm slots = A ++ B := by
    rcases hcase with ⟨_, h1⟩ | ⟨_, h2, _, h3⟩
    · exact h1
    · rw [h3, matching_hit hA hB h2] at habs
      simp at habs
  have hike : new.ikey = x.ikey := congrArg Prod.fst hk
  have hnew : inR lo hi new.ikey := by rw [hike]; exact hx
  have hle : A.length ≤ size perm := by
    rw [← leafEntries_length perm slots, hE]; simp
  have hL : (leafEntries perm slots).insertIdx A.length new = A ++ new :: B := by
    rw [hE, insertIdx_length_append]
  have hs : SSorted ((leafEntries perm slots).insertIdx A.length new) := by
    rw [hL]
    have := h.sorted
    rw [hE] at this
    exact ssorted_insert this hA hB hk
  have hres : replaceKey x (if commit then [new] else []) (leafEntries perm slots)
      = if commit then (leafEntries perm slots).insertIdx A.length new else leafEntries perm slots := by
    rw [hL, hE, replaceKey_sep hA hB]
    cases commit <;> simp
  rw [hres]
  have hsub : ∀ s ∈ (leafEntries perm slots).insertIdx A.length new, inR lo hi s.ikey := by
    intro s hs'
    rw [hL] at hs'
    rcases List.mem_append.mp hs' with h' | h'
    · exact h.range s (by rw [hE]; simp [h'])
    · rcases List.mem_cons.mp h' with rfl | h'
      · exact hnew
      · exact h.range s (by rw [hE]; simp [h'])
  -- insertion without a split into the back slot of an equivalent permutation
  have hplain : ∀ pm : Word, Reachable pm → used pm = used perm → size pm < 15 →
      (∀ b, lo = some b → back pm ≠ 0 ∨ b = new.ikey) →
      Ins.Ok lo hi 0
        (if commit then (leafEntries perm slots).insertIdx A.length new else leafEntries perm slots)
        (.done (.leaf (finishPerm commit pm A.length) (slots.set (back pm) new))) := by
    intro pm hpm hu hsz hb
    have hE' : leafEntries pm slots = leafEntries perm slots := by unfold leafEntries; rw [hu]
    have hsz' : size pm = size perm := by
      rw [← Permuter.used_length, hu, Permuter.used_length]
    have hb15 : back pm < 15 := get_lt hpm 14 (by omega)
    have hbu : back pm ∉ used pm := not_mem_used hpm (i := 14) (by omega) (by omega)
    have hbd : ∀ b, lo = some b → (slotAt (slots.set (back pm) new) 0).ikey = b := by
      intro b hlo
      by_cases c : back pm = 0
      · rcases hb b hlo with h1 | h1
        · exact absurd c h1
        · rw [c, slotAt_set_self _ (by rw [h.len]; omega), h1]
      · rw [slotAt_set_ne _ c]; exact h.bound b hlo
    simp only [Ins.Ok, Inv, height, entries, true_and]
    cases commit with
    | true =>
      have he := leafEntries_insert hpm h.len (i := A.length) (by omega) hsz new
      rw [hE'] at he
      simp only [finishPerm, if_true]
      refine ⟨⟨.insert _ hpm (by omega) hsz, by simp [h.len], ?_, ?_, hbd⟩, he⟩
      · rw [he]; exact hs
      · rw [he]; exact hsub
    | false =>
      have he : leafEntries pm (slots.set (back pm) new) = leafEntries perm slots := by
        rw [leafEntries_set _ hbu, hE']
      simp only [finishPerm, Bool.false_eq_true, if_false]
      refine ⟨⟨hpm, by simp [h.len], ?_, ?_, hbd⟩, he⟩
      · rw [he]; exact h.sorted
      · rw [he]; exact h.range
  unfold leafInsert
  dsimp only
  rw [hi1]
  by_cases c1 : size perm < 15
  · rw [if_pos c1]
    by_cases c2 : back perm ≠ 0 ∨ lm = true ∨ (slotAt slots 0).ikey = new.ikey
    · rw [if_pos c2]
      apply hplain perm h.ord rfl c1
      intro b hb
      rcases c2 with c | c | c
      · exact .inl c
      · rw [hlm.mp c] at hb; simp at hb
      · right; rw [← c, h.bound b hb]
    · rw [if_neg c2]
      by_cases c3 : back (Permuter.exchange perm (size perm) 14) ≠ 0
      · rw [if_pos c3]
        apply hplain
        · exact .exchange _ _ h.ord c1 (by omega)
        · exact used_exchange_free c1 (by omega) (by omega) (by omega)
        · rw [Permuter.exchange_size]; exact c1
        · intro b _; exact .inl c3
      · rw [if_neg c3]
        have hb0 : Permuter.get perm 14 = 0 := by
          apply Classical.byContradiction
          intro hne
          exact c2 (.inl hne)
        have hex : Permuter.get perm (size perm) = 0 := by
          have h3 : back (Permuter.exchange perm (size perm) 14) = 0 := by
            apply Classical.byContradiction; intro hne; exact c3 hne
          unfold back at h3
          rw [Permuter.exchange_get _ _ _ _ (by decide)] at h3
          by_cases c : size perm = 14
          · rw [c]; exact hb0
          · rw [if_neg (by show ¬ 14 = size perm; omega), if_pos (by rfl)] at h3
            exact h3
        have : size perm = 14 := get_inj h.ord c1 (by omega) (by rw [hb0, hex])
        exact splitLeaf_spec h commit new lm rm _ hle (by omega) (fun _ _ => hb0) hnew hs
  · rw [if_neg c1]
    exact splitLeaf_spec h commit new lm rm _ hle (by omega) (fun h' => by omega) hnew hs

/-- Overwriting a slot in use by one with the same key. -/
theorem leafSetAt_spec {lo hi : Option Nat} {perm : Word} {slots : List (Slot α)} (x : LKey)
    (h : LeafInv lo hi perm slots) {A B : List (Slot α)} {s s' : Slot α} (hA : AllBelow x A)
    (hB : AllAbove x B) (h2 : s.key = x.key) (h3 : leafEntries perm slots = A ++ s :: B)
    (hg : s'.key = s.key) :
    Ins.Ok lo hi 0 (replaceKey x [s'] (leafEntries perm slots))
      (.done (.leaf perm (slots.set (Permuter.get perm A.length) s'))) := by
  have hle := Permuter.size_le perm
  have hlt : A.length < size perm := by
    rw [← leafEntries_length perm slots, h3]; simp
  have hs : slotAt slots (Permuter.get perm A.length) = s := by
    rw [← leafEntries_get perm slots A.length (by rw [h3]; simp)]
    simp [h3]
  have hgl : Permuter.get perm A.length < 15 := get_lt h.ord _ (by omega)
  have he : leafEntries perm (slots.set (Permuter.get perm A.length) s') = A ++ s' :: B := by
    have hset : leafEntries perm (slots.set (Permuter.get perm A.length) s')
        = (leafEntries perm slots).set A.length s' := by
      apply List.ext_getElem
      · simp [leafEntries_length]
      · intro j hj1 hj2
        rw [leafEntries_length] at hj1
        rw [leafEntries_get, List.getElem_set]
        split
        · next e => rw [← e, slotAt_set_self _ (by rw [h.len]; exact hgl)]
        · next e =>
          rw [slotAt_set_ne, leafEntries_get]
          intro e2
          exact e (get_inj h.ord (by omega) (by omega) e2)
    rw [hset, h3]
    simp
  simp only [Ins.Ok, Inv, height, entries, true_and]
  have hkey : s'.key = x.key := by rw [hg, h2]
  have hres : replaceKey x [s'] (leafEntries perm slots) = A ++ s' :: B := by
    rw [h3, replaceKey_hit hA hB h2]; simp
  rw [hres]
  have hikey : s'.ikey = s.ikey := congrArg Prod.fst hg
  have hmem : ∀ s', s' ∈ A ++ B → s' ∈ leafEntries perm slots := by
    intro s' hs'
    rw [h3]
    rcases List.mem_append.mp hs' with h' | h' <;> simp [h']
  have hmem2 : s ∈ leafEntries perm slots := by rw [h3]; simp
  refine ⟨⟨h.ord, by simp [h.len], ?_, ?_, ?_⟩, he⟩
  · rw [he]
    refine ssorted_insert ?_ hA hB hkey
    have := h.sorted
    rw [h3] at this
    exact List.Pairwise.sublist (by simp) this
  · rw [he]
    intro s' hs'
    rcases List.mem_append.mp hs' with h' | h'
    · exact h.range _ (hmem _ (by simp [h']))
    · rcases List.mem_cons.mp h' with rfl | h'
      · rw [hikey]; exact h.range _ hmem2
      · exact h.range _ (hmem _ (by simp [h']))
  · intro b hb
    by_cases c : Permuter.get perm A.length = 0
    · rw [c] at hs ⊢
      rw [slotAt_set_self _ (by rw [h.len]; omega), hikey, ← hs]
      exact h.bound b hb
    · rw [slotAt_set_ne _ c]; exact h.bound b hb

theorem leafModify_spec {lo hi : Option Nat} {perm : Word} {slots : List (Slot α)} (x : LKey)
    (g : Slot α → Slot α) (lm rm : Bool) (h : LeafInv lo hi perm slots) (s : Slot α)
    (hm : matching x (leafEntries perm slots) = [s]) (hg : (g s).key = s.key) :
    Ins.Ok lo hi 0 (replaceKey x [g s] (leafEntries perm slots)) (leafModify x g lm rm perm slots) := by
  obtain ⟨A, B, hi1, hA, hB, hcase⟩ := leafLower_spec x h.sorted
  rcases hcase with ⟨_, h1⟩ | ⟨hp, h2, hlt, h3⟩
  · rw [h1, matching_sep hA hB] at hm; simp at hm
  · have hs : slotAt slots (Permuter.get perm A.length) = s := by
      rw [h3, matching_hit hA hB h2] at hm; simpa using hm
    rw [hs] at h2 h3
    unfold leafModify
    rw [hp]
    dsimp only
    rw [hs]
    exact leafSetAt_spec x h hA hB h2 h3 hg

theorem leafRemoveAt_spec {lo hi : Option Nat} {perm : Word} {slots : List (Slot α)} (x : LKey)
    (lm rm : Bool) (h : LeafInv lo hi perm slots) (hlm : lm = true ↔ lo = none) (isRoot : Bool)
    (hroot : isRoot = true → lo = none) {A B : List (Slot α)} {s : Slot α} (hA : AllBelow x A)
    (hB : AllAbove x B) (hk : s.key = x.key) (hE : leafEntries perm slots = A ++ s :: B) :
    Rem.Ok lo hi 0 isRoot (replaceKey x [] (leafEntries perm slots))
      (leafRemoveAt A.length lm rm perm slots) := by
  have hsz : size perm = A.length + B.length + 1 := by
    rw [← leafEntries_length perm slots, hE]; simp; omega
  have hAl : A.length < size perm := by omega
  obtain ⟨hu, _, _⟩ := Props.C07.remove_spec perm A.length hAl
  have hrs := Permuter.remove_size perm A.length hAl
  have he : leafEntries (Permuter.remove perm A.length) slots = A ++ B := by
    unfold leafEntries
    rw [hu, map_eraseIdx]
    have : List.map (slotAt slots) (used perm) = A ++ s :: B := hE
    rw [this, List.eraseIdx_append_of_length_le (by omega)]
    simp
  have hres : replaceKey x [] (leafEntries perm slots) = A ++ B := by
    rw [hE, replaceKey_hit hA hB hk]; simp
  rw [hres]
  have hinv : LeafInv lo hi (Permuter.remove perm A.length) slots := by
    have hsub : (A ++ B).Sublist (leafEntries perm slots) := by rw [hE]; simp
    refine ⟨.remove _ h.ord hAl, h.len, ?_, ?_, h.bound⟩
    · rw [he]; exact List.Pairwise.sublist hsub h.sorted
    · rw [he]; intro s hs; exact h.range s (hsub.subset hs)
  unfold leafRemoveAt
  dsimp only
  by_cases c : size (Permuter.remove perm A.length) ≠ 0
  · rw [if_pos c]
    simp only [Rem.Ok, Inv, height, entries]
    exact ⟨hinv, by omega, he⟩
  · rw [if_neg c]
    by_cases c2 : lm = true
    · rw [if_pos c2]
      simp only [Rem.Ok, Inv, height, entries]
      exact ⟨hinv, by omega, he⟩
    · rw [if_neg c2]
      have hlo : lo ≠ none := fun h' => c2 (hlm.mpr h')
      have hz : size (Permuter.remove perm A.length) = 0 := by
        apply Classical.byContradiction; exact c
      have hnil : A ++ B = [] := by
        have : (A ++ B).length = 0 := by rw [List.length_append]; omega
        exact List.length_eq_zero_iff.mp this
      simp only [Rem.Ok]
      refine ⟨?_, ?_, .inl ⟨trivial, hlo, hnil⟩⟩
      · cases isRoot with
        | false => rfl
        | true => exact absurd (hroot rfl) hlo
      · -- the bound lies in the interval because a key of the leaf does
        cases hlo' : lo with
        | none => exact absurd hlo' hlo
        | some b =>
          rw [h.bound b hlo']
          have hr := h.range s (by rw [hE]; simp)
          rw [hlo'] at hr
          exact ⟨by simp, hr.2.mono hr.1⟩

theorem leafRemove_spec {lo hi : Option Nat} {perm : Word} {slots : List (Slot α)} (x : LKey)
    (lm rm : Bool) (h : LeafInv lo hi perm slots) (hlm : lm = true ↔ lo = none) (isRoot : Bool)
    (hroot : isRoot = true → lo = none) (s : Slot α)
    (hm : matching x (leafEntries perm slots) = [s]) :
    Rem.Ok lo hi 0 isRoot (replaceKey x [] (leafEntries perm slots)) (leafRemove x lm rm perm slots) := by
  obtain ⟨A, B, hi1, hA, hB, hcase⟩ := leafLower_spec x h.sorted
  rcases hcase with ⟨_, h1⟩ | ⟨hp, h2, hlt, h3⟩
  · rw [h1, matching_sep hA hB] at hm; simp at hm
  · unfold leafRemove
    have e : leafLower x perm slots = (A.length, some (Permuter.get perm A.length)) := Prod.ext hi1 hp
    rw [e]
    exact leafRemoveAt_spec x lm rm h hlm isRoot hroot hA hB h2 h3

end Verif.Tree
