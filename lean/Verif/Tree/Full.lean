import Verif.Tree.Layer

/-!
Leaves do not stay empty: a leaf other than the leftmost one of its layer is unlinked when it loses its last key, and
a split leaves keys on both sides.
-/
namespace Verif.Tree
open Verif.Permuter (Word size back)
variable {α : Type}

mutual
/-- Every leaf below holds a key, except perhaps the leftmost one if `lm`. -/
def Full (lm : Bool) : Node α → Prop
  | .null => True
  | .leaf perm _ => lm = true ∨ size perm ≠ 0
  | .inode _ _ kids => FullL lm kids
def FullL (lm : Bool) : List (Node α) → Prop
  | [] => True
  | c :: cs => Full lm c ∧ FullL false cs
end

theorem Full.weaken {n : Node α} : ∀ {lm : Bool}, Full false n → Full lm n := by
  induction n using Node.ind with
  | h0 => intro lm h; trivial
  | h1 p s =>
    intro lm h
    simp only [Full, Bool.false_eq_true, false_or] at h ⊢
    exact .inr h
  | h2 ht keys kids ih =>
    intro lm h
    simp only [Full] at h ⊢
    cases kids with
    | nil => trivial
    | cons c cs => exact ⟨ih c (by simp) h.1, h.2⟩

theorem FullL.weaken {l : List (Node α)} {lm : Bool} (h : FullL false l) : FullL lm l := by
  cases l with
  | nil => trivial
  | cons c cs => exact ⟨h.1.weaken, h.2⟩

theorem fullL_append {lm : Bool} {a b : List (Node α)} :
    FullL lm (a ++ b) ↔ FullL lm a ∧ FullL (lm && a.length == 0) b := by
  induction a generalizing lm with
  | nil => simp [FullL]
  | cons c cs ih =>
    simp only [List.cons_append, FullL, ih, Bool.false_and, List.length_cons]
    rw [show (cs.length + 1 == 0) = false by simp, Bool.and_false]
    exact and_assoc.symm

theorem FullL.take {l : List (Node α)} {lm : Bool} (h : FullL lm l) (n : Nat) : FullL lm (l.take n) := by
  rw [← List.take_append_drop n l, fullL_append] at h
  exact h.1

theorem FullL.drop {l : List (Node α)} {lm : Bool} (h : FullL lm l) (n : Nat) : FullL false (l.drop (n + 1)) := by
  cases l with
  | nil => trivial
  | cons c cs =>
    have h2 := h.2
    rw [← List.take_append_drop n cs, fullL_append] at h2
    simpa using h2.2

/-! ### Leaves -/

theorem adjustLoop_bounds {ik : Nat → Nat} {width m r : Nat} : ∀ (fuel : Nat) (midl : Int) (midr : Nat),
    midl < width → 0 < midr → adjustLoop ik width m fuel midl midr = some r → 1 ≤ r ∧ r ≤ width := by
  intro fuel
  induction fuel with
  | zero => intro midl midr _ _ h; simp [adjustLoop] at h
  | succ fuel ih =>
    intro midl midr h1 h2 h
    unfold adjustLoop at h
    split at h
    · next c => simp only [Option.some.injEq] at h; omega
    · split at h
      · next c => simp only [Option.some.injEq] at h; omega
      · exact ih _ _ (by omega) (by omega) h

theorem splitPoint_bounds {lm rm : Bool} {width p mid : Nat} {ik : Nat → Nat} (hw : 14 ≤ width)
    (h : splitPoint lm rm width p ik = some mid) : 1 ≤ mid ∧ mid ≤ width := by
  unfold splitPoint at h
  dsimp only at h
  have hm : 1 ≤ (if p = 0 ∧ lm then 1 else if p = width ∧ rm then width else 15 / 2 + 1) ∧
      (if p = 0 ∧ lm then 1 else if p = width ∧ rm then width else 15 / 2 + 1) ≤ width := by
    split
    · omega
    · split <;> omega
  generalize (if p = 0 ∧ lm then 1 else if p = width ∧ rm then width else 15 / 2 + 1) = m0 at h hm
  split at h
  · exact adjustLoop_bounds _ _ _ (by omega) (by omega) h
  · simp only [Option.some.injEq] at h; omega

/-- Fullness of the outcome of an insertion. -/
def FullIns (lm : Bool) : Ins α → Prop
  | .fail => True
  | .done n => Full lm n
  | .split _ _ l _ r => Full lm l ∧ Full false r

/-- Fullness of the outcome of a removal. -/
def FullRem (lm : Bool) : Rem α → Prop
  | .fail => True
  | .stop n _ _ => Full lm n
  | .up _ n => Full lm n

theorem finish_size {perm : Word} {i : Nat} (hi : i ≤ size perm) (hs : size perm < 15) :
    size (finishPerm true perm i) = size perm + 1 := by
  unfold finishPerm
  rw [if_pos rfl]
  exact Permuter.insert_size perm i (by omega) hs

theorem splitLeaf_full {perm : Word} {slots : List (Slot α)} (new : Slot α) (lm rm : Bool) {p : Nat}
    (hp : p ≤ size perm) (hw : 14 ≤ size perm) : FullIns lm (splitLeaf true new lm rm p perm slots) := by
  have h15 := Permuter.size_le perm
  unfold splitLeaf
  dsimp only
  split
  · trivial
  · next mid hmid =>
    obtain ⟨h1, h2⟩ := splitPoint_bounds hw hmid
    have hms := Permuter.makeSorted_size (size perm + 1 - mid) (by omega)
    by_cases c : p < mid
    · simp only [ge_iff_le, if_pos c, if_neg (by omega : ¬ mid ≤ p), FullIns, Full]
      rw [hms]
      refine ⟨.inr ?_, .inr (by omega)⟩
      have e : size (if size perm ≠ 15 then Permuter.exchange (Permuter.setSize perm (size perm - (size perm + 1 - mid)))
          (size (Permuter.setSize perm (size perm - (size perm + 1 - mid)))) 14
          else Permuter.setSize perm (size perm - (size perm + 1 - mid))) = mid - 1 := by
        have e0 := Permuter.setSize_size perm (size perm - (size perm + 1 - mid)) (by omega)
        split
        · rw [Permuter.exchange_size, e0]; omega
        · rw [e0]; omega
      rw [finish_size (by rw [e]; omega) (by rw [e]; omega)]
      omega
    · simp only [ge_iff_le, if_neg c, if_pos (by omega : mid ≤ p), FullIns, Full]
      have hrs := Permuter.removeToBack_size (Permuter.makeSorted (size perm + 1 - mid)) (p - mid) (by rw [hms]; omega)
      rw [hrs, hms]
      have e : size (if size perm ≠ 15 then Permuter.exchange (Permuter.setSize perm (size perm - (size perm + 1 - mid - 1)))
          (size (Permuter.setSize perm (size perm - (size perm + 1 - mid - 1)))) 14
          else Permuter.setSize perm (size perm - (size perm + 1 - mid - 1))) = mid := by
        have e0 := Permuter.setSize_size perm (size perm - (size perm + 1 - mid - 1)) (by omega)
        split
        · rw [Permuter.exchange_size, e0]; omega
        · rw [e0]; omega
      rw [e]
      refine ⟨.inr (by omega), .inr ?_⟩
      rw [finish_size (by rw [hrs, hms]; omega) (by rw [hrs, hms]; omega)]
      omega

theorem leafInsert_full {lo hi : Option Nat} {perm : Word} {slots : List (Slot α)} (x : LKey) (new : Slot α) (lm rm : Bool)
    (h : LeafInv lo hi perm slots) : FullIns lm (leafInsert x true new lm rm perm slots) := by
  obtain ⟨A, B, hi1, hA, hB, hcase⟩ := leafLower_spec x h.sorted
  have hlen := leafEntries_length perm slots
  have h15 := Permuter.size_le perm
  have hle : (leafLower x perm slots).1 ≤ size perm := by
    rw [hi1]
    rcases hcase with ⟨_, h1⟩ | ⟨_, _, _, h3⟩
    · rw [h1] at hlen; simp at hlen; omega
    · rw [h3] at hlen; simp at hlen; omega
  unfold leafInsert
  dsimp only
  by_cases c : size perm < 15
  · rw [if_pos c]
    by_cases c2 : back perm ≠ 0 ∨ lm = true ∨ (slotAt slots 0).ikey = new.ikey
    · rw [if_pos c2]
      simp only [FullIns, Full]
      rw [finish_size hle c]
      exact .inr (by omega)
    · rw [if_neg c2]
      by_cases c3 : back (Permuter.exchange perm (size perm) 14) ≠ 0
      · rw [if_pos c3]
        simp only [FullIns, Full]
        rw [finish_size (by rw [Permuter.exchange_size]; exact hle) (by rw [Permuter.exchange_size]; exact c)]
        exact .inr (by omega)
      · rw [if_neg c3]
        apply splitLeaf_full _ _ _ hle
        -- only position 14 can be free
        apply Classical.byContradiction
        intro hlt
        have e1 : back perm = 0 := by
          apply Classical.byContradiction; intro h0; exact c2 (.inl h0)
        have e2 : back (Permuter.exchange perm (size perm) 14) = 0 := by
          apply Classical.byContradiction; intro h0; exact c3 h0
        unfold back at e1 e2
        change Permuter.get perm 14 = 0 at e1
        change Permuter.get _ 14 = 0 at e2
        rw [Permuter.exchange_get _ _ _ 14 (by omega), if_neg (by omega), if_pos rfl] at e2
        have := get_inj h.ord (i := size perm) (j := 14) (by omega) (by omega) (by rw [e2, e1])
        omega
  · rw [if_neg c]
    exact splitLeaf_full _ _ _ hle (by omega)

theorem leafModify_full (x : LKey) (g : Slot α → Slot α) (lm rm : Bool) {perm : Word} {slots : List (Slot α)}
    (h : Full lm (.leaf perm slots : Node α)) : FullIns lm (leafModify x g lm rm perm slots) := by
  unfold leafModify
  split
  · trivial
  · exact h

theorem leafRemoveAt_full (i : Nat) (lm rm : Bool) (perm : Word) (slots : List (Slot α)) :
    FullRem lm (leafRemoveAt i lm rm perm slots) := by
  unfold leafRemoveAt
  dsimp only
  split
  · next c => exact .inr c
  · split
    · next c => exact .inl c
    · trivial

theorem leafRemove_full (x : LKey) (lm rm : Bool) (perm : Word) (slots : List (Slot α)) :
    FullRem lm (leafRemove x lm rm perm slots) := by
  unfold leafRemove
  split
  · exact leafRemoveAt_full _ _ _ _ _
  · trivial

/-! ### Layers -/

theorem upd_full (x : LKey) (M ls : List (Slot α)) (f : Bool → Bool → Word → List (Slot α) → Ins α)
    (hf : ∀ lo hi lm rm perm slots, LeafInv lo hi perm slots → (lm = true ↔ lo = none) →
      inR lo hi x.ikey → matching x (leafEntries perm slots) = M →
      Ins.Ok lo hi 0 (replaceKey x ls (leafEntries perm slots)) (f lm rm perm slots))
    (hF : ∀ lo hi lm rm perm slots, LeafInv lo hi perm slots → Full lm (.leaf perm slots : Node α) →
      FullIns lm (f lm rm perm slots))
    (n : Node α) : ∀ (lo hi : Option Nat) (lm rm : Bool), Inv lo hi n → (lm = true ↔ lo = none) →
      inR lo hi x.ikey → matching x (entries n) = M → Full lm n → FullIns lm (upd f x.ikey lm rm n) := by
  induction n using Node.ind with
  | h0 => intro lo hi lm rm h; simp [Inv] at h
  | h1 perm slots =>
    intro lo hi lm rm h hlm hx hm hfull
    simp only [upd]
    exact hF lo hi lm rm perm slots h hfull
  | h2 ht keys kids ih =>
    intro lo hi lm rm h hlm hx hm hfull
    simp only [Inv] at h
    obtain ⟨K1, K2, C1, c, C2, lo', b', fo⟩ := h.2.focus hx
    have hc : c ∈ kids := by rw [fo.kids_eq]; simp
    have hup := fo.upper fo.inR
    simp only [entries] at hm
    rw [fo.entries_eq, matching_ctx (fo.allBelow rfl) (fo.allAbove rfl)] at hm
    have hlm' : (lm && K1.length == 0) = true ↔ lo' = none := by rw [fo.lo_none, ← hlm]; simp [and_comm]
    have hok := upd_spec x M ls f hf c lo' _ (lm && K1.length == 0) (rm && K1.length == keys.length) fo.inv hlm' fo.inR hm
    simp only [Full] at hfull
    rw [fo.kids_eq, fullL_append] at hfull
    obtain ⟨f1, f2, f3⟩ := hfull
    rw [← fo.len] at f2
    have hcf := ih c hc lo' _ (lm && K1.length == 0) (rm && K1.length == keys.length) fo.inv hlm' fo.inR hm f2
    simp only [upd]
    rw [updNth_eq, hup, fo.nth]
    simp only [Option.elim]
    generalize upd f x.ikey (lm && K1.length == 0) (rm && K1.length == keys.length) c = res at hok hcf
    have hkl : keys.length ≤ 15 := h.1
    have hlenC := h.2.length
    cases res with
    | fail => trivial
    | done c' =>
      simp only [FullIns, Full] at hcf ⊢
      rw [fo.set, fullL_append, ← fo.len]
      exact ⟨f1, hcf, f3⟩
    | split h' st l k r =>
      simp only [Ins.Ok] at hok
      obtain ⟨h0, h1, h2, h3, h4, h5, h6, h7⟩ := hok
      have hk : inR lo' (nextHi K2 hi) k := ⟨h5.le, h6⟩
      have hupk := fo.upper hk
      simp only []
      unfold parentInsert
      dsimp only
      rw [hupk, fo.set]
      have hall : FullL lm (C1 ++ l :: r :: C2) := by
        rw [fullL_append, ← fo.len]; exact ⟨f1, hcf.1, hcf.2, f3⟩
      have hins2 : (C1 ++ l :: C2).insertIdx (K1.length + 1) r = C1 ++ l :: r :: C2 := by
        have := insertIdx_length_append (C1 ++ [l]) C2 r
        rw [List.length_append, ← fo.len] at this
        simpa using this
      by_cases c1 : ht > h' + 1
      · rw [if_pos c1]
        have e : (C1 ++ l :: C2).set K1.length (.inode (h' + 1) [k] [l, r])
            = C1 ++ .inode (h' + 1) [k] [l, r] :: C2 := by rw [fo.len]; simp
        rw [e]
        simp only [FullIns, Full]
        rw [fullL_append, ← fo.len]
        exact ⟨f1, by simp only [Full]; exact ⟨hcf.1, hcf.2, trivial⟩, f3⟩
      · rw [if_neg c1]
        by_cases c2 : keys.length ≥ 15
        · rw [if_pos c2]
          have hK1 : K1.length ≤ 15 := by
            have := congrArg List.length fo.keys_eq; simp at this; omega
          have hCl : (C1 ++ l :: C2).length = 16 := by
            have := congrArg List.length fo.kids_eq; simp at this ⊢; omega
          obtain ⟨m, hm0, hm1, hs⟩ := splitInode_eq st (ka := k) r (by omega : keys.length = 15) hCl hK1
          rw [hs]
          simp only [FullIns, Full]
          rw [hins2]
          exact ⟨hall.take _, hall.drop _⟩
        · rw [if_neg c2]
          rw [hins2]
          exact hall

theorem parentRemove_full {lm isRoot : Bool} {ht : Nat} {keys : List Nat} {C1 C2 : List (Node α)} {c : Node α} {ik : Nat}
    {repl : Node α} (hk : inodeUpper keys ik = C1.length) (f1 : FullL lm C1) (f2 : Full (lm && C1.length == 0) repl)
    (f3 : FullL false C2) : FullRem lm (parentRemove isRoot ht keys (C1 ++ c :: C2) ik repl) := by
  unfold parentRemove
  dsimp only
  rw [hk]
  have e : (C1 ++ c :: C2).set C1.length repl = C1 ++ repl :: C2 := by simp
  rw [e]
  have hfull : FullL lm (if (repl.isNull && decide (C1.length > 0)) = true then (C1 ++ repl :: C2).eraseIdx C1.length
      else C1 ++ repl :: C2) := by
    split
    · next hc =>
      have : 0 < C1.length := by
        simp only [Bool.and_eq_true, decide_eq_true_eq] at hc; exact hc.2
      rw [List.eraseIdx_append_of_length_le (Nat.le_refl _), Nat.sub_self, List.eraseIdx_cons_zero, fullL_append]
      exact ⟨f1, f3.weaken⟩
    · rw [fullL_append]; exact ⟨f1, f2, f3⟩
  generalize (if (repl.isNull && decide (C1.length > 0)) = true then (C1 ++ repl :: C2).eraseIdx C1.length
      else C1 ++ repl :: C2) = kids2 at hfull
  generalize (if (repl.isNull && decide (C1.length > 0)) = true then keys.eraseIdx (C1.length - 1) else keys) = keys2
  split
  · exact hfull
  · simp only [FullRem]
    cases kids2 with
    | nil => trivial
    | cons c0 cs => exact hfull.1

theorem rem_full (x : LKey) (M : List (Slot α)) (f : Bool → Bool → Word → List (Slot α) → Rem α)
    (hf : ∀ lo hi lm rm isRoot perm slots, LeafInv lo hi perm slots → (lm = true ↔ lo = none) →
      inR lo hi x.ikey → (isRoot = true → lo = none) → matching x (leafEntries perm slots) = M →
      Rem.Ok lo hi 0 isRoot (replaceKey x [] (leafEntries perm slots)) (f lm rm perm slots))
    (hF : ∀ lm rm perm slots, FullRem lm (f lm rm perm slots))
    (n : Node α) : ∀ (lo hi : Option Nat) (isRoot lm rm : Bool), Inv lo hi n → (lm = true ↔ lo = none) →
      inR lo hi x.ikey → (isRoot = true → lo = none) → matching x (entries n) = M → Full lm n →
      FullRem lm (rem f x.ikey isRoot lm rm n) := by
  induction n using Node.ind with
  | h0 => intro lo hi isRoot lm rm h; simp [Inv] at h
  | h1 perm slots =>
    intro lo hi isRoot lm rm h hlm hx hroot hm _
    simp only [rem]
    exact hF _ _ _ _
  | h2 ht keys kids ih =>
    intro lo hi isRoot lm rm h hlm hx hroot hm hfull
    simp only [Inv] at h
    obtain ⟨K1, K2, C1, c, C2, lo', b', fo⟩ := h.2.focus hx
    have hc : c ∈ kids := by rw [fo.kids_eq]; simp
    have hup := fo.upper fo.inR
    simp only [entries] at hm
    rw [fo.entries_eq, matching_ctx (fo.allBelow rfl) (fo.allAbove rfl)] at hm
    have hlm' : (lm && K1.length == 0) = true ↔ lo' = none := by rw [fo.lo_none, ← hlm]; simp [and_comm]
    have hok := rem_spec x M f hf c lo' _ false (lm && K1.length == 0) (rm && K1.length == keys.length) fo.inv hlm' fo.inR
      (by simp) hm
    simp only [Full] at hfull
    rw [fo.kids_eq, fullL_append] at hfull
    obtain ⟨f1, f2, f3⟩ := hfull
    rw [← fo.len] at f2
    have hcf := ih c hc lo' _ false (lm && K1.length == 0) (rm && K1.length == keys.length) fo.inv hlm' fo.inR (by simp) hm f2
    simp only [rem]
    rw [remNth_eq, hup, fo.nth]
    simp only [Option.elim]
    generalize rem f x.ikey false (lm && K1.length == 0) (rm && K1.length == keys.length) c = res at hok hcf
    have hset : ∀ c', Full (lm && K1.length == 0) c' → FullL lm (kids.set K1.length c') := by
      intro c' h'
      rw [fo.set, fullL_append, ← fo.len]; exact ⟨f1, h', f3⟩
    match res, hok, hcf with
    | .stop c' none gc, _, hcf => exact hset _ hcf
    | .stop c' (some (ik, nk)) gc, _, hcf =>
      simp only [parentRedirect, FullRem, Full]
      exact hset _ hcf
    | .up ik repl, hok, hcf =>
      simp only [Rem.Ok] at hok
      obtain ⟨_, h1, _⟩ := hok
      have hk := fo.upper h1
      rw [fo.len] at hk hcf
      simp only []
      have e := fo.kids_eq
      subst e
      exact parentRemove_full hk f1 hcf f3

/-- Fullness at the root of a layer. -/
theorem root_full {i : Ins α} (h : FullIns true i) {t : Node α} (ht : i.root = some t) : Full true t := by
  cases i with
  | fail => simp [Ins.root] at ht
  | done n => simp only [Ins.root, Option.some.injEq] at ht; exact ht ▸ h
  | split h' st l k r =>
    simp only [Ins.root, Option.some.injEq] at ht
    subst ht
    exact ⟨h.1, h.2, trivial⟩

theorem rem_root_full {i : Rem α} (h : FullRem true i) {t : Node α} {gc : Bool} (ht : i.root = some (t, gc)) : Full true t := by
  match i, h with
  | .fail, _ => simp [Rem.root] at ht
  | .stop n none g, h => simp only [Rem.root, Option.some.injEq, Prod.mk.injEq] at ht; exact ht.1 ▸ h
  | .stop n (some _) g, _ => simp [Rem.root] at ht
  | .up _ _, _ => simp [Rem.root] at ht

end Verif.Tree
