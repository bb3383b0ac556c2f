import Verif.Tree.Pivot
import Verif.Trie.Packed
import Verif.Props.C28
import Verif.Props.C42

/-!
# C34: the ranges of the checkpoint threads

With `n` checkpoint threads the table is cut at `pivot n 1`, ..., `pivot n (n - 1)`, computed from the shape of the top
layer.  Every key falls in the range of some thread, whatever the pivots are (`covered`).  The pivots of a table at rest
increase (`pivots_increasing`), and every key falls in exactly one range if none of them is the empty string
(`partition`).  They can be empty (`zero_key_twice`, `empty_leaf_twice`): the end key of a range is then taken for "no
limit" and keys are written by several threads.  For a table at rest this does no harm to recovery (`restored`).  Finding
a pivot can also follow a null pointer (`hole_crashes`, `defined_without_holes`).
-/
namespace Verif.Props.C34
open Verif.Key (Bytes LexLt)
open Verif.Tree (Node pivot findpv)
open Verif.Trie
variable {V : Type}

/-- The start and end key of checkpoint thread `i`, /repo/mtd.cc:1661-1663. -/
def range (pv : Nat → Bytes) (n i : Nat) : Bytes × Bytes := (pv i, if i = n - 1 then [] else pv (i + 1))

/-- Thread `i` visits key `k`: its scan starts at its start key, and `visit_value` stops at the end key if that is not
empty (see C28). -/
def Visits (pv : Nat → Bytes) (n i : Nat) (k : Bytes) : Prop :=
  ¬ LexLt k (range pv n i).1 ∧ ((range pv n i).2 = [] ∨ LexLt k (range pv n i).2)

/-- Whatever the pivots are, as long as the first is the empty string, every key belongs to some thread. -/
theorem covered {pv : Nat → Bytes} {n : Nat} (hn : 0 < n) (h0 : pv 0 = []) (k : Bytes) : ∃ i, i < n ∧ Visits pv n i k := by
  -- the last thread whose start key is not after `k`
  have key : ∀ m, m < n → (∀ j, m < j → j < n → LexLt k (pv j)) → ∃ i, i < n ∧ Visits pv n i k := by
    intro m
    induction m with
    | zero =>
      intro hm hj
      refine ⟨0, hn, by simp [range, h0], ?_⟩
      unfold range
      dsimp only
      split
      · exact .inl rfl
      · exact .inr (hj 1 (by omega) (by omega))
    | succ m ih =>
      intro hm hj
      by_cases c : LexLt k (pv (m + 1))
      · refine ih (by omega) ?_
        intro j h1 h2
        by_cases e : j = m + 1
        · exact e ▸ c
        · exact hj j (by omega) h2
      · refine ⟨m + 1, hm, c, ?_⟩
        unfold range
        dsimp only
        split
        · exact .inl rfl
        · exact .inr (hj (m + 2) (by omega) (by omega))
  exact key (n - 1) (by omega) (fun j h1 h2 => by omega)

/-- No key belongs to two threads if the pivots do not decrease and are not empty. -/
theorem disjoint {pv : Nat → Bytes} {n : Nat} (hmono : ∀ i j, i ≤ j → j < n → ¬ LexLt (pv j) (pv i))
    (hne : ∀ i, 0 < i → i < n → pv i ≠ []) {k : Bytes} {i j : Nat} (hi : i < n) (hj : j < n) (h1 : Visits pv n i k)
    (h2 : Visits pv n j k) : i = j := by
  have key : ∀ i j, i < j → j < n → Visits pv n i k → Visits pv n j k → False := by
    intro i j hij hj h1 h2
    have he : (range pv n i).2 = pv (i + 1) := by unfold range; dsimp only; rw [if_neg (by omega)]
    rcases h1.2 with h | h
    · rw [he] at h; exact hne _ (by omega) (by omega) h
    · rw [he] at h
      have h3 := h2.1
      have h4 := hmono (i + 1) j (by omega) hj
      simp only [range] at h3
      rcases Key.lexLt_trichotomy (pv (i + 1)) (pv j) with c | c | c
      · exact h3 (Key.lexLt_trans h c)
      · exact h3 (c ▸ h)
      · exact h4 c
  rcases Nat.lt_trichotomy i j with c | c | c
  · exact (key i j c hj h1 h2).elim
  · exact c
  · exact (key j i c hi h2 h1).elim

/-- The pivots computed on a table at rest do not decrease, whatever operations produced the table. -/
theorem pivots_increasing {ops : List (Op V)} (h : ∀ o ∈ ops, o.Valid ∧ o.Committed) {outs : List (Option Bool)} {t : T V}
    (hr : run ops empty = some (outs, t)) {n i j : Nat} (hij : i ≤ j) {a b : Bytes} (ha : pivot n i t = some a)
    (hb : pivot n j t = some b) : ¬ LexLt b a := by
  have hp := run_packed ops empty h ⟨_, empty_repr⟩ empty_packed outs t hr
  have hw : WF t := Reachable.wf ⟨ops, fun o ho => (h o ho).1, outs, hr⟩
  unfold pivot at ha hb
  by_cases c : i = 0
  · rw [if_pos c] at ha
    cases ha
    simp
  · rw [if_neg c] at ha
    rw [if_neg (by omega)] at hb
    obtain ⟨u, v, h1, h2, h3, h4⟩ := Tree.findpv_mono hij t none top true 1 0 a b hw.inv (fun _ => rfl) hp.full ha hb
    subst h1; subst h2
    refine Tree.pvBytes_mono h3 ?_
    rcases h4 with h4 | h4
    · rw [h4]; decide
    · exact h4

/-- On a table at rest every key is visited by exactly one thread, unless a pivot is empty. -/
theorem partition {ops : List (Op V)} (h : ∀ o ∈ ops, o.Valid ∧ o.Committed) {outs : List (Option Bool)} {t : T V}
    (hr : run ops empty = some (outs, t)) {n : Nat} (hn : 0 < n) {pv : Nat → Bytes} (hpv : ∀ i, i < n → pivot n i t = some (pv i))
    (hne : ∀ i, 0 < i → i < n → pv i ≠ []) (k : Bytes) :
    ∃ i, (i < n ∧ Visits pv n i k) ∧ ∀ j, j < n ∧ Visits pv n j k → j = i := by
  obtain ⟨i, h1, h2⟩ := covered hn (by have := hpv 0 hn; simp only [pivot, if_true, Option.some.injEq] at this; exact this.symm) k
  refine ⟨i, ⟨h1, h2⟩, fun j hj => ?_⟩
  exact disjoint (fun i j hij hj => pivots_increasing h hr hij (hpv i (by omega)) (hpv j hj)) hne hj.1 h1 hj.2 h2

/-! ### When a pivot is empty -/

theorem pvBytes_nil {v : Nat} (h : v < 2 ^ 64) (e : Tree.pvBytes v = []) : v = 0 := by
  refine Decidable.byContradiction fun h0 => Tree.pvBytes_ne h h0 e

theorem leaves_entries {α : Type} (n : Node α) : (C42.leaves n).flatten = Tree.entries n := by
  induction n using Tree.Node.ind with
  | h0 => rfl
  | h1 p s => simp [C42.leaves, Tree.entries]
  | h2 ht keys kids ih =>
    simp only [C42.leaves, Tree.entries]
    induction kids with
    | nil => rfl
    | cons c cs ihc =>
      simp only [C42.leavesL, Tree.entriesL, List.flatten_append]
      rw [ih c (by simp), ihc (fun d hd => ih d (by simp [hd]))]

theorem first_leaf {α : Type} (n : Node α) : ∀ hi, Tree.Inv none hi n → C42.leaves n ≠ [] := by
  induction n using Tree.Node.ind with
  | h0 => intro hi h; simp [Tree.Inv] at h
  | h1 p s => intro hi _; simp [C42.leaves]
  | h2 ht keys kids ih =>
    intro hi h
    simp only [Tree.Inv] at h
    cases kids with
    | nil => cases keys <;> simp [Tree.Chain] at h
    | cons c cs =>
      have hc : ∃ hi', Tree.Inv none hi' c := by
        cases keys with
        | nil =>
          cases cs with
          | nil => exact ⟨_, h.2.1⟩
          | cons => simp [Tree.Chain] at h
        | cons k ks =>
          simp only [Tree.Chain] at h
          rcases h.2.1 with ⟨_, _, h1⟩ | ⟨h1, _⟩
          · cases h1
          · exact ⟨_, h1⟩
      obtain ⟨hi', hc⟩ := hc
      have := ih c (by simp) hi' hc
      simp only [C42.leaves, C42.leavesL]
      simp [this]

theorem head_leaf {α : Type} {ht : Nat} {keys : List Nat} {c : Node α} {cs : List (Node α)} {l : List (Tree.Slot α)}
    (h : (C42.leaves c).head? = some l) : (C42.leaves (.inode ht keys (c :: cs))).head? = some l := by
  simp only [C42.leaves, C42.leavesL]
  rw [List.head?_append, h]
  rfl

theorem findpv_nil {α : Type} {pvi npv : Nat} (n : Node α) : ∀ (lo hi : Option Nat) (lm : Bool) (nb bi : Nat),
    Tree.Inv lo hi n → (lm = true → lo = none) → (∀ h, hi = some h → h ≤ 2 ^ 64) → hi ≠ none → Tree.Full lm n →
    findpv pvi npv nb bi n = some [] →
    (∃ s ∈ Tree.entries n, s.ikey = 0) ∨ (lo = none ∧ (C42.leaves n).head? = some []) ∨ lo = some 0 := by
  induction n using Tree.Node.ind with
  | h0 => intro lo hi lm nb bi h; simp [Tree.Inv] at h
  | h1 perm slots =>
    intro lo hi lm nb bi h hlm hhi hhi' hfull hf
    simp only [Tree.Inv] at h
    simp only [findpv] at hf
    have hlen := Tree.leafEntries_length perm slots
    by_cases c : Permuter.size perm = 0
    · rcases hfull with hl | hl
      · refine .inr (.inl ⟨hlm hl, ?_⟩)
        simp only [C42.leaves, List.head?_cons, Option.some.injEq]
        exact List.length_eq_zero_iff.mp (by omega)
      · exact absurd c hl
    · rw [if_neg c] at hf
      simp only [Option.some.injEq] at hf
      generalize ho : (min (max (Tree.pvOffset pvi npv nb bi (Permuter.size perm)) 0) ((Permuter.size perm : Int) - 1)).toNat = o at hf
      have hlt : o < (Tree.leafEntries perm slots).length := by omega
      have hm := (h.range _ (List.getElem_mem hlt)).2
      rw [Tree.leafEntries_get perm slots o hlt] at hm
      refine .inl ⟨_, List.getElem_mem hlt, ?_⟩
      rw [Tree.leafEntries_get perm slots o hlt]
      refine pvBytes_nil ?_ hf
      cases hi with
      | none => exact absurd rfl hhi'
      | some b => have := hhi b rfl; simp only [Tree.ltHi_some] at hm; omega
  | h2 ht keys kids ih =>
    intro lo hi lm nb bi h hlm hhi hhi' hfull hf
    simp only [Tree.Inv] at h
    simp only [Tree.Full] at hfull
    simp only [findpv] at hf
    have hks := h.2.keys_sorted
    have hlenC := h.2.length
    have hbound : ∀ k ∈ keys, k < 2 ^ 64 := by
      intro k hk
      have h1 := (hks.2.1 k hk).1
      cases hi with
      | none => exact absurd rfl hhi'
      | some b => have := hhi b rfl; simp only [Tree.ltHi_some] at h1; omega
    -- a separator 0 means that the leftmost leaf is empty
    have hsep : 0 ∈ keys → (lo = none ∧ (C42.leaves (.inode ht keys kids)).head? = some []) ∨ lo = some 0 := by
      intro hk
      cases keys with
      | nil => simp at hk
      | cons k ks =>
        have hk0 : k = 0 := by
          rcases List.mem_cons.mp hk with e | e
          · exact e.symm
          · have := (List.pairwise_cons.mp hks.1).1 0 e; omega
        subst hk0
        cases kids with
        | nil => simp at hlenC
        | cons c cs =>
          have hch := h.2
          simp only [Tree.Chain] at hch
          rcases hch.1 with ⟨_, _, h1⟩ | ⟨h1, _, h3⟩
          · exact .inr h1
          · have hlo : lo = none := by
              cases lo with
              | none => rfl
              | some b => simp at h3
            subst hlo
            refine .inl ⟨rfl, ?_⟩
            have hnil : Tree.entries c = [] := by
              rw [List.eq_nil_iff_forall_not_mem]
              intro s hs
              have := (h1.sorted_range.2 s hs).2
              simp at this
            have hfirst := first_leaf c _ h1
            have hfl := leaves_entries c
            apply head_leaf
            cases hl : C42.leaves c with
            | nil => exact absurd hl hfirst
            | cons a as =>
              rw [hl, hnil, List.flatten_cons] at hfl
              simp only [List.append_eq_nil_iff] at hfl
              rw [hfl.1]; rfl
    split at hf
    · generalize ho : (min (max (Tree.pvOffset pvi npv nb bi (keys.length + 1)) 0) (((keys.length + 1 : Nat) : Int) - 1)).toNat = o at hf
      rw [Tree.findpvNth_eq] at hf
      cases hc : kids[o]? with
      | none => rw [hc] at hf; simp at hf
      | some c =>
        rw [hc] at hf
        simp only [Option.bind_some] at hf
        have hn : c ≠ .null := by rintro rfl; simp [findpv] at hf
        have hinv := h.2.nth o c hc hn
        obtain ⟨hlt, hce⟩ := List.getElem?_eq_some_iff.mp hc
        have := ih c (List.mem_of_getElem? hc) _ _ (lm && o == 0) _ _ hinv
          (by
            intro hl
            simp only [Bool.and_eq_true, beq_iff_eq] at hl
            rw [if_pos hl.2]; exact hlm hl.1)
          (by
            intro b hb
            cases hk : keys[o]? with
            | none => rw [hk, Option.none_or] at hb; exact hhi b hb
            | some k =>
              rw [hk] at hb
              simp only [Option.some_or, Option.some.injEq] at hb
              subst hb
              exact Nat.le_of_lt (hbound k (List.mem_of_getElem? hk)))
          (by
            cases hk : keys[o]? with
            | none => rw [Option.none_or]; exact hhi'
            | some k => simp)
          (Tree.fullL_nth hfull o c hc) hf
        rcases this with ⟨s, hs, h0⟩ | ⟨h1, h2⟩ | h1
        · left
          refine ⟨s, ?_, h0⟩
          simp only [Tree.entries]
          obtain ⟨A, B, e⟩ := List.append_of_mem (List.mem_of_getElem? hc)
          rw [e, Tree.entriesL_append]
          simp [Tree.entriesL, hs]
        · right; left
          by_cases ho0 : o = 0
          · rw [if_pos ho0] at h1
            subst ho0
            cases kids with
            | nil => simp at hlt
            | cons d ds =>
              simp only [List.getElem?_cons_zero, Option.some.injEq] at hc
              subst hc
              exact ⟨h1, head_leaf h2⟩
          · rw [if_neg ho0] at h1
            have := List.getElem?_eq_none_iff.mp h1
            omega
        · by_cases ho0 : o = 0
          · rw [if_pos ho0] at h1; exact .inr (.inr h1)
          · rw [if_neg ho0] at h1
            exact .inr (hsep (List.mem_of_getElem? h1))
    · split at hf
      · cases hf
      · generalize (min (max (Tree.pvOffset pvi npv nb bi (keys.length + 1)) 0) (((keys.length + 1 : Nat) : Int) - 2)).toNat = o at hf
        cases hk : keys[o]? with
        | none => rw [hk] at hf; simp at hf
        | some k =>
          rw [hk] at hf
          simp only [Option.map_some, Option.some.injEq] at hf
          have hk0 := pvBytes_nil (hbound k (List.mem_of_getElem? hk)) hf
          subst hk0
          exact .inr (hsep (List.mem_of_getElem? hk))

/-- A pivot other than the first is empty only if the leftmost leaf of the top layer is empty or the top layer has a slot
for eight zero bytes (or fewer bytes, all zero). -/
theorem empty_pivot {ops : List (Op V)} (h : ∀ o ∈ ops, o.Valid ∧ o.Committed) {outs : List (Option Bool)} {t : T V}
    (hr : run ops empty = some (outs, t)) {n i : Nat} (hi : 0 < i) (hp : pivot n i t = some []) :
    (C42.leaves t).head? = some [] ∨ ∃ s ∈ Tree.entries t, s.ikey = 0 := by
  have hpk := run_packed ops empty h ⟨_, empty_repr⟩ empty_packed outs t hr
  have hw : WF t := Reachable.wf ⟨ops, fun o ho => (h o ho).1, outs, hr⟩
  unfold pivot at hp
  rw [if_neg (by omega)] at hp
  rcases findpv_nil t none top true 1 0 hw.inv (fun _ => rfl) (fun b hb => by cases hb; exact Nat.le_refl _) (by simp [top])
    hpk.full hp with h1 | ⟨_, h1⟩ | h1
  · exact .inr h1
  · exact .inl h1
  · cases h1

/-! ### When a pivot is defined -/

mutual
/-- No internode has lost its first child. -/
def Whole {α : Type} : Node α → Prop
  | .null => False
  | .leaf _ _ => True
  | .inode _ _ kids => WholeL kids
def WholeL {α : Type} : List (Node α) → Prop
  | [] => True
  | c :: cs => Whole c ∧ WholeL cs
end

theorem findpv_defined {α : Type} {pvi npv : Nat} (n : Node α) : ∀ (lo hi : Option Nat) (nb bi : Nat),
    Tree.Inv lo hi n → Whole n → nb < npv → ∃ b, findpv pvi npv nb bi n = some b := by
  induction n using Tree.Node.ind with
  | h0 => intro lo hi nb bi h; simp [Tree.Inv] at h
  | h1 perm slots =>
    intro lo hi nb bi _ _ _
    simp only [findpv]
    split <;> exact ⟨_, rfl⟩
  | h2 ht keys kids ih =>
    intro lo hi nb bi h hwh hnb
    simp only [Tree.Inv] at h
    have hlenC := h.2.length
    simp only [findpv]
    split
    · next hlt =>
      generalize ho : (min (max (Tree.pvOffset pvi npv nb bi (keys.length + 1)) 0) (((keys.length + 1 : Nat) : Int) - 1)).toNat = o
      rw [Tree.findpvNth_eq]
      have hol : o < kids.length := by omega
      rw [List.getElem?_eq_getElem hol]
      have hmem : kids[o] ∈ kids := List.getElem_mem hol
      have hw : Whole kids[o] := by
        simp only [Whole] at hwh
        have : ∀ (l : List (Node α)), WholeL l → ∀ c ∈ l, Whole c := by
          intro l
          induction l with
          | nil => intro _ c hc; simp at hc
          | cons d ds ihd =>
            intro hl c hc
            rcases List.mem_cons.mp hc with rfl | hc
            · exact hl.1
            · exact ihd hl.2 c hc
        exact this kids hwh _ hmem
      exact ih _ hmem _ _ _ _ (h.2.nth o _ (List.getElem?_eq_getElem hol) (by intro e; rw [e] at hw; exact hw)) hw hlt
    · next hlt =>
      have hk : 0 < keys.length := by
        refine Nat.pos_of_ne_zero fun h0 => hlt ?_
        rw [h0]; omega
      rw [if_neg (by omega)]
      rw [List.getElem?_eq_getElem (by omega)]
      exact ⟨_, rfl⟩

/-- Finding a pivot follows no null pointer if no internode of the top layer has lost its first child. -/
theorem defined_without_holes {ops : List (Op V)} (h : ∀ o ∈ ops, o.Valid) {outs : List (Option Bool)} {t : T V}
    (hr : run ops empty = some (outs, t)) (hwh : Whole t) {n i : Nat} (hi : i < n) : ∃ b, pivot n i t = some b := by
  have hw : WF t := Reachable.wf ⟨ops, h, outs, hr⟩
  unfold pivot
  split
  · exact ⟨_, rfl⟩
  · exact findpv_defined t _ _ _ _ hw.inv hwh (by omega)

/-! ### The recovered table -/

theorem puts_found (k : Bytes) {W : Type} : ∀ (es : List (Bytes × W)) (m : Bytes → Option W) (a : Option W),
    (∀ e ∈ es, e.1 = k → some e.2 = a) → (m k = a ∨ ∃ e ∈ es, e.1 = k) →
    (specRun (es.map fun e => Op.put e.1 e.2) m).2 k = a
  | [], m, a, _, h => by
    rcases h with h | ⟨e, he, _⟩
    · exact h
    · simp at he
  | e :: es, m, a, hall, h => by
    simp only [List.map_cons, specRun]
    refine puts_found k es _ a (fun e' he' => hall e' (by simp [he'])) ?_
    by_cases c : e.1 = k
    · left
      simp only [specStep]
      rw [if_pos c.symm]
      exact hall e (by simp) c
    · rcases h with h | ⟨e', he', hk⟩
      · left
        simp only [specStep]
        rw [if_neg (fun h => c h.symm)]
        exact h
      · rcases List.mem_cons.mp he' with rfl | he'
        · exact absurd hk c
        · exact .inr ⟨e', he', hk⟩

/-- The part files of a table at rest restore it.  `rd i` is what is read back from the file of thread `i`, in terms of the
observable contents of rows, as given by C28.scan_round_trip.  Inserting the entries of all files into an empty table in
any order, even when pivots are empty and keys occur in several files, gives the table without its remove markers. -/
theorem restored {R A : Type} {t : T R} {m : Bytes → Option R} (hm : ∀ k, get k t = some (m k)) (ts : R → BitVec 64) (view : R → A)
    {pv : Nat → Bytes} {n : Nat} (hn : 0 < n) (h0 : pv 0 = []) (rd : Nat → List (Bytes × A))
    (hrd : ∀ i, i < n → ∀ k a, (k, a) ∈ rd i ↔
      ∃ r, get k t = some (some r) ∧ Visits pv n i k ∧ (ts r).toNat % 2 = 0 ∧ view r = a)
    (es : List (Bytes × A)) (hes : ∀ e, e ∈ es ↔ ∃ i, i < n ∧ e ∈ rd i) :
    ∃ outs t', run (es.map fun e => Op.put e.1 e.2) empty = some (outs, t') ∧
      ∀ k, get k t' = some (((m k).filter fun r => (ts r).toNat % 2 == 0).map view) := by
  obtain ⟨outs, t', h1, h2⟩ := C01.history_is_map (es.map fun e => Op.put e.1 e.2) (by
    intro o ho
    rw [List.mem_map] at ho
    obtain ⟨e, _, rfl⟩ := ho
    trivial)
  refine ⟨outs, t', h1, fun k => ?_⟩
  rw [h2]
  congr 1
  apply puts_found
  · rintro ⟨k', a⟩ he hk
    simp only at hk
    subst hk
    obtain ⟨i, hi, he⟩ := (hes _).mp he
    obtain ⟨r, g1, _, g3, g4⟩ := (hrd i hi _ _).mp he
    rw [hm] at g1
    simp only [Option.some.injEq] at g1
    rw [g1, Option.filter_some, if_pos (by simpa using g3)]
    simp [g4]
  · cases hk : m k with
    | none => left; rfl
    | some r =>
      rw [Option.filter_some]
      by_cases c : (ts r).toNat % 2 = 0
      · right
        obtain ⟨i, hi, hv⟩ := covered hn h0 k
        exact ⟨(k, view r), (hes _).mpr ⟨i, hi, (hrd i hi _ _).mpr ⟨r, by rw [hm, hk], hv, c, rfl⟩⟩, rfl⟩
      · left
        rw [if_neg (by simpa using c)]
        rfl

/-! ### Concrete cases -/

def key (n : Nat) : Bytes := [UInt8.ofNat (n / 256), UInt8.ofNat n]
def puts (a n : Nat) : List (Op Nat) := (List.range n).map fun i => .put (key (a + i)) i
def removes (a n : Nat) : List (Op Nat) := (List.range n).map fun i => .remove (key (a + i))
def pivots (ops : List (Op Nat)) (n : Nat) : Option (List (Option Bytes)) :=
  (run ops empty).map fun r => (List.range n).map fun i => pivot n i r.2

theorem puts_committed (a n : Nat) : ∀ o ∈ puts a n, Op.Valid o ∧ Op.Committed o := by
  intro o ho
  simp only [puts, List.mem_map] at ho
  obtain ⟨i, _, rfl⟩ := ho
  exact ⟨trivial, trivial⟩

theorem removes_committed (a n : Nat) : ∀ o ∈ removes a n, Op.Valid o ∧ Op.Committed o := by
  intro o ho
  simp only [removes, List.mem_map] at ho
  obtain ⟨i, _, rfl⟩ := ho
  exact ⟨trivial, trivial⟩

set_option maxRecDepth 100000 in
/-- A table of forty keys and its pivots for four threads. -/
theorem pivots_demo : pivots (puts 1 40) 4 = some [some [], some [0, 12], some [0, 23], some [0, 33]] := by decide +kernel

/-- The hypotheses of `partition` hold of it. -/
example : ∃ outs t, run (puts 1 40) empty = some (outs, t) ∧ ∃ pv : Nat → Bytes, (∀ i, i < 4 → pivot 4 i t = some (pv i)) ∧
    (∀ i, 0 < i → i < 4 → pv i ≠ []) ∧
    ∀ k, ∃ i, (i < 4 ∧ Visits pv 4 i k) ∧ ∀ j, j < 4 ∧ Visits pv 4 j k → j = i := by
  have h := pivots_demo
  unfold pivots at h
  cases hr : run (puts 1 40) empty with
  | none => rw [hr] at h; cases h
  | some r =>
    rw [hr] at h
    simp only [Option.map_some, Option.some.injEq] at h
    have hg : ∀ i, i < 4 → pivot 4 i r.2 = ([some [], some [0, 12], some [0, 23], some [0, 33]] : List (Option Bytes))[i]! := by
      intro i hi
      rw [← h]
      have : i = 0 ∨ i = 1 ∨ i = 2 ∨ i = 3 := by omega
      rcases this with rfl | rfl | rfl | rfl <;> rfl
    have h1 : ∀ i, i < 4 → pivot 4 i r.2 = some (([[], [0, 12], [0, 23], [0, 33]] : List Bytes)[i]!) := by
      intro i hi
      rw [hg i hi]
      have : i = 0 ∨ i = 1 ∨ i = 2 ∨ i = 3 := by omega
      rcases this with rfl | rfl | rfl | rfl <;> rfl
    have h2 : ∀ i, 0 < i → i < 4 → (([[], [0, 12], [0, 23], [0, 33]] : List Bytes)[i]!) ≠ [] := by
      intro i h0 hi
      have : i = 1 ∨ i = 2 ∨ i = 3 := by omega
      rcases this with rfl | rfl | rfl <;> simp
    exact ⟨r.1, r.2, rfl, _, h1, h2, partition (puts_committed 1 40) (outs := r.1) (by rw [hr]) (by omega) h1 h2⟩

/-- A key of zero bytes gives an empty pivot, and its neighbour is written twice: the thread with the empty end key runs to
the end of the table. -/
theorem zero_key_twice : pivots [.put [0] 1, .put [5] 2] 3 = some [some [], some [], some [5]] ∧
    ∀ pv : Nat → Bytes, pv 0 = [] → pv 1 = [] → pv 2 = [5] → Visits pv 3 0 [5] ∧ Visits pv 3 2 [5] ∧ Visits pv 3 0 [0] ∧ Visits pv 3 1 [0] := by
  refine ⟨by decide +kernel, fun pv h0 h1 h2 => ?_⟩
  simp [Visits, range, h0, h1, h2, LexLt]

set_option maxRecDepth 100000 in
/-- So does an empty leftmost leaf, without any such key. -/
theorem empty_leaf_twice : pivots (puts 1 20 ++ removes 1 15) 5 = some [some [], some [], some [], some [0, 17], some [0, 19]] ∧
    ∀ pv : Nat → Bytes, pv 0 = [] → pv 1 = [] → pv 2 = [] → pv 3 = [0, 17] → pv 4 = [0, 19] →
      Visits pv 5 0 [0, 17] ∧ Visits pv 5 1 [0, 17] ∧ Visits pv 5 3 [0, 17] := by
  refine ⟨by decide +kernel, fun pv h0 h1 h2 h3 h4 => ?_⟩
  simp [Visits, range, h0, h1, h2, h3, h4, LexLt]

set_option maxRecDepth 100000 in
/-- Removing keys can leave an internode without its first child, and `findpv` then follows that null pointer
(/repo/query_masstree.cc:122-131). -/
theorem hole_crashes : pivots (puts 1 256 ++ removes 241 15) 5 =
    some [some [], some [0, 106], some [0, 196], none, some [1]] := by decide +kernel

/-- The operations of the witnesses are ordinary ones. -/
example : ∀ o ∈ puts 1 256 ++ removes 241 15, Op.Valid o ∧ Op.Committed o := by
  intro o ho
  rcases List.mem_append.mp ho with h | h
  · exact puts_committed _ _ o h
  · exact removes_committed _ _ o h

/-- The hypotheses of `defined_without_holes` hold of a table with an internode. -/
def noHole (t : T Nat) : Bool :=
  match t with
  | .inode _ _ [.leaf _ _, .leaf _ _] => true
  | _ => false

example : ∃ outs t, run (puts 1 20) empty = some (outs, t) ∧ Whole t := by
  have h : (run (puts 1 20) empty).map (fun r => noHole r.2) = some true := by decide +kernel
  cases hr : run (puts 1 20) empty with
  | none => rw [hr] at h; cases h
  | some r =>
    rw [hr] at h
    simp only [Option.map_some, Option.some.injEq] at h
    refine ⟨r.1, r.2, rfl, ?_⟩
    unfold noHole at h
    split at h
    · next e => rw [e]; simp [Whole, WholeL]
    · cases h

/-- A recovery where a key occurs in two part files (rows are numbers, the timestamp is the row, the marker 3 is dropped). -/
example : ∃ (t : T Nat) (pv : Nat → Bytes) (rd : Nat → List (Bytes × Nat)),
    (∀ i, i < 3 → ∀ k a, (k, a) ∈ rd i ↔
      ∃ r, get k t = some (some r) ∧ Visits pv 3 i k ∧ (BitVec.ofNat 64 r).toNat % 2 = 0 ∧ r = a) ∧ rd 0 = [([5], 2)] ∧ rd 2 = [([5], 2)] := by
  obtain ⟨outs, t, _, h2⟩ := C01.history_is_map [.put [0] 3, .put [5] (2 : Nat)] (by
    intro o ho
    simp only [List.mem_cons, List.not_mem_nil, or_false] at ho
    rcases ho with rfl | rfl <;> trivial)
  have hget : ∀ k r, get k t = some (some r) ↔ (k = [5] ∧ r = 2) ∨ (k = [0] ∧ r = 3) := by
    intro k r
    rw [h2]
    simp only [specRun, specStep]
    by_cases c : k = [5]
    · subst c; simp [eq_comm]
    · by_cases c' : k = [0]
      · subst c'; simp [eq_comm]
      · simp [c, c']
  let pv : Nat → Bytes := fun i => if i = 2 then [5] else []
  let rd : Nat → List (Bytes × Nat) := fun i => if i = 1 then [] else [([5], 2)]
  refine ⟨t, pv, rd, ?_, rfl, rfl⟩
  intro i hi k a
  simp only [hget]
  have : i = 0 ∨ i = 1 ∨ i = 2 := by omega
  constructor
  · intro h
    rcases this with rfl | rfl | rfl
    · simp only [rd, show (0 : Nat) ≠ 1 by decide, if_false, List.mem_singleton, Prod.mk.injEq] at h
      obtain ⟨rfl, rfl⟩ := h
      exact ⟨2, .inl ⟨rfl, rfl⟩, by simp [Visits, range, pv, LexLt], by decide, rfl⟩
    · simp [rd] at h
    · simp only [rd, show (2 : Nat) ≠ 1 by decide, if_false, List.mem_singleton, Prod.mk.injEq] at h
      obtain ⟨rfl, rfl⟩ := h
      exact ⟨2, .inl ⟨rfl, rfl⟩, by simp [Visits, range, pv, LexLt], by decide, rfl⟩
  · rintro ⟨r, (⟨rfl, rfl⟩ | ⟨rfl, rfl⟩), h2, h3, rfl⟩
    · rcases this with rfl | rfl | rfl
      · simp [rd]
      · simp [Visits, range, pv, LexLt] at h2
      · simp [rd]
    · exact absurd h3 (by decide)

end Verif.Props.C34
