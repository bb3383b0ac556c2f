import Verif.Checkpoint.File
import Verif.Props.C03

/-!
# C28: checkpoint part files are read back as they were written

The rows are any of the four row types (`bag_lawful`, `string_lawful`, `array_lawful`, `versioned_lawful` in
`Verif.Checkpoint.Rows`); `good` says that a row is intact and within the size limits of its type, and `view` is what
can be observed of it: all of it for bags and strings, the timestamp and the columns for arrays.
-/
namespace Verif.Props.C28
open Verif.Checkpoint
open Verif.Key (Bytes LexLt)
open Verif.Trie (T get Op run empty ReachableLe)
open Verif.Scan (exec start after goesOn)
variable {H R A : Type}

/-- Visiting any sequence of keys and rows and reading the file back, into a memory that may hold other rows, gives the
generation and exactly the visited entries before the end key that are not markers, in order, and leaves rows in
memory alone. -/
theorem round_trip {f : Format H R} {view : H → R → A} {good : H → R → Prop} (hf : Lawful f view good) (h : H)
    (l : List (Bytes × R)) (hl : ∀ e ∈ l, good h e.2 ∧ e.1.length < 2147483648) (hn : l.length < 18446744073709551616)
    (gen : Nat) (hg : gen < 18446744073709551616) (startkey endkey : Bytes) (hs : startkey.length < 2147483648) :
    ∃ out, l.foldl (fun s e => (visit f h endkey s e.1 e.2).1) (some ([], 0)) = some out ∧
      ∀ h', ∃ l' h'', readPart f h' (partFile gen startkey out) = some (gen, l', h'') ∧
        l'.map (fun e => (e.1, view h'' e.2)) =
          (l.filter fun e => (decide (endkey = []) || decide (Scan.cmpBytes e.1 endkey < 0)) && (f.ts e.2).toNat % 2 == 0).map
            (fun e => (e.1, view h e.2)) ∧
        ∀ x, good h' x → good h'' x ∧ view h'' x = view h' x := by
  have hp : picked f endkey l =
      l.filter fun e => (decide (endkey = []) || decide (Scan.cmpBytes e.1 endkey < 0)) && (f.ts e.2).toNat % 2 == 0 := by
    unfold picked
    apply List.filter_congr
    intro e _
    congr 1
    · unfold before
      cases endkey with
      | nil => simp
      | cons b bs =>
        by_cases hc : Scan.cmpBytes e.1 (b :: bs) < 0
        · rw [decide_eq_true hc, decide_eq_false (show ¬ 0 ≤ Scan.cmpBytes e.1 (b :: bs) by omega)]; rfl
        · rw [decide_eq_false hc, decide_eq_true (show 0 ≤ Scan.cmpBytes e.1 (b :: bs) by omega)]; rfl
    · unfold isMarker
      have := Nat.mod_two_eq_zero_or_one (f.ts e.2).toNat
      rcases this with h | h <;> rw [h] <;> rfl
  have hle : (picked f endkey l).length ≤ l.length := List.length_filter_le _ _
  refine ⟨_, visits hf h endkey l [] 0 (fun e he => (hl e he).1), fun h' => ?_⟩
  rw [List.nil_append, Nat.zero_add]
  obtain ⟨l', h'', r1, r2, _, r4⟩ := readPart_partFile hf h h' hg hs (l := picked f endkey l)
    (fun e he => hl e (List.mem_filter.mp he).1) (by omega)
  exact ⟨l', h'', r1, by rw [r2, hp], r4⟩

theorem spec_short {n : Nat} {k : Bytes} (hk : n < k.length) : ∀ (ops : List (Op R)) (m : Bytes → Option R),
    (∀ o ∈ ops, Trie.Op.Le n o) → m k = none → (Trie.specRun ops m).2 k = none
  | [], _, _, hm => hm
  | o :: os, m, h, hm => by
    rw [Trie.specRun]
    refine spec_short hk os _ (fun o' h' => h o' (by simp [h'])) ?_
    have := h o (by simp)
    match o, this with
    | .put j v, hl =>
      simp only [Trie.specStep]
      rw [if_neg (fun e => by rw [← e] at hl; exact absurd (show k.length ≤ n from hl) (by omega))]
      exact hm
    | .update true f j, hl =>
      simp only [Trie.specStep]
      rw [if_neg (fun e => by rw [← e] at hl; exact absurd (show k.length ≤ n from hl) (by omega))]
      exact hm
    | .update false f j, _ => exact hm
    | .remove j, _ =>
      simp only [Trie.specStep]
      split
      · rfl
      · exact hm
    | .gc j, _ => exact hm

/-- Keys of a table that was only given keys of at most `n` bytes are not longer. -/
theorem key_short {n : Nat} {t : T R} (ht : ReachableLe n t) {k : Bytes} {r : R} (h : get k t = some (some r)) : k.length ≤ n := by
  obtain ⟨ops, ho, outs, hr⟩ := ht
  refine Decidable.byContradiction fun hk => ?_
  obtain ⟨outs', t', h1, h2⟩ := C01.history_is_map ops (fun o ho' => (ho o ho').1)
  rw [h1] at hr
  cases hr
  rw [h2, spec_short (by omega) ops _ (fun o ho' => (ho o ho').2) rfl] at h
  cases h

/-- A scan that stops at the end key picks the same entries as one that does not. -/
theorem picked_take {f : Format H R} {endkey : Bytes} {L : List (Bytes × R)} (hs : L.Pairwise fun a b => LexLt a.1 b.1)
    {m : Nat} (hm : m < L.length → ∃ e ∈ L.take m, before endkey e.1 = false) :
    picked f endkey (L.take m) = picked f endkey L := by
  by_cases h : m < L.length
  · obtain ⟨e, he, hb⟩ := hm h
    have hsplit := hs
    rw [← List.take_append_drop m L, List.pairwise_append] at hsplit
    have hnil : picked f endkey (L.drop m) = [] := by
      unfold picked
      rw [List.filter_eq_nil_iff]
      intro x hx
      have hlt := hsplit.2.2 e he x hx
      have : before endkey x.1 = false := by
        rw [← Bool.not_eq_true, before_spec] at hb ⊢
        rintro (h | h)
        · exact hb (.inl h)
        · exact hb (.inr (Key.lexLt_trans hlt h))
      simp [this]
    conv => rhs; rw [← List.take_append_drop m L]
    unfold picked at hnil ⊢
    rw [List.filter_append, hnil, List.append_nil]
  · rw [List.take_of_length_le (by omega)]

/-- For every table and key range, the scan of a checkpoint thread ends, and the file it writes, read back, gives exactly
the stored keys in the range whose rows are not markers, in increasing order, with their rows. -/
theorem scan_round_trip {f : Format H R} {view : H → R → A} {good : H → R → Prop} (hf : Lawful f view good) (h : H)
    {t : T R} (ht : ReachableLe 256 t) (hgood : ∀ k r, get k t = some (some r) → good h r)
    (gen : Nat) (hg : gen < 18446744073709551616) (startkey junk endkey : Bytes) (hb : (startkey ++ junk).length = 256) :
    ∃ L : List (Bytes × R),
      (∀ k r, (k, r) ∈ L ↔ get k t = some (some r) ∧ ¬ LexLt k startkey ∧ (endkey = [] ∨ LexLt k endkey) ∧
        (f.ts r).toNat % 2 = 0) ∧
      L.Pairwise (fun a b => LexLt a.1 b.1) ∧
      (L.length < 18446744073709551616 → ∃ out N m,
        (∀ n, N ≤ n → exec .fwd true (visit f h endkey) n (start t startkey junk) (some ([], 0)) 0 = .fin (some out) m) ∧
        ∀ h', ∃ l' h'', readPart f h' (partFile gen startkey out) = some (gen, l', h'') ∧
          l'.map (fun e => (e.1, view h'' e.2)) = L.map (fun e => (e.1, view h e.2)) ∧ (∀ e ∈ l', good h'' e.2) ∧
          ∀ x, good h' x → good h'' x ∧ view h'' x = view h' x) := by
  obtain ⟨L, g1, g2, g3⟩ := C03.forward_scan (σ := Out) ht startkey junk true hb
  obtain ⟨m, N, q1, q2, q3, q4⟩ := g3 (visit f h endkey) (some ([], 0))
  have hL : ∀ e ∈ L, good h e.2 ∧ e.1.length < 2147483648 := by
    rintro ⟨k, r⟩ he
    have hk := ((g1 k r).mp he).1
    exact ⟨hgood k r hk, by have := key_short ht hk; simp only; omega⟩
  have hout : after (visit f h endkey) (some ([], 0)) (L.take m) =
      some ((picked f endkey L).flatMap (entryBytes f h), (picked f endkey L).length) := by
    unfold after
    rw [visits hf h endkey (L.take m) [] 0 (fun e he => (hL e (List.mem_of_mem_take he)).1), List.nil_append, Nat.zero_add,
      picked_take g2]
    intro hm
    obtain ⟨h0, hno⟩ := q4 hm
    unfold goesOn at hno
    rw [Classical.not_forall] at hno
    obtain ⟨e, hno⟩ := hno
    rw [Classical.not_imp] at hno
    refine ⟨e, ?_, ?_⟩
    · obtain ⟨hi, he⟩ := List.getElem?_eq_some_iff.mp hno.1
      rw [List.mem_take_iff_getElem]
      exact ⟨m - 1, by omega, he⟩
    · have := hno.2
      unfold visit at this
      by_cases hbe : before endkey e.1 = true
      · rw [if_pos hbe] at this
        split at this <;> exact absurd rfl this
      · exact Bool.not_eq_true _ |>.mp hbe
  refine ⟨picked f endkey L, ?_, g2.sublist List.filter_sublist, fun hn =>
    ⟨((picked f endkey L).flatMap (entryBytes f h), (picked f endkey L).length), N, m, fun n hn => ?_, fun h' => ?_⟩⟩
  · intro k r
    unfold picked
    rw [List.mem_filter, g1, Bool.and_eq_true, before_spec]
    have hstart : (LexLt startkey k ∨ (k = startkey ∧ true = true)) ↔ ¬ LexLt k startkey := by
      constructor
      · rintro (h | ⟨rfl, _⟩)
        · exact Key.lexLt_asymm h
        · exact Key.lexLt_irrefl _
      · intro h
        rcases Key.lexLt_trichotomy k startkey with h' | h' | h'
        · exact absurd h' h
        · exact .inr ⟨h', rfl⟩
        · exact .inl h'
    have hmark : (!isMarker (f.ts r)) = true ↔ (f.ts r).toNat % 2 = 0 := by
      unfold isMarker
      have := Nat.mod_two_eq_zero_or_one (f.ts r).toNat
      rcases this with h | h <;> simp [h]
    rw [hstart, hmark]
    tauto
  · rw [q2 n hn, hout]
  · exact readPart_partFile hf h h' hg (by rw [List.length_append] at hb; omega)
      (fun e he => hL e (List.mem_filter.mp he).1) hn

/-! ### Concrete cases -/

/-- Three rows, the second a marker and the third at the end key: one entry is written and read back. -/
def demo : Option (Nat × List (Bytes × Row.Bag.Row) × Unit) :=
  let rows : List (Bytes × Row.Bag.Row) :=
    [([1, 0], Row.Bag.ofCols 6 [[7, 8], [], [9]]), ([1, 1], Row.Bag.ofCols 9 [[1]]), ([2], Row.Bag.ofCols 4 [[]])]
  (rows.foldl (fun s e => (visit bag () [2] s e.1 e.2).1) (some ([], 0))).bind fun out => readPart bag () (partFile 3 [] out)

example : demo = some (3, [([1, 0], Row.Bag.ofCols 6 [[7, 8], [], [9]])], ()) := by decide +kernel

/-- The theorem applies to a table with several layers of keys. -/
example : ∃ (t : T Row.Str.Row), ReachableLe 256 t ∧ (∀ k r, get k t = some (some r) → StrGood r) ∧
    ∃ k r, get k t = some (some r) := by
  have hv : ∀ o ∈ [Op.put C01.demoA (Row.Str.create1 [1, 2] 4), Op.put C01.demoB (Row.Str.create1 [] 8)],
      o.Valid ∧ Trie.Op.Le 256 o := by
    simp [Op.Valid, Trie.Op.Le, C01.demoA, C01.demoB, C01.demoP]
  obtain ⟨outs, t, h1, h2⟩ := C01.history_is_map _ (fun o ho => (hv o ho).1)
  refine ⟨t, ⟨_, hv, outs, h1⟩, ?_, C01.demoB, Row.Str.create1 [] 8, ?_⟩
  · intro k r hk
    rw [h2] at hk
    simp only [Trie.specRun, Trie.specStep, Option.some.injEq] at hk
    split at hk
    · cases hk; exact ⟨[], rfl, by decide⟩
    · split at hk
      · cases hk; exact ⟨[1, 2], rfl, by decide⟩
      · cases hk
  · rw [h2]
    simp only [Trie.specRun, Trie.specStep, if_true]

/-- Each row type meets its conditions with a row of several kinds of columns. -/
example : BagGood (Row.Bag.ofCols 6 [[7, 8], [], [9]]) := ⟨_, by unfold Row.Bag.Fits; decide, rfl⟩

example : ArrayGood ⟨2, fun p => if p = 0 then [5] else [6, 7], []⟩ ⟨8, [some 1, none, some 0]⟩ := by
  refine ⟨by decide, ?_, ?_⟩
  · intro j p hp
    match j with
    | 0 => cases hp; decide
    | 1 => cases hp
    | 2 => cases hp; decide
    | j + 3 => simp at hp
  · intro i
    match i with
    | 0 => simp [Row.Array.Row.col]
    | 1 => simp [Row.Array.Row.col]
    | 2 => simp [Row.Array.Row.col]
    | i + 3 => simp [Row.Array.Row.col]

end Verif.Props.C28
