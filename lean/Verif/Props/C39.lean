import Verif.Stats.Count
import Verif.Props.C01
import Verif.Props.C42

/-!
# C39: the statistics report the number of keys
-/
namespace Verif.Props.C39
open Verif.Key (Bytes)
open Verif.Tree (Node Slot entries)
open Verif.Trie
open Verif.Stats
variable {V : Type}

/-- The length that the report notes for a key found at place `p`. -/
def noted (k : Bytes) (p : Option (Nat × Bool)) : Nat := k.length + if p = some (p.elim 0 Prod.fst, true) then 55 else 0

/-- The report on a table with the histories' keys.  `ks` lists every key of the table once. -/
structure Counts (t : T V) (ks : List Bytes) (r : Rep) : Prop where
  /-- the total -/
  size : r.size = ks.length
  /-- every key is found in some layer, and the report has the number of keys of each layer -/
  placed : ∀ k ∈ ks, ∃ l b, place k t = some (l, b)
  byLayer : ∀ l, r.byLayer l = ks.countP fun k => (place k t).map Prod.fst = some l
  /-- keys below the first layer -/
  l1sum : r.l1sum = ks.countP fun k => (place k t).map Prod.fst ≠ some 0
  /-- nested layers -/
  l1count : r.l1count = (nested t).length
  /-- keys by length; the length noted is 55 too high for keys stored with a suffix -/
  byLength : ∀ n, r.byLength n = ks.countP fun k => noted k (place k t) = n

theorem report_of_contents {r : Nat} {ne : Bool} {t : T V} (hw : WF t) (hd : Deep r ne t) :
    ∃ rep, jsonStats t = some rep ∧ Counts t ((contents t).map Prod.fst) rep := by
  refine ⟨_, walk_spec hw 0 {}, ?_⟩
  have hk : (contents t).map Prod.fst = (full t).map Item.key := by
    rw [← full_contents hw, List.map_map]; rfl
  have hp := place_full hw hd
  rw [hk]
  constructor
  · simp [Rep.add_def, tot]
  · intro k h
    obtain ⟨e, he, rfl⟩ := List.mem_map.mp h
    exact ⟨_, _, hp e he⟩
  · intro l
    simp only [Rep.add_def, tot, List.countP_map, Nat.zero_add]
    apply List.countP_congr
    intro e he
    simp only [Function.comp, hp e he, Option.map_some]; simp
  · simp only [Rep.add_def, tot, List.countP_map, Nat.zero_add]
    apply List.countP_congr
    intro e he
    simp only [Function.comp, hp e he, Option.map_some]; simp
  · simp [Rep.add_def, tot]
  · intro n
    simp only [Rep.add_def, tot, List.countP_map, Nat.zero_add]
    apply List.countP_congr
    intro e he
    simp [hp e he, noted, Item.seen]

/-- After any history the statistics run to completion and report the keys of the map that the
same operations produce: their number, their number in each layer, the number of those below the
first layer, and the number of nested layers. -/
theorem report (ops : List (Op V)) (h : ∀ o ∈ ops, o.Valid) :
    ∃ (outs : List (Option Bool)) (t : T V) (ks : List Bytes) (rep : Rep), run ops empty = some (outs, t) ∧ jsonStats t = some rep ∧ ks.Nodup ∧
      (∀ k, k ∈ ks ↔ ((specRun ops (fun _ => none)).2 k).isSome) ∧ Counts t ks rep := by
  obtain ⟨outs, t, h1, h2⟩ := C01.history_is_map ops h
  have hr : Reachable t := ⟨ops, h, outs, h1⟩
  obtain ⟨L, hL⟩ := hr.le
  obtain ⟨rep, h3, h4⟩ := report_of_contents hr.wf hL.deep
  refine ⟨outs, t, _, rep, h1, h3, ?_, ?_, h4⟩
  · have hs := contents_sorted hr.wf hL.deep
    rw [List.nodup_iff_pairwise_ne, List.pairwise_map]
    refine hs.imp ?_
    intro a b hab e
    rw [e] at hab
    exact Key.lexLt_irrefl _ hab
  · intro k
    rw [List.mem_map]
    constructor
    · rintro ⟨e, he, rfl⟩
      have := (mem_contents hr.wf hL.deep e.1 e.2).mp he
      rw [h2] at this
      rw [Option.some.inj this]; rfl
    · intro hk
      obtain ⟨v, hv⟩ := Option.isSome_iff_exists.mp hk
      exact ⟨(k, v), (mem_contents hr.wf hL.deep k v).mpr (by rw [h2, hv]), rfl⟩

/-- A key noted with a wrong length is longer than eight bytes: up to eight bytes the histogram of
lengths is exact. -/
theorem short_noted (k : Bytes) (t : T V) (hw : WF t) {r : Nat} {ne : Bool} (hd : Deep r ne t)
    (hk : k ∈ (contents t).map Prod.fst) (h : k.length ≤ 8) : noted k (place k t) = k.length := by
  obtain ⟨e, he, rfl⟩ := List.mem_map.mp hk
  suffices H : ∀ x ∈ full t, x.key.length ≤ 8 → x.suf = false by
    rw [← full_contents hw] at he
    obtain ⟨x, hx, rfl⟩ := List.mem_map.mp he
    simp only at h ⊢
    rw [place_full hw hd x hx, H x hx h]
    simp [noted]
  intro x hx hl
  rw [full_eq, List.mem_flatMap] at hx
  obtain ⟨s, hs, hx⟩ := hx
  rcases hw.ok s hs with ⟨h1, -, v', h4⟩ | ⟨h1, -, h4, v', h5⟩ | ⟨h1, -, n, h4⟩
  · rw [fullSlot_val h4, List.mem_singleton] at hx
    subst hx
    simp; omega
  · rw [fullSlot_val h5, List.mem_singleton, if_neg (by omega)] at hx
    subst hx
    have := List.length_pos_iff.mpr h4
    simp only [List.length_append, ikeyBytes_length] at hl
    omega
  · rw [fullSlot_layer h4] at hx
    obtain ⟨x', hx', rfl⟩ := List.mem_map.mp hx
    have h5 := hw.sub s hs n h4
    have hne := List.length_pos_iff.mpr (contents_nonempty h5 (hd.sub s hs n h4).2 _ (mem_full_contents h5 hx'))
    simp only [Item.lift, List.length_append, ikeyBytes_length] at hl hne
    omega

/-- `nested` lists the layers nested in a table. -/
theorem nested_layers {t : T V} (hw : WF t) (m : T V) : C42.LayerOf t m ↔ m = t ∨ m ∈ nested t := by
  have key : ∀ {t : T V}, WF t → (m ∈ nested t ↔
      ∃ s ∈ entries t, ∃ n, s.lv = some (.layer n) ∧ (m = n ∨ m ∈ nested n)) := by
    intro t hw
    rw [nested_eq, List.mem_flatMap]
    constructor
    · rintro ⟨s, hs, hm⟩
      refine ⟨s, hs, ?_⟩
      rcases hw.ok s hs with ⟨h1, -, v', h4⟩ | ⟨h1, -, h4, v', h5⟩ | ⟨h1, -, n, h4⟩
      · rw [nestedSlot_val h4] at hm; simp at hm
      · rw [nestedSlot_val h5] at hm; simp at hm
      · rw [nestedSlot_layer h4, List.mem_cons] at hm
        exact ⟨n, h4, hm⟩
    · rintro ⟨s, hs, n, h4, hm⟩
      exact ⟨s, hs, by rw [nestedSlot_layer h4, List.mem_cons]; exact hm⟩
  constructor
  · intro h
    induction h with
    | self t => exact .inl rfl
    | sub t s n m' hs hl h ih =>
      right
      exact (key hw).mpr ⟨s, hs, n, hl, ih (hw.sub s hs n hl) key⟩
  · intro h
    induction hw with
    | mk t inv ok sub ih =>
      rcases h with rfl | h
      · exact .self _
      · obtain ⟨s, hs, n, h4, h5⟩ := (key ⟨t, inv, ok, sub⟩).mp h
        exact .sub t s n m hs h4 (ih s hs n h4 h5)

theorem sum_count (L : List Nat) (N : Nat) (h : ∀ i ∈ L, i < N) :
    ((List.range N).map fun i => L.count i).sum = L.length := by
  induction L with
  | nil =>
    have : ∀ N : Nat, ((List.range N).map fun i => ([] : List Nat).count i).sum = 0 := by
      intro N; induction N with
      | zero => rfl
      | succ n ih => rw [List.range_succ, List.map_append, List.sum_append, ih]; simp
    exact this N
  | cons a L ih =>
    have hs : ∀ N : Nat, ((List.range N).map fun i => (a :: L).count i).sum
        = ((List.range N).map fun i => L.count i).sum + if a < N then 1 else 0 := by
      intro N; induction N with
      | zero => rfl
      | succ n ih2 =>
        rw [List.range_succ, List.map_append, List.sum_append, ih2, List.map_append, List.sum_append]
        simp only [List.map_cons, List.map_nil, List.sum_cons, List.sum_nil, List.count_cons]
        by_cases h1 : a = n <;> by_cases h2 : a < n <;> simp [h1, h2] <;> grind
    rw [hs, ih (fun i hi => h i (by simp [hi])), if_pos (h a (by simp))]
    rfl

/-- The keys by height, printed by `stats`, add up to the number of keys: there is a height above
which all counts are 0, and the counts below it have the number of keys as their sum. -/
theorem heights_sum (ops : List (Op V)) (h : ∀ o ∈ ops, o.Valid) :
    ∃ (outs : List (Option Bool)) (t : T V) (ks : List Bytes) (c : Nat → Nat) (N : Nat), run ops empty = some (outs, t) ∧ heights t = some c ∧ ks.Nodup ∧
      (∀ k, k ∈ ks ↔ ((specRun ops (fun _ => none)).2 k).isSome) ∧
      (∀ i, N ≤ i → c i = 0) ∧ ((List.range N).map c).sum = ks.length := by
  obtain ⟨outs, t, ks, rep, h1, h2, h3, h4, h5⟩ := report ops h
  have hr : Reachable t := ⟨ops, h, outs, h1⟩
  obtain ⟨L, h6, h7⟩ := tree_spec hr.wf 0 fun _ => 0
  have hlen : ks.length = L.length := by
    rw [← h5.size, h7]
    have := walk_spec hr.wf 0 {}
    unfold jsonStats at h2
    rw [this] at h2
    rw [← Option.some.inj h2]
    simp [Rep.add_def, tot]
  obtain ⟨N, hN⟩ : ∃ N, ∀ i ∈ L, i < N := by
    clear h6 h7 hlen
    induction L with
    | nil => exact ⟨0, by simp⟩
    | cons a L ih =>
      obtain ⟨N, hN⟩ := ih
      refine ⟨N + a + 1, ?_⟩
      intro i hi
      rcases List.mem_cons.mp hi with rfl | hi
      · omega
      · have := hN i hi; omega
  refine ⟨outs, t, ks, _, N, h1, h6, h3, h4, ?_, ?_⟩
  · intro i hi
    simp only [Nat.zero_add]
    rw [List.count_eq_zero]
    intro hm
    have := hN i hm; omega
  · simp only [Nat.zero_add]
    rw [sum_count L N hN, hlen]

/-! ### Disagreements -/

/-- A table with the one key of nine bytes `0 … 0`. -/
def nine : Option (T Nat) := (run [.put (List.replicate 9 0) 7] empty).map Prod.snd

/-- The histogram of lengths is wrong for keys with a suffix: a key of nine bytes is noted as one of
64 bytes, because line 54 takes `keylenx_` of a slot with a suffix for 9 where it is 64. -/
theorem suffix_length_wrong :
    (nine.bind jsonStats).map (fun r => (r.size, r.byLength 9, r.byLength 64)) = some (1, 0, 1) := by
  decide +kernel

/-- Sixteen keys that share their first eight bytes. -/
def sixteen : List (Op Nat) := (List.range 16).map fun i => .put (List.replicate 8 1 ++ [UInt8.ofNat i]) i

/-- A slot whose layer root was split still points at the old root, now the new root's first
child, until the next locking descent through the slot (`make_split`,
/repo/masstree_split.hh:218-230, links the new root with the old one but does not touch the layer above). -/
def stale : T V → T V
  | .leaf perm slots => .leaf perm <| slots.map fun s =>
    match s.lv with
    | some (.layer (.inode _ _ (c :: _))) => { s with lv := some (.layer c) }
    | _ => s
  | t => t

/-- Through such a pointer the report misses keys: `node_json_stats` does not look for the current
root (line 44), while `treestats1` does. -/
theorem stale_undercounts :
    ((run sixteen empty).bind fun x => jsonStats x.2).map Rep.size = some 16 ∧
    ((run sixteen empty).bind fun x => jsonStats (stale x.2)).map Rep.size = some 15 := by
  decide +kernel

/-! ### A concrete case -/

/-- Keys in two layers: `a`, `11111111` followed by `x` and by `y`, and a long one. -/
def some4 : List (Op Nat) :=
  [.put [97] 1, .put (List.replicate 8 1 ++ [120]) 2, .put (List.replicate 8 1 ++ [121]) 3,
   .put (List.replicate 20 2) 4]

example : ∀ o ∈ some4, o.Valid := by simp [some4, Op.Valid]

example : ((run some4 empty).bind fun x => jsonStats x.2).map
    (fun r => [r.size, r.byLayer 0, r.byLayer 1, r.l1sum, r.l1count, r.byLength 1, r.byLength 9, r.byLength 75])
    = some [4, 2, 2, 2, 1, 1, 2, 1] := by
  decide +kernel

end Verif.Props.C39
