import Verif.Props.C35Session

/-!
# C35, with rows of the default type: what is put is what is read
-/
namespace Verif.Props.C35
open Verif.Server
open Verif.Key (Bytes)
open Verif.Msgpack (Json)
open Verif.Trie (T)

/-- Columns and values as a put request lists them. -/
def pairsOf (ups : List (Nat × Bytes)) : List Json := ups.flatMap fun u => [.int u.1, .str u.2]

theorem changes_pairsOf : ∀ (ups : List (Nat × Bytes)), (∀ u ∈ ups, u.1 < 4294967295) → changes (pairsOf ups) = some ups
  | [], _ => rfl
  | (i, v) :: ups, h => by
    have hi : i < 4294967295 := h (i, v) List.mem_cons_self
    have ih := changes_pairsOf ups fun u hu => h u (List.mem_cons_of_mem _ hu)
    have e : ((i : Int) % 18446744073709551616).toNat = i := by omega
    show changes (.int i :: .str v :: pairsOf ups) = _
    simp only [changes, asU, asS, e, ih]
    rw [if_neg (by omega), Nat.mod_eq_of_lt (by omega)]

theorem pairsOf_length : ∀ (ups : List (Nat × Bytes)), (pairsOf ups).length = 2 * ups.length
  | [] => rfl
  | u :: ups => by
    show (pairsOf ups).length + 1 + 1 = 2 * (ups.length + 1)
    rw [pairsOf_length ups]; omega

theorem width_ge (r : Row.Bag.Row) (ups : List (Nat × Bytes)) : ∀ u ∈ ups, u.1 < C16.width r ups := by
  unfold C16.width
  generalize r.ncol = n
  induction ups generalizing n with
  | nil => intro u hu; cases hu
  | cons w ups ih =>
    intro u hu
    rw [List.foldl_cons]
    rcases List.mem_cons.1 hu with rfl | hu
    · have := C16.foldl_ge ups (max n (u.1 + 1)); omega
    · exact ih _ u hu

/-- The value of a column after a put. -/
theorem bag_update {r : Row.Bag.Row} (hm : C16.Made r) {ups : List (Nat × Bytes)} (hi : C16.Increasing ups) (hf : C16.Fit r ups)
    (ts : BitVec 64) :
    ∃ r', bag.update r (pairsOf ups) ts = some r' ∧ C16.Made r' ∧ r'.ts = ts ∧
      ∀ i : Nat, bag.col r' i = some (C16.expected r ups i) := by
  obtain ⟨r', h1, h2, h3, -, h5⟩ := C16.update_spec r hm ups hi hf ts
  refine ⟨r', ?_, h2, h3, fun i => ?_⟩
  · show (changes (pairsOf ups)).bind _ = _
    rw [changes_pairsOf ups fun u hu => by have := width_ge r ups u hu; unfold C16.Fit at hf; omega]
    exact h1
  · show (if (i : Int) < 0 then some [] else r'.col (i : Int).toNat) = _
    rw [if_neg (by omega), Int.toNat_natCast]
    exact h5 i

theorem bag_create {ups : List (Nat × Bytes)} (hi : C16.Increasing ups) (hf : C16.Fit Row.Bag.empty ups) (ts : BitVec 64) :
    ∃ r', bag.create (pairsOf ups) ts = some r' ∧ C16.Made r' ∧ r'.ts = ts ∧
      ∀ i : Nat, bag.col r' i = some ((C16.named ups i).getD []) := by
  obtain ⟨r', h1, h2, h3, h5⟩ := C16.create_spec ups hi hf ts
  refine ⟨r', ?_, h2, h3, fun i => ?_⟩
  · show (changes (pairsOf ups)).bind _ = _
    rw [changes_pairsOf ups fun u hu => by have := width_ge Row.Bag.empty ups u hu; unfold C16.Fit at hf; omega]
    exact h1
  · show (if (i : Int) < 0 then some [] else r'.col (i : Int).toNat) = _
    rw [if_neg (by omega), Int.toNat_natCast]
    exact h5 i

/-- The request for some columns of a key. -/
def getReq (seq : Json) (k : Bytes) (cs : List Nat) : List Json := seq :: .int 2 :: .str k :: cs.map fun c : Nat => .int c

/-- Reading columns of a row that is stored. -/
theorem reads_columns {E : Env} {fuel : Nat} {t : T Row.Bag.Row}
    {m : Bytes → Option Row.Bag.Row} (h : Holds 256 t m) {k : Bytes} {r : Row.Bag.Row} (hl : Live bag m k r)
    (val : Nat → Bytes) (hv : ∀ i : Nat, bag.col r i = some (val i)) (seq : Json) (cs : List Nat) (hne : cs ≠ [])
    (hc : ∀ c ∈ cs, c < 32768) :
    onego bag E fuel t (getReq seq k cs) = .done true (seq :: .int 3 :: cs.map fun c => .str (val c)) t := by
  have hm : (cs.map fun c : Nat => Json.int c).map asI = (cs.map fun c : Nat => (c : Int)).map some := by
    rw [List.map_map, List.map_map]; rfl
  have hi : (cs.map fun c : Nat => (c : Int)).map bag.index = cs.map fun c : Nat => (c : Int) := by
    rw [List.map_map]
    apply List.map_congr_left
    intro c h'
    have := hc c h'
    show ((c : Int) + 32768) % 65536 - 32768 = c
    omega
  have hcols : Cols bag r ((cs.map fun c : Nat => (c : Int)).map bag.index) (cs.map val) := by
    rw [hi]
    unfold Cols asked
    cases cs with
    | nil => exact absurd rfl hne
    | cons c cs =>
    show ((c :: cs).map fun c : Nat => (c : Int)).map (bag.col r) = _
    rw [List.map_map, List.map_map]
    apply List.map_congr_left
    intro c _
    exact hv c
  unfold getReq
  rw [onego_get ⟨2, rfl, by decide⟩, runGet_live h hl, allSome_eq.2 hm]
  simp only [cols_iff.2 ⟨_, hcols, rfl⟩, Option.map_some, ofOption]
  simp [finish, put, Function.comp_def]

/-- A put to a key that has a row, and then a read: every column named by the put gives the value put, and every other
column what it gave before. -/
theorem put_then_get {E E' : Env} (hE : ∀ n, (E.fresh n).length = n)
    (hts : E.ts.toNat % 2 = 0) {t : T Row.Bag.Row} {m : Bytes → Option Row.Bag.Row} (h : Holds 256 t m) {k : Bytes}
    (hk : k.length ≤ 256) {r : Row.Bag.Row} (hl : Live bag m k r) (hm : C16.Made r) {ups : List (Nat × Bytes)} (hne : ups ≠ [])
    (hi : C16.Increasing ups) (hf : C16.Fit r ups) (seq seq' : Json) :
    ∃ N, ∀ fuel, N ≤ fuel → ∃ t', onego bag E fuel t (seq :: .int 6 :: .str k :: pairsOf ups) = .done true [seq, .int 7, .int 2] t' ∧
      ∀ fuel' cs, cs ≠ [] → (∀ c ∈ cs, c < 32768) → onego bag E' fuel' t' (getReq seq' k cs) =
        .done true (seq' :: .int 3 :: cs.map fun c => .str (C16.expected r ups c)) t' := by
  obtain ⟨r', u1, -, u3, u4⟩ := bag_update hm hi hf E.ts
  have hlen := pairsOf_length ups
  have hpos := List.length_pos_iff.2 hne
  have hc6 : Command (.int 6) 6 := ⟨6, rfl, by decide⟩
  obtain ⟨N, hN⟩ := answered hE h (m' := upd m k (some r'))
    (req := seq :: .int 6 :: .str k :: pairsOf ups) (by simpa [storedKey, el, asI, asS, int32] using hk)
    (.update seq (.int 6) k r r' (pairsOf ups) hc6 (by rw [← List.length_pos_iff]; omega) (by omega) hl u1)
  refine ⟨N, fun fuel hfuel => ?_⟩
  obtain ⟨t', e, ht'⟩ := hN fuel hfuel
  refine ⟨t', e, fun fuel' cs hcs hc => ?_⟩
  exact reads_columns ht' ⟨by simp [upd], by show (r'.ts.toNat % 2 == 1) = false; rw [u3, hts]; rfl⟩ _ u4 seq' cs hcs hc

/-- The same for a key that has no row: every other column is empty. -/
theorem put_new_then_get {E E' : Env} (hE : ∀ n, (E.fresh n).length = n)
    (hts : E.ts.toNat % 2 = 0) {t : T Row.Bag.Row} {m : Bytes → Option Row.Bag.Row} (h : Holds 256 t m) {k : Bytes}
    (hk : k.length ≤ 256) (hl : Absent bag m k) {ups : List (Nat × Bytes)} (hne : ups ≠ [])
    (hi : C16.Increasing ups) (hf : C16.Fit Row.Bag.empty ups) (seq seq' : Json) :
    ∃ N, ∀ fuel, N ≤ fuel → ∃ t', onego bag E fuel t (seq :: .int 6 :: .str k :: pairsOf ups) = .done true [seq, .int 7, .int 1] t' ∧
      ∀ fuel' cs, cs ≠ [] → (∀ c ∈ cs, c < 32768) → onego bag E' fuel' t' (getReq seq' k cs) =
        .done true (seq' :: .int 3 :: cs.map fun c => .str ((C16.named ups c).getD [])) t' := by
  obtain ⟨r', u1, -, u3, u4⟩ := bag_create hi hf E.ts
  have hlen := pairsOf_length ups
  have hpos := List.length_pos_iff.2 hne
  have hc6 : Command (.int 6) 6 := ⟨6, rfl, by decide⟩
  obtain ⟨N, hN⟩ := answered hE h (m' := upd m k (some r'))
    (req := seq :: .int 6 :: .str k :: pairsOf ups) (by simpa [storedKey, el, asI, asS, int32] using hk)
    (.insert seq (.int 6) k r' (pairsOf ups) hc6 (by rw [← List.length_pos_iff]; omega) (by omega) hl u1)
  refine ⟨N, fun fuel hfuel => ?_⟩
  obtain ⟨t', e, ht'⟩ := hN fuel hfuel
  refine ⟨t', e, fun fuel' cs hcs hc => ?_⟩
  exact reads_columns ht' ⟨by simp [upd], by show (r'.ts.toNat % 2 == 1) = false; rw [u3, hts]; rfl⟩ _ u4 seq' cs hcs hc

/-! ### A case -/

/-- An empty server, a put of columns 0 and 3 and a read of three columns. -/
example (E : Env) (hE : ∀ n, (E.fresh n).length = n) (hts : E.ts = 4) :
    ∃ N, ∀ fuel, N ≤ fuel → ∃ t', onego bag E fuel Verif.Trie.empty [.int 1, .int 6, .str [7], .int 0, .str [1, 2], .int 3, .str [9]] =
        .done true [.int 1, .int 7, .int 1] t' ∧
      onego bag E fuel t' [.int 2, .int 2, .str [7], .int 3, .int 1, .int 0] =
        .done true [.int 2, .int 3, .str [9], .str [], .str [1, 2]] t' := by
  have hi : C16.Increasing [(0, [1, 2]), (3, [9])] := by unfold C16.Increasing; decide
  have hf : C16.Fit Row.Bag.empty [(0, [1, 2]), (3, [9])] := by unfold C16.Fit; decide
  obtain ⟨N, h⟩ := put_new_then_get (E := E) (E' := E) hE (by rw [hts]; decide) (t := Verif.Trie.empty) (m := fun _ => none)
    empty_holds (k := [7]) (by decide) (fun v hv => by cases hv.1) (by decide) hi hf (.int 1) (.int 2)
  refine ⟨N, fun fuel hN => ?_⟩
  obtain ⟨t', e, g⟩ := h fuel hN
  exact ⟨t', e, g fuel [3, 1, 0] (by decide) (by decide)⟩

end Verif.Props.C35
