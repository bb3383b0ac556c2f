import Verif.Checkpoint.Model
import Verif.Row.BagLemmas
import Verif.Row.ArrayLemmas

/-!
# Checkpoints: rows are read back as they were written
-/
namespace Verif.Checkpoint
open Verif.Key (Byte Bytes)
open Verif.Msgpack

/-- A row type reads back what it wrote.  `good h r`: the row `r` in memory `h` is intact and not too large; `view h r`
is what can be observed of it.  Reading a row leaves the rows read before it alone. -/
structure Lawful {H R A : Type} (f : Format H R) (view : H → R → A) (good : H → R → Prop) : Prop where
  /-- A row that is read back looks like the one that was written, in any memory and whatever follows it. -/
  round : ∀ h r, good h r → ∃ w, f.write h r = some w ∧ ∀ h' rest, ∃ r' h'',
    f.read h' (f.ts r) (w ++ rest) = some (r', h'', rest) ∧ view h'' r' = view h r ∧ good h'' r' ∧
    ∀ x, good h' x → good h'' x ∧ view h'' x = view h' x

/-! ### Bags -/

theorem unle16_le16 {x : Nat} (h : x < 65536) : unle16 (UInt8.ofNat x) (UInt8.ofNat (x / 256)) = x := by
  unfold unle16
  simp only [UInt8.toNat_ofNat']
  omega

theorem unle16s_flatMap : ∀ {l : List Nat}, (∀ x ∈ l, x < 65536) → unle16s (l.flatMap le16) = l
  | [], _ => rfl
  | x :: l, h => by
    show unle16 (UInt8.ofNat x) (UInt8.ofNat (x / 256)) :: unle16s (l.flatMap le16) = x :: l
    rw [unle16_le16 (h x (by simp)), unle16s_flatMap (fun y hy => h y (by simp [hy]))]

theorem le16s_length (l : List Nat) : (l.flatMap le16).length = 2 * l.length := by
  induction l with
  | nil => rfl
  | cons x l ih => rw [List.flatMap_cons, List.length_append, ih]; show 2 + _ = _; simp; omega

/-- A bag row whose offsets fit. -/
def BagGood (r : Row.Bag.Row) : Prop := ∃ cs, Row.Bag.Fits cs ∧ r = Row.Bag.ofCols r.ts cs

theorem offs_le : ∀ {b : Nat} {cs : List Bytes} {x : Nat}, x ∈ Row.Bag.offs b cs → x ≤ b + cs.flatten.length
  | _, [], _, h => by cases h
  | b, c :: cs, x, h => by
    simp only [Row.Bag.offs, List.mem_cons] at h
    rcases h with h | h
    · omega
    · have := offs_le h; rw [List.flatten_cons, List.length_append]; omega

theorem bag_lawful : Lawful bag (fun _ r => r) (fun _ r => BagGood r) := by
  refine ⟨fun _ r hr => ?_⟩
  obtain ⟨cs, hf, hr⟩ := hr
  have hpos : r.pos.length = cs.length + 1 := by rw [hr]; simp [Row.Bag.ofCols]
  have hn : r.ncol = cs.length := by rw [hr]; rfl
  have hd : r.data = cs.flatten := by rw [hr]; rfl
  have hat : r.at r.ncol = Row.Bag.hdr cs.length + cs.flatten.length := by
    rw [hn, hr, Row.Bag.at_ofCols _ _ (Nat.le_refl _), List.take_length]
  have hlen : (bagImage r).length = r.at r.ncol := by
    rw [hat]; unfold bagImage Row.Bag.hdr
    rw [List.length_append, List.length_append, le16s_length, hpos, hd]
    show 2 + _ + _ = _; omega
  have hsmall : ∀ x ∈ r.pos, x < 65536 := by
    rw [hr]; intro x hx
    unfold Row.Bag.Fits at hf
    simp only [Row.Bag.ofCols, List.mem_append, List.mem_singleton] at hx
    rcases hx with hx | hx
    · have := offs_le hx; omega
    · omega
  have hncs : cs.length < 65536 := by unfold Row.Bag.Fits Row.Bag.hdr at hf; omega
  have hback : bagOfImage r.ts (bagImage r) = some r := by
    unfold bagImage
    show bagOfImage r.ts (UInt8.ofNat r.ncol :: UInt8.ofNat (r.ncol / 256) :: (r.pos.flatMap le16 ++ r.data)) = _
    unfold bagOfImage
    have hu : unle16 (UInt8.ofNat r.ncol) (UInt8.ofNat (r.ncol / 256)) = r.ncol := unle16_le16 (by omega)
    have hl : (r.pos.flatMap le16).length = 2 * (r.ncol + 1) := by rw [le16s_length, hpos, hn]
    dsimp only
    rw [hu, if_neg (by rw [List.length_append, hl]; omega), ← hl, List.take_left, List.drop_left, unle16s_flatMap hsmall]
  refine ⟨writeString (bagImage r), ?_, fun _ rest => ⟨r, (), ?_, rfl, ⟨cs, hf, hr⟩, fun x hx => ⟨hx, rfl⟩⟩⟩
  · show (if (bagImage r).length < r.at r.ncol then none else some (writeString ((bagImage r).take (r.at r.ncol)))) = _
    rw [if_neg (by omega), ← hlen, List.take_length]
  · show ((readStr (writeString (bagImage r) ++ rest)).bind fun (v, rest) => (bagOfImage r.ts v).map fun r => (r, (), rest)) = _
    rw [readStr_writeString (by rw [hlen, hat]; unfold Row.Bag.Fits at hf; omega)]
    show (bagOfImage r.ts (bagImage r)).map _ = _
    rw [hback]; rfl

/-! ### Strings -/

theorem known_some (v : Bytes) : known (v.map some) = some v := by
  induction v with
  | nil => rfl
  | cons b v ih => simp [known, ih]

/-- A string row all of whose bytes were written. -/
def StrGood (r : Row.Str.Row) : Prop := ∃ v : Bytes, r.s = v.map some ∧ v.length < 2147483648

theorem string_lawful : Lawful string (fun _ r => r) (fun _ r => StrGood r) := by
  refine ⟨fun _ r hr => ?_⟩
  obtain ⟨v, hv, hl⟩ := hr
  refine ⟨writeString v, ?_, fun _ rest => ⟨r, (), ?_, rfl, ⟨v, hv, hl⟩, fun x hx => ⟨hx, rfl⟩⟩⟩
  · show (known r.s).map writeString = _
    rw [hv, known_some]; rfl
  · show (readStr (writeString v ++ rest)).map (fun (v, rest) => (Row.Str.create1 v r.ts, (), rest)) = _
    rw [readStr_writeString hl]
    show some (Row.Str.create1 v r.ts, (), rest) = some (r, (), rest)
    congr 2
    unfold Row.Str.create1
    rw [← hv]

/-! ### Arrays -/

open Row.Array (Heap ptr Below)

theorem readCols_spec : ∀ (cs : List Bytes) (h : Heap) (rest : Bytes), (∀ c ∈ cs, c.length < 2147483648) →
    ∃ ps h', readCols h cs.length (cs.flatMap writeString ++ rest) = some (ps, h', rest) ∧ ps.length = cs.length ∧
      h.next ≤ h'.next ∧ (∀ p, p < h.next → h'.str p = h.str p) ∧ Below h'.next ps ∧
      (∀ i, h'.val (ptr ps i) = cs.getD i [])
  | [], h, rest, _ => ⟨[], h, rfl, rfl, Nat.le_refl _, fun _ _ => rfl, fun j p hp => by simp [ptr] at hp, fun i => rfl⟩
  | c :: cs, h, rest, hc => by
    obtain ⟨f1, _, f3, f4, f5⟩ := Row.Array.Heap.make_facts h c
    have hv := Row.Array.Heap.make_val h c
    obtain ⟨ps, h', g1, g2, g3, g4, g5, g6⟩ := readCols_spec cs (h.make c).2 rest (fun d hd => hc d (by simp [hd]))
    have hp1 : ∀ p, (h.make c).1 = some p → p < (h.make c).2.next := fun p hp => by
      have := f4 p hp; omega
    refine ⟨(h.make c).1 :: ps, h', ?_, by simp [g2], by omega, fun p hp => by rw [g4 p (by omega), f3 p hp], ?_, ?_⟩
    · rw [List.flatMap_cons, List.append_assoc, List.length_cons]
      unfold readCols
      rw [readStr_writeString (hc c (by simp))]
      dsimp only [Option.bind_some]
      rw [g1]; rfl
    · intro j p hp
      cases j with
      | zero => have := hp1 p (by simpa [ptr] using hp); omega
      | succ j => exact g5 j p (by simpa [ptr] using hp)
    · intro i
      cases i with
      | zero =>
        show h'.val (h.make c).1 = c
        refine Eq.trans ?_ hv
        cases hm : (h.make c).1 with
        | none => rfl
        | some p => exact g4 p (hp1 p hm)
      | succ i => exact g6 i

/-- What can be observed of an array row: its timestamp and its columns. -/
def arrayView (h : Heap) (r : Row.Array.Row) : BitVec 64 × List Bytes := (r.ts, (List.range r.cols.length).map (r.col h))

/-- An array row whose columns are in memory and not too large. -/
def ArrayGood (h : Heap) (r : Row.Array.Row) : Prop :=
  r.cols.length < 4294967296 ∧ Below h.next r.cols ∧ ∀ i, (r.col h i).length < 2147483648

theorem col_val (r : Row.Array.Row) (h : Heap) (i : Nat) : r.col h i = h.val (ptr r.cols i) := by
  unfold Row.Array.Row.col Row.Array.Heap.val ptr
  cases r.cols.getD i none <;> rfl

theorem val_stable {h h' : Heap} {cols : List (Option Nat)} {i : Nat} (hb : ∀ p, ptr cols i = some p → p < h.next)
    (hs : ∀ p, p < h.next → h'.str p = h.str p) : h'.val (ptr cols i) = h.val (ptr cols i) := by
  cases hp : ptr cols i with
  | none => rfl
  | some p => exact hs p (hb p hp)

theorem map_range_getD (cs : List Bytes) : (List.range cs.length).map (fun i => cs.getD i []) = cs := by
  apply List.ext_getElem
  · simp
  · intro i h1 h2; simp at h1; simp [h1]

theorem getD_map_range (g : Nat → Bytes) (n i : Nat) : ((List.range n).map g).getD i [] = if i < n then g i else [] := by
  by_cases h : i < n <;> simp [h]

theorem array_lawful : Lawful array arrayView ArrayGood := by
  refine ⟨fun h r hr => ⟨_, rfl, fun h' rest => ?_⟩⟩
  obtain ⟨hn, hb, hl⟩ := hr
  obtain ⟨ps, h'', g1, g2, g3, g4, g5, g6⟩ := readCols_spec ((List.range r.cols.length).map (r.col h)) h' rest (by
    intro c hc; obtain ⟨i, _, rfl⟩ := List.mem_map.mp hc; exact hl i)
  simp only [List.length_map, List.length_range] at g1 g2
  have hcol : ∀ i, Row.Array.Row.col ⟨r.ts, ps⟩ h'' i = if i < r.cols.length then r.col h i else [] := fun i => by
    rw [col_val]; show h''.val (ptr ps i) = _; rw [g6, getD_map_range]
  refine ⟨⟨r.ts, ps⟩, h'', ?_, ?_, ⟨by show ps.length < _; omega, g5, fun i => ?_⟩, fun x hx => ⟨⟨hx.1, fun j p hp => ?_, fun i => ?_⟩, ?_⟩⟩
  · show (readArrayHeader (writeCols _ ++ rest)).bind _ = _
    unfold writeCols
    rw [List.append_assoc, readArrayHeader_write (by simp; exact hn)]
    dsimp only [Option.bind_some]
    rw [List.length_map, List.length_range, g1]; rfl
  · show (r.ts, (List.range ps.length).map _) = (r.ts, _)
    rw [g2]
    congr 1
    apply List.map_congr_left
    intro i hi
    rw [hcol, if_pos (List.mem_range.mp hi)]
  · rw [hcol]; split
    · exact hl i
    · simp
  · have := hx.2.1 j p hp; omega
  · rw [col_val, val_stable (hx.2.1 i) g4, ← col_val]; exact hx.2.2 i
  · show (x.ts, _) = (x.ts, _)
    congr 1
    apply List.map_congr_left
    intro i _
    rw [col_val, val_stable (hx.2.1 i) g4, ← col_val]

/-- The same for versioned arrays. -/
def versionedView (h : Heap) (r : Row.Array.VRow) : BitVec 64 × List Bytes := (r.ts, (List.range r.ncol).map (r.col h))

def VersionedGood (h : Heap) (r : Row.Array.VRow) : Prop :=
  r.ncol < 4294967296 ∧ (∀ j p, j < r.ncol → ptr r.cols j = some p → p < h.next) ∧ ∀ i, (r.col h i).length < 2147483648

theorem vcol_val (r : Row.Array.VRow) (h : Heap) (i : Nat) : r.col h i = if i < r.ncol then h.val (ptr r.cols i) else [] := by
  unfold Row.Array.VRow.col Row.Array.Heap.val ptr
  cases r.cols.getD i none <;> rfl

theorem versioned_lawful : Lawful versioned versionedView VersionedGood := by
  refine ⟨fun h r hr => ⟨_, rfl, fun h' rest => ?_⟩⟩
  obtain ⟨hn, hb, hl⟩ := hr
  obtain ⟨ps, h'', g1, g2, g3, g4, g5, g6⟩ := readCols_spec ((List.range r.ncol).map (r.col h)) h' rest (by
    intro c hc; obtain ⟨i, _, rfl⟩ := List.mem_map.mp hc; exact hl i)
  simp only [List.length_map, List.length_range] at g1 g2
  have hcol : ∀ i, Row.Array.VRow.col ⟨r.ts, ps.length, ps⟩ h'' i = if i < r.ncol then r.col h i else [] := fun i => by
    rw [vcol_val]; show (if i < ps.length then h''.val (ptr ps i) else []) = _
    rw [g6, getD_map_range, g2]; split <;> rfl
  refine ⟨⟨r.ts, ps.length, ps⟩, h'', ?_, ?_, ⟨by show ps.length < _; omega, fun j p _ => g5 j p, fun i => ?_⟩,
    fun x hx => ?_⟩
  · show (readArrayHeader (writeCols _ ++ rest)).bind _ = _
    unfold writeCols
    rw [List.append_assoc, readArrayHeader_write (by simp; exact hn)]
    dsimp only [Option.bind_some]
    rw [List.length_map, List.length_range, g1]; rfl
  · show (r.ts, (List.range ps.length).map _) = (r.ts, _)
    rw [g2]
    congr 1
    apply List.map_congr_left
    intro i hi
    rw [g2] at hcol
    rw [hcol, if_pos (List.mem_range.mp hi)]
  · rw [hcol]; split
    · exact hl i
    · simp
  · have hs : ∀ i, x.col h'' i = x.col h' i := fun i => by
      rw [vcol_val, vcol_val]
      split
      · next hi => exact val_stable (fun p => hx.2.1 i p hi) g4
      · rfl
    refine ⟨⟨hx.1, fun j p hj hp => ?_, fun i => by rw [hs]; exact hx.2.2 i⟩, ?_⟩
    · have := hx.2.1 j p hj hp; omega
    · show (x.ts, _) = (x.ts, _)
      congr 1
      exact List.map_congr_left fun i _ => hs i

end Verif.Checkpoint
