import Verif.Row.Str

/-!
# C18: substring rows: put writes exactly the addressed byte ranges
-/
namespace Verif.Props.C18
open Verif.Row.Str Verif.Key

/-- The byte the updates give for position `j`: from the last update that covers it. -/
def written : List (Nat × Bytes) → Nat → Option Byte
  | [], _ => none
  | (idx, v) :: ups, j =>
    match written ups j with
    | some b => some b
    | none => if idx % 65536 ≤ j ∧ j < idx % 65536 + v.length then v[j - idx % 65536]? else none

theorem written_cons (idx : Nat) (v : Bytes) (ups : List (Nat × Bytes)) (j : Nat) :
    written ((idx, v) :: ups) j = (match written ups j with
      | some b => some b
      | none => if idx % 65536 ≤ j ∧ j < idx % 65536 + v.length then v[j - idx % 65536]? else none) := rfl

/-- The largest position, plus one, that the updates write. -/
def extent (ups : List (Nat × Bytes)) : Nat := ups.foldr (fun u n => max (u.1 % 65536 + u.2.length) n) 0

/-- How much of a string of length `n` is kept: all of it, unless the whole column (index 0) is written;
then as much as the last such value. -/
def kept (n : Nat) (ups : List (Nat × Bytes)) : Nat :=
  match ups.reverse.find? fun u => u.1 == 0 with
  | some u => u.2.length
  | none => n

theorem sizes_eq : ∀ (ups : List (Nat × Bytes)) (v c : Nat), sizes ups (v, c) = (max v (extent ups), kept c ups)
  | [], v, c => by simp [sizes, extent, kept]
  | (idx, x) :: ups, v, c => by
    unfold sizes
    rw [sizes_eq ups]
    have h1 : extent ((idx, x) :: ups) = max (idx % 65536 + x.length) (extent ups) := rfl
    have h2 : indexOffset idx = idx % 65536 := rfl
    refine Prod.ext ?_ ?_
    · show max (max v (indexOffset idx + x.length)) (extent ups) = max v (extent ((idx, x) :: ups))
      rw [h1, h2]; omega
    · show kept (if idx = 0 then x.length else c) ups = kept c ((idx, x) :: ups)
      unfold kept
      rw [List.reverse_cons, List.find?_append]
      cases hf : List.find? (fun u : Nat × Bytes => u.1 == 0) ups.reverse with
      | some u => rfl
      | none =>
        by_cases h : idx = 0
        · subst h; simp
        · simp [h]

theorem write_length {dst : List (Option Byte)} {off : Nat} {v : Bytes} (h : off + v.length ≤ dst.length) :
    (write dst off v).length = dst.length := by
  unfold write
  simp only [List.length_append, List.length_take, List.length_map, List.length_drop]
  omega

theorem write_get {dst : List (Option Byte)} {off : Nat} {v : Bytes} (h : off + v.length ≤ dst.length) (j : Nat) :
    (write dst off v)[j]? = if off ≤ j ∧ j < off + v.length then v[j - off]?.map some else dst[j]? := by
  unfold write
  have hl : (dst.take off).length = off := by rw [List.length_take]; omega
  have hl2 : (dst.take off ++ v.map some).length = off + v.length := by simp [hl]
  by_cases h1 : j < off
  · rw [if_neg (by omega), List.getElem?_append_left (by omega), List.getElem?_append_left (by omega),
      List.getElem?_take, if_pos h1]
  · by_cases h2 : j < off + v.length
    · rw [if_pos ⟨by omega, h2⟩, List.getElem?_append_left (by omega), List.getElem?_append_right (by omega), hl,
        List.getElem?_map]
    · rw [if_neg (by omega), List.getElem?_append_right (by omega), hl2, List.getElem?_drop]
      congr 1; omega

theorem writeAll_spec : ∀ (ups : List (Nat × Bytes)) (dst : List (Option Byte)), extent ups ≤ dst.length →
    ∃ s, writeAll dst ups = some s ∧ s.length = dst.length ∧
      ∀ j, s[j]? = (match written ups j with | some b => some (some b) | none => dst[j]?)
  | [], dst, _ => ⟨dst, rfl, rfl, fun _ => rfl⟩
  | (idx, v) :: ups, dst, h => by
    have h1 : extent ((idx, v) :: ups) = max (idx % 65536 + v.length) (extent ups) := rfl
    have ho : indexOffset idx = idx % 65536 := rfl
    have hw : indexOffset idx + v.length ≤ dst.length := by omega
    obtain ⟨s, e, l, g⟩ := writeAll_spec ups (write dst (indexOffset idx) v) (by rw [write_length hw]; omega)
    refine ⟨s, ?_, by rw [l, write_length hw], fun j => ?_⟩
    · unfold writeAll; rw [if_pos hw]; exact e
    · rw [g j, write_get hw, ho, written_cons]
      cases written ups j with
      | some b => rfl
      | none =>
        by_cases hj : idx % 65536 ≤ j ∧ j < idx % 65536 + v.length
        · simp only [if_pos hj]
          have : j - idx % 65536 < v.length := by omega
          rw [List.getElem?_eq_getElem this]
          rfl
        · simp only [if_neg hj]

/-- Any put: the new string is as long as the longer of what is kept and what is written; each byte is
the one written last there, else the old one if it is kept, else undefined; and bytes past the
end of the old row are read exactly when the whole column is replaced by a longer value. -/
theorem update_spec (r : Row) (ups : List (Nat × Bytes)) (ts : BitVec 64) :
    ∃ r', r.update ups ts = some (decide (r.s.length < kept r.s.length ups), r') ∧ r'.ts = ts ∧
      r'.s.length = max (extent ups) (kept r.s.length ups) ∧
      ∀ j, j < r'.s.length → r'.s[j]? = some (match written ups j with
        | some b => some b
        | none => if j < kept r.s.length ups then (r.s[j]?).getD none else none) := by
  have hm := sizes_eq ups 0 r.s.length
  rw [Nat.max_eq_right (Nat.zero_le _)] at hm
  generalize hc : kept r.s.length ups = cut at *
  have hlen : (r.s.take cut ++ List.replicate (max (extent ups) cut - min cut r.s.length) none).length =
      max (extent ups) cut := by
    rw [List.length_append, List.length_take, List.length_replicate]; omega
  obtain ⟨s, e, l, g⟩ := writeAll_spec ups
    (r.s.take cut ++ List.replicate (max (extent ups) cut - min cut r.s.length) none) (by rw [hlen]; omega)
  refine ⟨⟨ts, s⟩, ?_, rfl, by rw [← hlen]; exact l, ?_⟩
  · unfold Row.update
    rw [hm]
    simp only [e]
  · intro j hj
    show s[j]? = _
    have hj' : j < max (extent ups) cut := by rw [← hlen, ← l]; exact hj
    rw [g j]
    cases written ups j with
    | some b => rfl
    | none =>
      simp only
      by_cases h1 : j < min cut r.s.length
      · rw [List.getElem?_append_left (by rw [List.length_take]; omega), List.getElem?_take, if_pos (by omega),
          if_pos (by omega), List.getElem?_eq_getElem (show j < r.s.length by omega)]
        rfl
      · rw [List.getElem?_append_right (by rw [List.length_take]; omega), List.getElem?_replicate,
          if_pos (by rw [List.length_take]; omega)]
        by_cases h2 : j < cut
        · rw [if_pos h2, List.getElem?_eq_none (show r.s.length ≤ j by omega)]; rfl
        · rw [if_neg h2]

/-- The whole row is defined. -/
def Defined (r : Row) : Prop := ∀ b ∈ r.s, b.isSome = true

/-- The updates leave no gap: each one starts at or before the end of the string so far. -/
def NoGap : Nat → List (Nat × Bytes) → Prop
  | _, [] => True
  | n, (idx, v) :: ups => idx % 65536 ≤ n ∧ NoGap (max n (idx % 65536 + v.length)) ups

theorem written_of_noGap : ∀ (ups : List (Nat × Bytes)) (n : Nat), NoGap n ups → ∀ j, n ≤ j → j < extent ups →
    (written ups j).isSome = true
  | [], _, _, j, _, h => by simp [extent] at h
  | (idx, v) :: ups, n, hg, j, hn, hj => by
    have h1 : extent ((idx, v) :: ups) = max (idx % 65536 + v.length) (extent ups) := rfl
    have h2 := hg.1
    rw [written_cons]
    cases hw : written ups j with
    | some b => rfl
    | none =>
      simp only
      by_cases hc : j < idx % 65536 + v.length
      · rw [if_pos ⟨by omega, hc⟩, List.getElem?_eq_getElem (by omega)]; rfl
      · have := written_of_noGap ups _ hg.2 j (by omega) (by omega)
        rw [hw] at this; cases this

/-- Putting substrings (no whole-column write) without a gap into a defined row: the result is the old
string overlaid with the new bytes, extended if needed, every byte defined, nothing read past the
old row's end. -/
theorem overlay_spec {r : Row} (hd : Defined r) {ups : List (Nat × Bytes)} (h0 : ∀ u ∈ ups, u.1 ≠ 0)
    (hg : NoGap r.s.length ups) (ts : BitVec 64) :
    ∃ r', r.update ups ts = some (false, r') ∧ r'.ts = ts ∧ Defined r' ∧ r'.s.length = max r.s.length (extent ups) ∧
      (∀ j b, written ups j = some b → r'.s[j]? = some (some b)) ∧
      (∀ j, j < r.s.length → written ups j = none → r'.s[j]? = r.s[j]?) := by
  have hk : kept r.s.length ups = r.s.length := by
    unfold kept
    have : ups.reverse.find? (fun u => u.1 == 0) = none := by
      rw [List.find?_eq_none]
      intro u hu
      simpa using h0 u (by simpa using hu)
    rw [this]
  obtain ⟨r', e, t, l, g⟩ := update_spec r ups ts
  rw [hk] at e l g
  have hwl : ∀ (us : List (Nat × Bytes)) j b, written us j = some b → j < extent us := by
    intro us
    induction us with
    | nil => intro j b h; cases h
    | cons u us ih =>
      obtain ⟨idx, v⟩ := u
      intro j b h
      have h1 : extent ((idx, v) :: us) = max (idx % 65536 + v.length) (extent us) := rfl
      rw [written_cons] at h
      cases hw : written us j with
      | some b' => have := ih j b' hw; omega
      | none =>
        rw [hw] at h
        simp only at h
        split at h
        · omega
        · cases h
  refine ⟨r', by rw [e, decide_eq_false (Nat.lt_irrefl _)], t, ?_, by rw [l]; omega, ?_, ?_⟩
  · intro b hb
    obtain ⟨j, hj, e'⟩ := List.mem_iff_getElem.1 hb
    have hgj := g j hj
    rw [List.getElem?_eq_getElem hj, e'] at hgj
    have hgj := Option.some.inj hgj
    cases hw : written ups j with
    | some b' => rw [hw] at hgj; rw [hgj]; rfl
    | none =>
      rw [hw] at hgj
      simp only at hgj
      by_cases hjl : j < r.s.length
      · rw [if_pos hjl, List.getElem?_eq_getElem hjl] at hgj
        rw [hgj]; exact hd _ (List.getElem_mem hjl)
      · have := written_of_noGap ups _ hg j (by omega) (by omega)
        rw [hw] at this; cases this
  · intro j b hw
    rw [g j (by have := hwl ups j b hw; omega), hw]
  · intro j hj hw
    rw [g j (by omega), hw]
    simp only [if_pos hj]
    rw [List.getElem?_eq_getElem hj]
    rfl

/-- Replacing the whole column gives exactly the new value; nothing is read past the old row's end if
the value is not longer than the old one. -/
theorem replace_spec (r : Row) (v : Bytes) (ts : BitVec 64) :
    ∃ r', r.update [(0, v)] ts = some (decide (r.s.length < v.length), r') ∧ r'.s = v.map some := by
  obtain ⟨r', e, -, l, g⟩ := update_spec r [(0, v)] ts
  have hk : kept r.s.length [(0, v)] = v.length := rfl
  have hx : extent [(0, v)] = v.length := by simp [extent]
  rw [hk] at e l g
  rw [hx] at l
  refine ⟨r', e, List.ext_getElem? fun j => ?_⟩
  by_cases hj : j < v.length
  · rw [g j (by omega)]
    have : written [(0, v)] j = v[j]? := by simp [written, hj]
    rw [this, List.getElem?_map, List.getElem?_eq_getElem hj]
    rfl
  · rw [List.getElem?_eq_none (by omega), List.getElem?_eq_none (by simp; omega)]

/-- A substring index reads the bytes it addresses, cut at the end of the string. -/
theorem col_spec (r : Row) (off len : Nat) (ho : off < 2 ^ 16) (hl : len < 2 ^ 16) (hne : off ≠ 0 ∨ len ≠ 0) (j : Nat) :
    (r.col (makeIndex off len))[j]? = if j < len then r.s[off + j]? else none := by
  have hidx : makeIndex off len = off + len * 65536 := by
    unfold makeIndex; exact Nat.mod_eq_of_lt (by omega)
  unfold Row.col
  have h1 : indexOffset (off + len * 65536) = off := by unfold indexOffset; omega
  have h2 : indexLength (off + len * 65536) = len := by unfold indexLength; omega
  rw [hidx, if_neg (by omega)]
  simp only [h1, h2]
  rw [List.getElem?_take, List.getElem?_drop]
  by_cases hj : j < len
  · rw [if_pos hj]
    by_cases hin : off + j < r.s.length
    · rw [if_pos (by omega)]
      congr 1; omega
    · rw [List.getElem?_eq_none (show r.s.length ≤ off + j by omega)]
      split
      · exact List.getElem?_eq_none (by omega)
      · rfl
  · rw [if_neg (by omega), if_neg hj]

/-- Reading back a substring just put gives the value put. -/
theorem col_after_put {r : Row} (hd : Defined r) (off : Nat) (v : Bytes) (ho : off ≤ r.s.length) (h16 : off < 2 ^ 16)
    (hv : v.length < 2 ^ 16) (hne : v ≠ []) (ts : BitVec 64) :
    ∃ r', r.update [(makeIndex off v.length, v)] ts = some (false, r') ∧
      r'.col (makeIndex off v.length) = v.map some := by
  have hvl : 0 < v.length := List.length_pos_iff.2 hne
  have hidx : makeIndex off v.length = off + v.length * 65536 := by
    unfold makeIndex; exact Nat.mod_eq_of_lt (by omega)
  have hmod : makeIndex off v.length % 65536 = off := by rw [hidx]; omega
  obtain ⟨r', e, -, -, -, w, -⟩ := overlay_spec hd (ups := [(makeIndex off v.length, v)])
    (by intro u hu; simp at hu; subst hu; show makeIndex off v.length ≠ 0; rw [hidx]; omega)
    ⟨by rw [hmod]; exact ho, trivial⟩ ts
  refine ⟨r', e, List.ext_getElem? fun j => ?_⟩
  rw [col_spec r' off v.length h16 hv (.inr (by omega))]
  by_cases hj : j < v.length
  · rw [if_pos hj, List.getElem?_map, List.getElem?_eq_getElem hj]
    apply w
    rw [written_cons, hmod]
    simp only [written]
    rw [if_pos ⟨by omega, by omega⟩, Nat.add_sub_cancel_left, List.getElem?_eq_getElem hj]
  · rw [if_neg hj, List.getElem?_eq_none (by simp; omega)]

/-! ### Cases -/

def demo : Row := { ts := 2, s := [some 1, some 2, some 3] }

example : Defined demo := by unfold Defined; decide

/-- Overlay at 2 and 4: the string grows to 6. -/
example : (demo.update [(makeIndex 2 2, [8, 9]), (makeIndex 4 2, [7, 6])] 4).map (fun x => (x.1, x.2.s)) =
    some (false, [some 1, some 2, some 8, some 9, some 7, some 6]) := by decide

example : NoGap demo.s.length [(makeIndex 2 2, [8, 9]), (makeIndex 4 2, [7, 6])] := by
  unfold NoGap NoGap NoGap; decide

/-! ### What does not hold -/

/-- A substring past the end of the string leaves bytes undefined in between. -/
theorem gap_undefined : (demo.update [(makeIndex 5 1, [9])] 4).map (fun x => x.2.s) =
    some [some 1, some 2, some 3, none, none, some 9] := by decide

/-- Replacing the whole column by a longer value reads past the end of the old row. -/
theorem longer_replace_overreads : (demo.update [(0, [1, 2, 3, 4])] 4).map Prod.fst = some true := by decide

/-- Creating a row from any non-empty value of column 0 reads past the end of the empty row on the
stack. -/
theorem create_overreads (v : Bytes) (hv : v ≠ []) (ts : BitVec 64) : (create [(0, v)] ts).map Prod.fst = some true := by
  obtain ⟨r', e, -⟩ := replace_spec { ts := 0, s := [] } v ts
  unfold create
  rw [e]
  have : 0 < v.length := List.length_pos_iff.2 hv
  simp [this]

/-- A whole-column value followed by a longer one: the first value's tail survives only up to the
second's length. -/
example : (demo.update [(0, [7]), (makeIndex 1 1, [9])] 4).map (fun x => x.2.s) = some [some 7, some 9] := by decide

end Verif.Props.C18
