import Verif.Strings.Mutable

/-!
# C50: strings that share memory behave as values, and their memory is freed exactly when the last one goes
-/
namespace Verif.Props.C50

open Verif.Strings

/-- No strings; constant data `c`. -/
def start (c : Nat → Nat → UInt8) : State := ⟨c, fun _ => none, 0, []⟩

/-- The characters of string `i`, read from memory. -/
def chars (s : State) (i : Nat) : Option (List UInt8) := (s.rep i).bind fun r => s.read r.data r.length

theorem start_rel (c : Nat → Nat → UInt8) : RelC c (start c) [] [] := by
  refine ⟨rfl, ⟨?_, ?_, ?_, fun m _ => rfl⟩, rfl, ?_⟩
  · intro m M h; cases h
  · intro i r h; simp [start] at h
  · intro m h; cases h
  · intro i x a h; simp [start] at h

theorem rel_chars {c : Nat → Nat → UInt8} {s : State} {A : List AVal} (h : RelC c s [] A) {i : Nat} {v : List UInt8}
    (hv : A[i]? = some (.val v)) : chars s i = some v := by
  obtain ⟨r, h1, h2, h3⟩ := h.get' (i := i) (v := v) (by simp [aget, hv])
  simp only [chars, h1, Option.bind_some]
  exact h3.read h.inv

/-- Whatever a program does with strings that it has neither destroyed nor moved from, in any order: no freed memory and no
byte beyond a memo is touched, and every string has the characters it has when strings are values that share nothing. -/
theorem values (c : Nat → Nat → UInt8) (ops : List Op) (A : List AVal) (ha : arun c [] ops = some A) :
    ∃ s, (start c).run ops = some s ∧ s.strs.length = A.length ∧ ∀ i v, A[i]? = some (.val v) → chars s i = some v := by
  obtain ⟨s, h1, h2⟩ := run_rel (start_rel c) ha
  exact ⟨s, h1, h2.len, fun i v hv => rel_chars h2 hv⟩

/-- A memo exists as long as strings hold it: its reference count is how many. -/
theorem memory {c : Nat → Nat → UInt8} {ops : List Op} {A : List AVal} (ha : arun c [] ops = some A) {s : State}
    (hs : (start c).run ops = some s) (m : Nat) :
    (∀ M, s.heap m = some M → 0 < M.refcount ∧ M.refcount = (s.strs.filter fun x => decide (x.bind Rep.memo = some m)).length) ∧
    (s.heap m = none → ∀ (i : Nat) (r : Rep), s.strs[i]? = some (some r) → r.memo ≠ some m) := by
  obtain ⟨s', h1, h2⟩ := run_rel (start_rel c) ha
  rw [hs] at h1; cases h1
  refine ⟨fun M hM => ?_, fun hn i r hr hm => ?_⟩
  · have := h2.inv.refs m M hM
    refine ⟨this.2.1, ?_⟩
    rw [this.1, cnt, List.countP_eq_length_filter]
    simp
  · obtain ⟨M, o, h3, _⟩ := h2.inv.held i r hr m hm
    rw [hn] at h3; cases h3

/-- When all strings are destroyed, all memory is freed. -/
theorem no_leak {c : Nat → Nat → UInt8} {ops : List Op} {A : List AVal} (ha : arun c [] ops = some A) {s : State}
    (hs : (start c).run ops = some s) (hg : ∀ a ∈ A, a = .gone) (m : Nat) : s.heap m = none := by
  obtain ⟨s', h1, h2⟩ := run_rel (start_rel c) ha
  rw [hs] at h1; cases h1
  cases hm : s.heap m with
  | none => rfl
  | some M =>
    exfalso
    obtain ⟨h3, h4⟩ := (memory ha hs m).1 M hm
    rw [h4] at h3
    obtain ⟨x, hx⟩ := List.exists_mem_of_length_pos h3
    rw [List.mem_filter] at hx
    obtain ⟨j, hj, rfl⟩ := List.mem_iff_getElem.1 hx.1
    have hlt : j < A.length := by rw [← h2.len]; exact hj
    have := h2.agree j _ _ (List.getElem?_eq_getElem hj) (List.getElem?_eq_getElem hlt)
    rw [hg _ (List.getElem_mem hlt)] at this
    cases hsx : s.strs[j] with
    | none => rw [hsx] at hx; simp at hx
    | some r => rw [hsx] at this; exact this

/-- `c_str`: the characters of the string, followed by a NUL.  No string changes. -/
theorem c_str {c : Nat → Nat → UInt8} {ops : List Op} {A : List AVal} (ha : arun c [] ops = some A) {s : State}
    (hs : (start c).run ops = some s) {i : Nat} {v : List UInt8} (hv : A[i]? = some (.val v)) :
    ∃ s' r, s.cstr i = some s' ∧ s'.rep i = some r ∧ s'.read r.data (v.length + 1) = some (v ++ [0]) ∧
      ∀ j w, A[j]? = some (.val w) → chars s' j = some w := by
  obtain ⟨s', h1, h2⟩ := run_rel (start_rel c) ha
  rw [hs] at h1; cases h1
  obtain ⟨s', r, h3, h4, h5, h6⟩ := cstr_spec h2 (i := i) (v := v) (by simp [aget, hv])
  have hlt : i < A.length := (List.getElem?_eq_some_iff.1 hv).1
  have hlen : r.length = v.length := (h4.agree i (some r) (.val v) h5 hv).1
  exact ⟨s', r, h3, rep_eq h5, by rw [← hlen]; exact h6, fun j w hw => rel_chars h4 hw⟩

/-- `substr(pos, len)` with neither negative. -/
theorem slice_nonneg (v : List UInt8) (pos len : Nat) : slice v pos len = (v.drop pos).take len := by
  obtain ⟨h1, h2, h3⟩ : 0 ≤ (pos : Int) ∧ min v.length (pos + len) ≤ v.length ∧ True := ⟨by omega, Nat.min_le_left .., trivial⟩
  unfold slice
  have h4 : (List.range v.length).filter (fun k : Nat => decide (sliceFrom v.length pos ≤ (k : Int) ∧ (k : Int) < sliceTo v.length pos len)) =
      (List.range v.length).filter (fun k => decide (pos ≤ k ∧ k < min v.length (pos + len))) := by
    refine List.filter_congr fun k hk => decide_eq_decide.2 ?_
    rw [List.mem_range] at hk
    unfold sliceTo sliceFrom
    rw [if_neg (by omega), if_neg (by omega)]
    omega
  rw [h4, map_range_filter _ _ _ h2, List.map_map]
  apply List.ext_getElem
  · simp; omega
  · intro k h5 h6
    simp only [List.length_map, List.length_range] at h5
    have : pos + k < v.length := by omega
    simp [this]

/-- `substr(-pos, len)`: the position counts from the end. -/
theorem slice_from_end (v : List UInt8) (pos len : Nat) (h : 0 < pos) (hp : pos ≤ v.length) :
    slice v (-(pos : Int)) len = (v.drop (v.length - pos)).take len := by
  rw [← slice_nonneg]
  unfold slice sliceTo sliceFrom
  rw [if_pos (show -(pos : Int) < 0 by omega), if_neg (show ¬ (len : Int) < 0 by omega),
    if_neg (show ¬ ((v.length - pos : Nat) : Int) < 0 by omega)]
  congr 1
  refine List.filter_congr fun k hk => decide_eq_decide.2 ?_
  omega

/-- `substr(pos, -len)`: without the last `len` characters. -/
theorem slice_without_end (v : List UInt8) (pos len : Nat) (h : 0 < len) :
    slice v pos (-(len : Int)) = (v.take (v.length - len)).drop pos := by
  have : (v.take (v.length - len)).drop pos = (v.drop pos).take (v.length - len - pos) := by rw [List.drop_take]
  rw [this, ← slice_nonneg]
  unfold slice sliceTo sliceFrom
  rw [if_pos (show -(len : Int) < 0 by omega), if_neg (show ¬ (pos : Int) < 0 by omega),
    if_neg (show ¬ ((v.length - len - pos : Nat) : Int) < 0 by omega)]
  congr 1
  refine List.filter_congr fun k hk => decide_eq_decide.2 ?_
  rw [List.mem_range] at hk
  omega

/-- A program that writes through `mutable_data` of a string whose memo no other string holds changes that string and no
other. -/
theorem mutable_unshared {c : Nat → Nat → UInt8} {ops : List Op} {A : List AVal} (ha : arun c [] ops = some A) {s : State}
    (hs : (start c).run ops = some s) {i : Nat} {v : List UInt8} (hv : A[i]? = some (.val v))
    (ho : ∀ (j : Nat) (r r' : Rep) (m : Nat), j ≠ i → s.rep i = some r → s.rep j = some r' → r.memo = some m → r'.memo ≠ some m)
    {k : Nat} (hk : k < v.length) (b : UInt8) :
    ∃ s1 r s2, s.mutableData i = some s1 ∧ s1.rep i = some r ∧ s1.write (r.data.add k) [b] = some s2 ∧
      chars s2 i = some (v.set k b) ∧ ∀ j w, j ≠ i → A[j]? = some (.val w) → chars s2 j = some w := by
  obtain ⟨s', h1, h2⟩ := run_rel (start_rel c) ha
  rw [hs] at h1; cases h1
  obtain ⟨s1, r, h3, h4, h5, h6, h7⟩ := mutable_spec h2 (i := i) (v := v) (by simp [aget, hv]) (fun j r r' m hj hr hr' =>
    ho j r r' m hj (rep_eq hr) (rep_eq hr'))
  obtain ⟨m, h8, h9⟩ := h7 (by rintro rfl; simp at hk)
  obtain ⟨s2, h10, h11⟩ := write_own h4 h5 h6 h8 h9 hk b
  have hlt : i < A.length := (List.getElem?_eq_some_iff.1 hv).1
  refine ⟨s1, r, s2, h3, rep_eq h5, h10, rel_chars h11 (List.getElem?_set_self hlt), fun j w hj hw => rel_chars h11 ?_⟩
  rw [List.getElem?_set_ne (Ne.symm hj)]; exact hw

/-! ## Where the code fails -/

/-- Constant data for the cases below. -/
def zeros : Nat → Nat → UInt8 := fun _ _ => 0

/-- `mutable_data` promises data that is not shared (/repo/string.cc:822-823), but `is_shared` is true for memos with one
reference, not for those with more (/repo/string.hh:783-786).  Of a string that shares its memo `mutable_data` returns the shared
data: here a write to string 1 changes string 0. -/
theorem mutable_shared : ∃ s r s1, (start zeros).run [.bytes [97, 98], .copy 0] = some s ∧ s.mutableData 1 = some s ∧ s.rep 1 = some r ∧
    s.write r.data [88] = some s1 ∧ chars s 0 = some [97, 98] ∧ chars s1 0 = some [88, 98] :=
  ⟨_, _, _, rfl, rfl, rfl, rfl, by decide +kernel, by decide +kernel⟩

/-- A string that was moved from still has its length and data, but no reference.  If it is read after the new string is
destroyed, freed memory is: here by a copy of its characters to another. -/
theorem moved_from_dangles : ∃ s, (start zeros).run [.bytes [97, 98], .moveNew 0, .destroy 1, .empty] = some s ∧
    (s.rep 0).map Rep.length = some 2 ∧ s.step (.append 2 0) = none :=
  ⟨_, rfl, rfl, rfl⟩

/-- `unique` is to return a string that shares no data with any other (/repo/string.hh:793-795), but if the string alone holds its
memo it returns a copy that shares it with the string itself. -/
theorem unique_shares : ∃ s, (start zeros).run [.bytes [97, 98], .unique 0] = some s ∧ (s.rep 0).bind Rep.memo = some 0 ∧
    (s.rep 1).bind Rep.memo = some 0 :=
  ⟨_, rfl, rfl, rfl⟩

/-- A string moved to itself frees its memo and keeps referring to it. -/
theorem self_move_dangles : ∃ s, (start zeros).run [.bytes [97, 98], .moveAssign 0 0, .empty] = some s ∧
    (s.rep 0).map Rep.length = some 2 ∧ s.step (.append 1 0) = none :=
  ⟨_, rfl, rfl, rfl⟩

/-- `substr(INT_MAX, 1)` of two characters overflows instead of giving the empty string (/repo/string.cc:898). -/
theorem substr_overflow : substrBounds (2 ^ 31 - 1) 1 2 = none ∧ slice [97, 98] (2 ^ 31 - 1) 1 = [] := by
  decide +kernel

/-! ## Cases -/

/-- Two strings share a memo and both grow: the first in place, the other in a new memo.  One is appended to itself; a substring
shares its memo. -/
def grow : List Op :=
  [.bytes [97, 98], .copy 0, .appendBytes 0 [99], .appendBytes 1 [100], .append 0 0, .substr 0 (-4) 3, .cstr 2, .assignPart 0 0 1 2]

example : arun zeros [] grow = some [.val [98, 99], .val [97, 98, 100], .val [99, 97, 98]] := by decide +kernel

example : ∃ s, (start zeros).run grow = some s ∧ chars s 0 = some [98, 99] ∧ chars s 1 = some [97, 98, 100] ∧ chars s 2 = some [99, 97, 98] :=
  ⟨_, rfl, by decide +kernel, by decide +kernel, by decide +kernel⟩

/-- All is freed. -/
def bye : List Op := grow ++ [.moveNew 1, .destroy 0, .destroy 3, .destroy 1, .destroy 2]

example : ∃ A, arun zeros [] bye = some A ∧ ∀ a ∈ A, a = .gone := ⟨_, rfl, by decide +kernel⟩

/-- A string that alone holds its memo. -/
example : ∃ s, (start zeros).run [.bytes [97, 98]] = some s ∧
    ∀ (j : Nat) (r r' : Rep) (m : Nat), j ≠ 0 → s.rep 0 = some r → s.rep j = some r' → r.memo = some m → r'.memo ≠ some m := by
  refine ⟨_, rfl, fun j r r' m hj _ hr' => ?_⟩
  cases j with
  | zero => exact absurd rfl hj
  | succ j => cases hr'

end Verif.Props.C50
