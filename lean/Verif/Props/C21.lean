import Verif.Log.Record

/-!
# C21: log records round-trip and a torn tail loses only the torn record
-/
namespace Verif.Props.C21
open Verif.Log Verif.Key

/-- A log file: the records one after the other, each with the bytes its padding happens to hold. -/
def file : List (Rec × Bytes) → Bytes
  | [] => []
  | (r, pad) :: l => r.store pad ++ file l

/-- The records that can be written. -/
def Writable (l : List (Rec × Bytes)) : Prop := ∀ x ∈ l, x.1.Ok ∧ x.2.length = 4

/-- The records that fit completely into the first `n` bytes. -/
def fitting : Nat → List (Rec × Bytes) → List Rec
  | _, [] => []
  | n, (r, _) :: l => if r.size ≤ n then r :: fitting (n - r.size) l else []

/-- The records that replay reads from a file. -/
def read (bs : Bytes) : List (Option Rec) := (LR.init.readAll bs).map LR.record

theorem record_with (lr : LR) (r : Rec) : (lr.with r).record = some r ∧ (lr.with r).command ≠ cNone := by
  cases r with
  | kv c ts k v => exact ⟨by cases c <;> rfl, (code_cases c).2.1⟩
  | modify ts p k v => exact ⟨rfl, by show cModify ≠ 0; decide⟩
  | epoch e => exact ⟨rfl, by show cEpoch ≠ 0; decide⟩
  | quiesce => exact ⟨rfl, by show cQuiesce ≠ 0; decide⟩
  | wake => exact ⟨rfl, by show cWake ≠ 0; decide⟩

theorem size_pos (r : Rec) : 8 ≤ r.size := by cases r <;> simp [Rec.size] <;> omega

theorem readAll_cut : ∀ (l : List (Rec × Bytes)), Writable l → ∀ (n : Nat) (lr : LR),
    (lr.readAll ((file l).take n)).map LR.record = (fitting n l).map some
  | [], _, n, lr => by
    rw [LR.readAll]
    simp [file, fitting]
  | (r, pad) :: l, hw, n, lr => by
    have hr : r.Ok ∧ pad.length = 4 := hw (r, pad) (by simp)
    have hlen := store_length hr.2 r
    have h8 := size_pos r
    unfold fitting
    by_cases hn : r.size ≤ n
    · have e : (file ((r, pad) :: l)).take n = r.store pad ++ (file l).take (n - r.size) := by
        show (r.store pad ++ file l).take n = _
        rw [List.take_append, hlen, List.take_of_length_le (by rw [hlen]; exact hn)]
      have hne : r.store pad ++ (file l).take (n - r.size) ≠ [] := by
        intro h
        have := congrArg List.length h
        rw [List.length_append, hlen, List.length_nil] at this
        omega
      rw [if_pos hn, e, LR.readAll, if_neg hne]
      rw [extract_store lr hr.1 hr.2]
      dsimp only
      rw [dif_neg (record_with lr r).2, List.map_cons, (record_with lr r).1, List.map_cons,
        readAll_cut l (fun x hx => hw x (by simp [hx]))]
    · have e : (file ((r, pad) :: l)).take n = (r.store pad).take n := by
        show (r.store pad ++ file l).take n = _
        rw [List.take_append, hlen]
        have : n - r.size = 0 := by omega
        rw [this]; simp
      rw [if_neg hn, e, LR.readAll]
      split
      · rfl
      · rw [dif_pos (by rw [extract_cut lr hr.1 hr.2 (by omega)])]; rfl

theorem fitting_all (l : List (Rec × Bytes)) (hw : Writable l) (n : Nat) (hn : (file l).length ≤ n) :
    fitting n l = l.map Prod.fst := by
  induction l generalizing n with
  | nil => rfl
  | cons x l ih =>
    obtain ⟨r, pad⟩ := x
    have hlen := store_length (hw (r, pad) (by simp)).2 r
    have hn : (r.store pad ++ file l).length ≤ n := hn
    rw [List.length_append, hlen] at hn
    unfold fitting
    rw [if_pos (by omega), ih (fun x hx => hw x (by simp [hx])) _ (by omega)]; rfl

/-- Reading a log gives back exactly the records that were written, in order. -/
theorem round_trip (l : List (Rec × Bytes)) (hw : Writable l) : read (file l) = (l.map Prod.fst).map some := by
  have h := readAll_cut l hw (file l).length LR.init
  rw [List.take_length, fitting_all l hw _ (Nat.le_refl _)] at h
  exact h

/-- If the log is cut after `n` bytes, reading gives exactly the records that fit before the cut. -/
theorem torn (l : List (Rec × Bytes)) (hw : Writable l) (n : Nat) : read ((file l).take n) = (fitting n l).map some :=
  readAll_cut l hw n LR.init

/-- Those are all records before some point, and the next one does not fit. -/
theorem fitting_prefix (l : List (Rec × Bytes)) (hw : Writable l) (n : Nat) :
    ∃ m, fitting n l = (l.map Prod.fst).take m ∧ (file (l.take m)).length ≤ n ∧
      (m < l.length → n < (file (l.take (m + 1))).length) := by
  induction l generalizing n with
  | nil => exact ⟨0, rfl, by simp [file], fun h => by simp at h⟩
  | cons x l ih =>
    obtain ⟨r, pad⟩ := x
    have hlen := store_length (hw (r, pad) (by simp)).2 r
    unfold fitting
    by_cases hn : r.size ≤ n
    · obtain ⟨m, h1, h2, h3⟩ := ih (fun x hx => hw x (by simp [hx])) (n - r.size)
      refine ⟨m + 1, ?_, ?_, ?_⟩
      · rw [if_pos hn, h1]; rfl
      · show (r.store pad ++ file (l.take m)).length ≤ n
        rw [List.length_append, hlen]; omega
      · intro hm
        have := h3 (by simpa using hm)
        show n < (r.store pad ++ file (l.take (m + 1))).length
        rw [List.length_append, hlen]; omega
    · refine ⟨0, ?_, ?_, ?_⟩
      · rw [if_neg hn]; rfl
      · simp [file]
      · intro _
        show n < (r.store pad ++ file (l.take 0)).length
        rw [List.length_append, hlen]; omega

/-- Records appended after a whole log do not disturb what was there. -/
theorem append (l l' : List (Rec × Bytes)) (hw : Writable l) (hw' : Writable l') :
    read (file (l ++ l')) = read (file l) ++ read (file l') := by
  rw [round_trip _ (fun x hx => (List.mem_append.1 hx).elim (hw x) (hw' x)), round_trip l hw, round_trip l' hw']
  simp

/-- A key longer than `MASSTREE_MAXKEYLEN` can be stored and logged (only the client's handshake mentions
the limit), but reading the log stops in front of its record, losing everything after it. -/
theorem long_key_stops (k v : Bytes) (hk : maxKeyLen < k.length) (hsz : 24 + k.length + v.length < 2 ^ 32) (ts : Nat) (pad : Bytes)
    (hp : pad.length = 4) (l : List (Rec × Bytes)) : read (file ((.kv .put ts k v, pad) :: l)) = [] := by
  have hm : maxKeyLen = 255 := rfl
  generalize hbs : file ((.kv .put ts k v, pad) :: l) = bs
  have e : bs = le 4 cPut ++ (le 4 (24 + k.length + v.length) ++ (le 8 ts ++ (le 4 k.length ++ (k ++ (v ++ (pad ++ file l)))))) := by
    rw [← hbs]; simp [file, Rec.store, KvCmd.code, List.append_assoc]
  have f0 : field bs 0 4 = cPut := by
    rw [e]
    have := field_at (pre := []) (x := le 4 cPut) (post := le 4 (24 + k.length + v.length) ++ (le 8 ts ++ (le 4 k.length ++ (k ++ (v ++ (pad ++ file l))))))
      (off := 0) (k := 4) rfl (le_length _ _)
    rw [unle_le_of_lt (by decide)] at this
    exact this
  have f16 : field bs 16 4 = k.length := by
    rw [e]
    have := field_at (pre := le 4 cPut ++ le 4 (24 + k.length + v.length) ++ le 8 ts) (x := le 4 k.length) (post := k ++ (v ++ (pad ++ file l)))
      (off := 16) (k := 4) (by simp [le_length]) (le_length _ _)
    rw [unle_le_of_lt (by norm_num; omega)] at this
    simpa only [List.append_assoc] using this
  have hx : (LR.init.extract bs).1.command = cNone := by
    unfold LR.extract
    dsimp only
    rw [f0, f16]
    split
    · rfl
    · rw [if_pos (.inl rfl), if_pos (.inr (.inl hk))]
  unfold read
  rw [LR.readAll]
  rw [dif_pos hx]
  split <;> rfl

/-! ### Cases -/

def demo : List (Rec × Bytes) :=
  [(.epoch 7, [0, 0, 0, 0]), (.wake, [0, 0, 0, 0]), (.kv .put 2 [97] [0, 161, 120], [1, 2, 3, 4]),
    (.modify 4 2 [97] [1, 161, 121], [9, 9, 9, 9]), (.kv .remove 6 [97] [], [0, 0, 0, 0]), (.quiesce, [0, 0, 0, 0])]

example : Writable demo := by
  intro x hx
  simp only [demo, List.mem_cons, List.not_mem_nil, or_false] at hx
  rcases hx with rfl | rfl | rfl | rfl | rfl | rfl <;> simp [Rec.Ok, maxKeyLen]

example : (file demo).length = 121 := by decide +kernel
example : fitting 88 demo = [.epoch 7, .wake, .kv .put 2 [97] [0, 161, 120], .modify 4 2 [97] [1, 161, 121]] := by decide +kernel
example : fitting 87 demo = [.epoch 7, .wake, .kv .put 2 [97] [0, 161, 120]] := by decide +kernel

end Verif.Props.C21
