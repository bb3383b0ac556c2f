import Mathlib.Tactic.NormNum
import Verif.Key.Model

/-!
# Log records

Model of the record formats and their reading: `logrec_base`, `logrec_epoch`, `logrec_kv`,
`logrec_kvdelta` and `logrecord::extract`, /repo/log.cc:47-153 and 443-487.

The compiler pads `logrec_kv` (20 bytes of fields) to 24 and `logrec_kvdelta` (28 bytes) to 32.  The
key starts right after the fields but the record's size counts the padding, so a record ends with
four bytes that are never written and hold what the log buffer held before.  They are the
argument `pad`.  Numbers are little-endian.

Bytes read beyond the end of the file are zero, as in the last page of a mapping.  This matters only
for a `kMOD` record with a size below 28, which is then rejected; at the end of the last page, the
read would fault.
-/
namespace Verif.Log
open Verif.Key (Byte Bytes)

/-- A number in `k` bytes, little-endian. -/
def le : Nat → Nat → Bytes
  | 0, _ => []
  | k + 1, x => UInt8.ofNat x :: le k (x / 256)

def unle : Bytes → Nat
  | [] => 0
  | b :: bs => b.toNat + 256 * unle bs

/-! ### Commands, /repo/log.hh:120-129 -/

def cNone : Nat := 0
def cPut : Nat := 0x5455506B
def cReplace : Nat := 0x3155506B
def cModify : Nat := 0x444F4D6B
def cRemove : Nat := 0x4D45526B
def cEpoch : Nat := 0x4F50456B
def cQuiesce : Nat := 0x4955516B
def cWake : Nat := 0x4B41576B

/-- `MASSTREE_MAXKEYLEN`, default of /repo/configure.ac:335. -/
def maxKeyLen : Nat := 255

inductive KvCmd where
  | put
  | replace
  | remove
  deriving DecidableEq

def KvCmd.code : KvCmd → Nat
  | .put => cPut
  | .replace => cReplace
  | .remove => cRemove

/-- A log record. -/
inductive Rec where
  | kv (c : KvCmd) (ts : Nat) (key val : Bytes)
  | modify (ts prev : Nat) (key val : Bytes)
  | epoch (e : Nat)
  | quiesce
  | wake
  deriving DecidableEq

/-- The value of `size_`. -/
def Rec.size : Rec → Nat
  | .kv _ _ k v => 24 + k.length + v.length
  | .modify _ _ k v => 32 + k.length + v.length
  | .epoch _ => 16
  | .quiesce => 8
  | .wake => 8

/-- The functions `store`, /repo/log.cc:54-60, 79-86, 103-115, 134-147. -/
def Rec.store (pad : Bytes) : Rec → Bytes
  | .kv c ts k v => le 4 c.code ++ le 4 (24 + k.length + v.length) ++ le 8 ts ++ le 4 k.length ++ k ++ v ++ pad
  | .modify ts p k v => le 4 cModify ++ le 4 (32 + k.length + v.length) ++ le 8 ts ++ le 8 p ++ le 4 k.length ++ k ++ v ++ pad
  | .epoch e => le 4 cEpoch ++ le 4 16 ++ le 8 e
  | .quiesce => le 4 cQuiesce ++ le 4 8
  | .wake => le 4 cWake ++ le 4 8

/-- The little-endian number of `k` bytes at offset `off`. -/
def field (bs : Bytes) (off k : Nat) : Nat := unle ((bs.drop off).take k)

/-- `struct logrecord`, /repo/log.cc:431-447.  A field keeps its value until a record sets it. -/
structure LR where
  command : Nat
  key : Bytes
  val : Bytes
  ts : Nat
  prev : Nat
  epoch : Nat
  deriving DecidableEq

def LR.init : LR := ⟨0, [], [], 0, 0, 0⟩

/-- `logrecord::extract`, /repo/log.cc:449-490: the record at the front of the file, and what
follows it. -/
def LR.extract (lr : LR) (bs : Bytes) : LR × Bytes :=
  let cmd := field bs 0 4
  let size := field bs 4 4
  if bs.length < 8 ∨ size < 8 ∨ bs.length < size ∨ cmd = cNone then ({ lr with command := cNone }, [])
  else if cmd = cPut ∨ cmd = cReplace ∨ cmd = cRemove then
    let kl := field bs 16 4
    if size < 24 ∨ maxKeyLen < kl ∨ size < 24 + kl then ({ lr with command := cNone }, [])
    else
      ({ lr with
          command := cmd
          ts := field bs 8 8
          key := (bs.drop 20).take kl
          val := (bs.drop (20 + kl)).take (size - 24 - kl) }, bs.drop size)
  else if cmd = cModify then
    let kl := field bs 24 4
    if maxKeyLen < kl ∨ size < 32 + kl then ({ lr with command := cNone }, [])
    else
      ({ lr with
          command := cmd
          ts := field bs 8 8
          prev := field bs 16 8
          key := (bs.drop 28).take kl
          val := (bs.drop (28 + kl)).take (size - 32 - kl) }, bs.drop size)
  else if cmd = cEpoch then
    if size < 16 then ({ lr with command := cNone }, []) else ({ lr with command := cmd, epoch := field bs 8 8 }, bs.drop size)
  else ({ lr with command := cmd }, bs.drop size)

theorem extract_length (lr : LR) (bs : Bytes) (h : (lr.extract bs).1.command ≠ cNone) : (lr.extract bs).2.length < bs.length := by
  have key : ∀ (P : Prop), ¬ (bs.length < 8 ∨ field bs 4 4 < 8 ∨ bs.length < field bs 4 4 ∨ P) →
      (bs.drop (field bs 4 4)).length < bs.length := by
    intro P hn
    rw [List.length_drop]; omega
  unfold LR.extract at h ⊢
  dsimp only at h ⊢
  split at h
  · exact absurd rfl h
  · rename_i hn
    rw [if_neg hn]
    split at h
    · rename_i h1
      rw [if_pos h1]
      split at h
      · exact absurd rfl h
      · rename_i h2
        rw [if_neg h2]
        exact key _ hn
    · rename_i h1
      rw [if_neg h1]
      split at h
      · rename_i h2
        rw [if_pos h2]
        split at h
        · exact absurd rfl h
        · rename_i h3
          rw [if_neg h3]
          exact key _ hn
      · rename_i h2
        rw [if_neg h2]
        split at h
        · rename_i h3
          rw [if_pos h3]
          split at h
          · exact absurd rfl h
          · rename_i h4
            rw [if_neg h4]
            exact key _ hn
        · rename_i h3
          rw [if_neg h3]
          exact key _ hn

/-- The records met by the loop of `logreplay::replayandclean1`, /repo/log.cc:701-707, 742, from the front of
the file to its end or to a record that cannot be read. -/
def LR.readAll (lr : LR) (bs : Bytes) : List LR :=
  if bs = [] then []
  else if h : (lr.extract bs).1.command = cNone then []
  else (lr.extract bs).1 :: ((lr.extract bs).1).readAll (lr.extract bs).2
  termination_by bs.length
  decreasing_by exact extract_length lr bs h

/-- The record that a `logrecord` describes. -/
def LR.record (lr : LR) : Option Rec :=
  if lr.command = cPut then some (.kv .put lr.ts lr.key lr.val)
  else if lr.command = cReplace then some (.kv .replace lr.ts lr.key lr.val)
  else if lr.command = cRemove then some (.kv .remove lr.ts lr.key lr.val)
  else if lr.command = cModify then some (.modify lr.ts lr.prev lr.key lr.val)
  else if lr.command = cEpoch then some (.epoch lr.epoch)
  else if lr.command = cQuiesce then some .quiesce
  else if lr.command = cWake then some .wake
  else none

/-! ### Reading what was stored -/

theorem le_length (k x : Nat) : (le k x).length = k := by
  induction k generalizing x with
  | zero => rfl
  | succ k ih => simp [le, ih]

theorem unle_le (k x : Nat) : unle (le k x) = x % 256 ^ k := by
  induction k generalizing x with
  | zero => simp [le, unle, Nat.mod_one]
  | succ k ih =>
    simp only [le, unle, ih]
    have h : (UInt8.ofNat x).toNat = x % 256 := by simp
    rw [h, Nat.pow_succ, Nat.mul_comm (256 ^ k), Nat.mod_mul]

theorem unle_le_of_lt {k x : Nat} (h : x < 256 ^ k) : unle (le k x) = x := by rw [unle_le, Nat.mod_eq_of_lt h]

/-- What can be logged. -/
def Rec.Ok : Rec → Prop
  | .kv _ ts k v => ts < 2 ^ 64 ∧ k.length ≤ maxKeyLen ∧ 24 + k.length + v.length < 2 ^ 32
  | .modify ts p k v => ts < 2 ^ 64 ∧ p < 2 ^ 64 ∧ k.length ≤ maxKeyLen ∧ 32 + k.length + v.length < 2 ^ 32
  | .epoch e => e < 2 ^ 64
  | _ => True

theorem store_length {pad : Bytes} (h : pad.length = 4) (r : Rec) : (r.store pad).length = r.size := by
  cases r <;> simp [Rec.store, Rec.size, le_length] <;> omega

theorem field_at {pre x post : Bytes} {off k : Nat} (ho : pre.length = off) (hk : x.length = k) :
    field (pre ++ x ++ post) off k = unle x := by
  subst ho hk
  unfold field
  rw [List.append_assoc, List.drop_left, List.take_left]

theorem slice_at {pre x post : Bytes} {off k : Nat} (ho : pre.length = off) (hk : x.length = k) :
    ((pre ++ x ++ post).drop off).take k = x := by
  subst ho hk
  rw [List.append_assoc, List.drop_left, List.take_left]

/-- How a record changes the fields of `logrecord`. -/
def LR.with (lr : LR) : Rec → LR
  | .kv c ts k v => { lr with command := c.code, ts := ts, key := k, val := v }
  | .modify ts p k v => { lr with command := cModify, ts := ts, prev := p, key := k, val := v }
  | .epoch e => { lr with command := cEpoch, epoch := e }
  | .quiesce => { lr with command := cQuiesce }
  | .wake => { lr with command := cWake }

theorem code_cases (c : KvCmd) : (c.code = cPut ∨ c.code = cReplace ∨ c.code = cRemove) ∧ c.code ≠ cNone ∧ c.code < 256 ^ 4 := by
  cases c <;> decide

theorem extract_store (lr : LR) {r : Rec} (hok : r.Ok) {pad : Bytes} (hp : pad.length = 4) (rest : Bytes) :
    lr.extract (r.store pad ++ rest) = (lr.with r, rest) := by
  have hlen : (r.store pad ++ rest).length = r.size + rest.length := by rw [List.length_append, store_length hp]
  have hdrop : (r.store pad ++ rest).drop r.size = rest := by rw [← store_length hp r, List.drop_left]
  cases r with
  | kv c ts k v =>
    obtain ⟨hts, hkl, hsz⟩ := hok
    obtain ⟨hc1, hc2, hc3⟩ := code_cases c
    have hm : maxKeyLen = 255 := rfl
    have hsize : (Rec.kv c ts k v).size = 24 + k.length + v.length := rfl
    generalize hbs : Rec.store pad (.kv c ts k v) ++ rest = bs at hlen hdrop ⊢
    have e : bs = le 4 c.code ++ (le 4 (24 + k.length + v.length) ++ (le 8 ts ++ (le 4 k.length ++ (k ++ (v ++ (pad ++ rest)))))) := by
      rw [← hbs]; simp [Rec.store, List.append_assoc]
    have f0 : field bs 0 4 = c.code := by
      rw [e]
      have := field_at (pre := []) (x := le 4 c.code) (post := le 4 (24 + k.length + v.length) ++ (le 8 ts ++ (le 4 k.length ++ (k ++ (v ++ (pad ++ rest))))))
        (off := 0) (k := 4) rfl (le_length _ _)
      rw [unle_le_of_lt hc3] at this
      exact this
    have f4 : field bs 4 4 = 24 + k.length + v.length := by
      rw [e]
      have := field_at (pre := le 4 c.code) (x := le 4 (24 + k.length + v.length)) (post := le 8 ts ++ (le 4 k.length ++ (k ++ (v ++ (pad ++ rest)))))
        (off := 4) (k := 4) (le_length _ _) (le_length _ _)
      rw [unle_le_of_lt (by norm_num; omega), List.append_assoc] at this
      exact this
    have f8 : field bs 8 8 = ts := by
      rw [e]
      have := field_at (pre := le 4 c.code ++ le 4 (24 + k.length + v.length)) (x := le 8 ts) (post := le 4 k.length ++ (k ++ (v ++ (pad ++ rest))))
        (off := 8) (k := 8) (by simp [le_length]) (le_length _ _)
      rw [unle_le_of_lt (by norm_num; omega)] at this
      simpa only [List.append_assoc] using this
    have f16 : field bs 16 4 = k.length := by
      rw [e]
      have := field_at (pre := le 4 c.code ++ le 4 (24 + k.length + v.length) ++ le 8 ts) (x := le 4 k.length) (post := k ++ (v ++ (pad ++ rest)))
        (off := 16) (k := 4) (by simp [le_length]) (le_length _ _)
      rw [unle_le_of_lt (by norm_num; omega)] at this
      simpa only [List.append_assoc] using this
    have fk : (bs.drop 20).take k.length = k := by
      rw [e]
      have := slice_at (pre := le 4 c.code ++ le 4 (24 + k.length + v.length) ++ le 8 ts ++ le 4 k.length) (x := k) (post := v ++ (pad ++ rest))
        (off := 20) (by simp [le_length]) rfl
      simpa only [List.append_assoc] using this
    have fv : (bs.drop (20 + k.length)).take v.length = v := by
      rw [e]
      have := slice_at (pre := le 4 c.code ++ le 4 (24 + k.length + v.length) ++ le 8 ts ++ le 4 k.length ++ k) (x := v) (post := pad ++ rest)
        (off := 20 + k.length) (by simp [le_length]; omega) rfl
      simpa only [List.append_assoc] using this
    unfold LR.extract
    dsimp only
    rw [f0, f4, f8, f16]
    rw [if_neg (by rw [hlen, hsize]; intro h; rcases h with h | h | h | h <;> first | omega | exact hc2 h), if_pos hc1,
      if_neg (by omega), fk]
    have : 24 + k.length + v.length - 24 - k.length = v.length := by omega
    rw [this, fv]
    rw [hsize] at hdrop
    rw [hdrop]; rfl
  | modify ts p k v =>
    obtain ⟨hts, hpr, hkl, hsz⟩ := hok
    have hm : maxKeyLen = 255 := rfl
    have hsize : (Rec.modify ts p k v).size = 32 + k.length + v.length := rfl
    generalize hbs : Rec.store pad (.modify ts p k v) ++ rest = bs at hlen hdrop ⊢
    have e : bs = le 4 cModify ++ (le 4 (32 + k.length + v.length) ++ (le 8 ts ++ (le 8 p ++ (le 4 k.length ++ (k ++ (v ++ (pad ++ rest))))))) := by
      rw [← hbs]; simp [Rec.store, List.append_assoc]
    have f0 : field bs 0 4 = cModify := by
      rw [e]
      have := field_at (pre := []) (x := le 4 cModify) (post := le 4 (32 + k.length + v.length) ++ (le 8 ts ++ (le 8 p ++ (le 4 k.length ++ (k ++ (v ++ (pad ++ rest)))))))
        (off := 0) (k := 4) rfl (le_length _ _)
      rw [unle_le_of_lt (by decide)] at this
      exact this
    have f4 : field bs 4 4 = 32 + k.length + v.length := by
      rw [e]
      have := field_at (pre := le 4 cModify) (x := le 4 (32 + k.length + v.length)) (post := le 8 ts ++ (le 8 p ++ (le 4 k.length ++ (k ++ (v ++ (pad ++ rest))))))
        (off := 4) (k := 4) (le_length _ _) (le_length _ _)
      rw [unle_le_of_lt (by norm_num; omega), List.append_assoc] at this
      exact this
    have f8 : field bs 8 8 = ts := by
      rw [e]
      have := field_at (pre := le 4 cModify ++ le 4 (32 + k.length + v.length)) (x := le 8 ts) (post := le 8 p ++ (le 4 k.length ++ (k ++ (v ++ (pad ++ rest)))))
        (off := 8) (k := 8) (by simp [le_length]) (le_length _ _)
      rw [unle_le_of_lt (by norm_num; omega)] at this
      simpa only [List.append_assoc] using this
    have f16 : field bs 16 8 = p := by
      rw [e]
      have := field_at (pre := le 4 cModify ++ le 4 (32 + k.length + v.length) ++ le 8 ts) (x := le 8 p) (post := le 4 k.length ++ (k ++ (v ++ (pad ++ rest))))
        (off := 16) (k := 8) (by simp [le_length]) (le_length _ _)
      rw [unle_le_of_lt (by norm_num; omega)] at this
      simpa only [List.append_assoc] using this
    have f24 : field bs 24 4 = k.length := by
      rw [e]
      have := field_at (pre := le 4 cModify ++ le 4 (32 + k.length + v.length) ++ le 8 ts ++ le 8 p) (x := le 4 k.length) (post := k ++ (v ++ (pad ++ rest)))
        (off := 24) (k := 4) (by simp [le_length]) (le_length _ _)
      rw [unle_le_of_lt (by norm_num; omega)] at this
      simpa only [List.append_assoc] using this
    have fk : (bs.drop 28).take k.length = k := by
      rw [e]
      have := slice_at (pre := le 4 cModify ++ le 4 (32 + k.length + v.length) ++ le 8 ts ++ le 8 p ++ le 4 k.length) (x := k) (post := v ++ (pad ++ rest))
        (off := 28) (by simp [le_length]) rfl
      simpa only [List.append_assoc] using this
    have fv : (bs.drop (28 + k.length)).take v.length = v := by
      rw [e]
      have := slice_at (pre := le 4 cModify ++ le 4 (32 + k.length + v.length) ++ le 8 ts ++ le 8 p ++ le 4 k.length ++ k) (x := v) (post := pad ++ rest)
        (off := 28 + k.length) (by simp [le_length]; omega) rfl
      simpa only [List.append_assoc] using this
    unfold LR.extract
    dsimp only
    rw [f0, f4, f8, f16, f24]
    have hc2 : cModify ≠ cNone := by decide
    rw [if_neg (by rw [hlen, hsize]; intro h; rcases h with h | h | h | h <;> first | omega | exact hc2 h), if_neg (by decide),
      if_pos rfl, if_neg (by omega), fk]
    have : 32 + k.length + v.length - 32 - k.length = v.length := by omega
    rw [this, fv]
    rw [hsize] at hdrop
    rw [hdrop]; rfl
  | epoch ep =>
    have hep : ep < 2 ^ 64 := hok
    generalize hbs : Rec.store pad (.epoch ep) ++ rest = bs at hlen hdrop ⊢
    have hsize : (Rec.epoch ep).size = 16 := rfl
    have e : bs = le 4 cEpoch ++ (le 4 16 ++ (le 8 ep ++ rest)) := by
      rw [← hbs]; simp [Rec.store, List.append_assoc]
    have f0 : field bs 0 4 = cEpoch := by
      rw [e]
      have := field_at (pre := []) (x := le 4 cEpoch) (post := le 4 16 ++ (le 8 ep ++ rest)) (off := 0) (k := 4) rfl (le_length _ _)
      rw [unle_le_of_lt (by decide)] at this
      exact this
    have f4 : field bs 4 4 = 16 := by
      rw [e]
      have := field_at (pre := le 4 cEpoch) (x := le 4 16) (post := le 8 ep ++ rest) (off := 4) (k := 4) (le_length _ _) (le_length _ _)
      rw [unle_le_of_lt (by decide), List.append_assoc] at this
      exact this
    have f8 : field bs 8 8 = ep := by
      rw [e]
      have := field_at (pre := le 4 cEpoch ++ le 4 16) (x := le 8 ep) (post := rest) (off := 8) (k := 8) (by simp [le_length]) (le_length _ _)
      rw [unle_le_of_lt (by norm_num; omega)] at this
      simpa only [List.append_assoc] using this
    unfold LR.extract
    dsimp only
    rw [f0, f4, f8]
    have hc2 : cEpoch ≠ cNone := by decide
    rw [if_neg (by rw [hlen, hsize]; intro h; rcases h with h | h | h | h <;> first | omega | exact hc2 h), if_neg (by decide),
      if_neg (by decide), if_pos rfl, if_neg (by decide)]
    rw [hsize] at hdrop
    rw [hdrop]; rfl
  | quiesce =>
    generalize hbs : Rec.store pad .quiesce ++ rest = bs at hlen hdrop ⊢
    have hsize : Rec.quiesce.size = 8 := rfl
    have e : bs = le 4 cQuiesce ++ (le 4 8 ++ rest) := by
      rw [← hbs]; simp [Rec.store, List.append_assoc]
    have f0 : field bs 0 4 = cQuiesce := by
      rw [e]
      have := field_at (pre := []) (x := le 4 cQuiesce) (post := le 4 8 ++ rest) (off := 0) (k := 4) rfl (le_length _ _)
      rw [unle_le_of_lt (by decide)] at this
      exact this
    have f4 : field bs 4 4 = 8 := by
      rw [e]
      have := field_at (pre := le 4 cQuiesce) (x := le 4 8) (post := rest) (off := 4) (k := 4) (le_length _ _) (le_length _ _)
      rw [unle_le_of_lt (by decide), List.append_assoc] at this
      exact this
    unfold LR.extract
    dsimp only
    rw [f0, f4]
    have hc2 : cQuiesce ≠ cNone := by decide
    rw [if_neg (by rw [hlen, hsize]; intro h; rcases h with h | h | h | h <;> first | omega | exact hc2 h), if_neg (by decide),
      if_neg (by decide), if_neg (by decide)]
    rw [hsize] at hdrop
    rw [hdrop]; rfl
  | wake =>
    generalize hbs : Rec.store pad .wake ++ rest = bs at hlen hdrop ⊢
    have hsize : Rec.wake.size = 8 := rfl
    have e : bs = le 4 cWake ++ (le 4 8 ++ rest) := by
      rw [← hbs]; simp [Rec.store, List.append_assoc]
    have f0 : field bs 0 4 = cWake := by
      rw [e]
      have := field_at (pre := []) (x := le 4 cWake) (post := le 4 8 ++ rest) (off := 0) (k := 4) rfl (le_length _ _)
      rw [unle_le_of_lt (by decide)] at this
      exact this
    have f4 : field bs 4 4 = 8 := by
      rw [e]
      have := field_at (pre := le 4 cWake) (x := le 4 8) (post := rest) (off := 4) (k := 4) (le_length _ _) (le_length _ _)
      rw [unle_le_of_lt (by decide), List.append_assoc] at this
      exact this
    unfold LR.extract
    dsimp only
    rw [f0, f4]
    have hc2 : cWake ≠ cNone := by decide
    rw [if_neg (by rw [hlen, hsize]; intro h; rcases h with h | h | h | h <;> first | omega | exact hc2 h), if_neg (by decide),
      if_neg (by decide), if_neg (by decide)]
    rw [hsize] at hdrop
    rw [hdrop]; rfl

/-- A record cut short is not read. -/
theorem extract_cut (lr : LR) {r : Rec} (hok : r.Ok) {pad : Bytes} (hp : pad.length = 4) {n : Nat} (hn : n < r.size) :
    lr.extract ((r.store pad).take n) = ({ lr with command := cNone }, []) := by
  have hlen : ((r.store pad).take n).length = n := by rw [List.length_take, store_length hp]; omega
  have hsize : 8 ≤ n → field ((r.store pad).take n) 4 4 = r.size := by
    intro h8
    have h1 := congrArg (fun l => unle ((l.drop 4).take 4)) (List.take_append_drop n (r.store pad))
    have hfull : field (r.store pad) 4 4 = r.size := by
      have hx : ∀ (c sz : Nat) (post : Bytes), sz < 2 ^ 32 → field (le 4 c ++ (le 4 sz ++ post)) 4 4 = sz := by
        intro c sz post hs
        have := field_at (pre := le 4 c) (x := le 4 sz) (post := post) (off := 4) (k := 4) (le_length _ _) (le_length _ _)
        rw [unle_le_of_lt (by norm_num; omega), List.append_assoc] at this
        exact this
      cases r with
      | kv c ts k v =>
        have := hx c.code (24 + k.length + v.length) (le 8 ts ++ (le 4 k.length ++ (k ++ (v ++ pad)))) hok.2.2
        simpa only [Rec.store, Rec.size, List.append_assoc] using this
      | modify ts p k v =>
        have := hx cModify (32 + k.length + v.length) (le 8 ts ++ (le 8 p ++ (le 4 k.length ++ (k ++ (v ++ pad))))) hok.2.2.2
        simpa only [Rec.store, Rec.size, List.append_assoc] using this
      | epoch ep =>
        have := hx cEpoch 16 (le 8 ep) (by decide)
        simpa only [Rec.store, Rec.size, List.append_assoc] using this
      | quiesce =>
        have := hx cQuiesce 8 [] (by decide)
        simpa only [Rec.store, Rec.size, List.append_nil] using this
      | wake =>
        have := hx cWake 8 [] (by decide)
        simpa only [Rec.store, Rec.size, List.append_nil] using this
    rw [← hfull]
    unfold field
    rw [List.drop_take, List.take_take]
    congr 2; omega
  unfold LR.extract
  dsimp only
  by_cases h8 : 8 ≤ n
  · rw [if_pos]
    rw [hsize h8, hlen]
    exact .inr (.inr (.inl hn))
  · rw [if_pos]
    rw [hlen]
    exact .inl (by omega)

end Verif.Log
