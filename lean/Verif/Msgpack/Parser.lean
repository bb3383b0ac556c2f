import Verif.Msgpack.Round

/-!
# The pointer parser

Model of `msgpack::parser`, /repo/msgpack.hh:375-543 and /repo/msgpack.cc:209-228, which reads log
records and checkpoints.  The state is the list of bytes at and after `s_`.  `none` is a failed
assertion or a read beyond the last byte.  Integers are read at full width; the caller's type
truncates them.
-/
namespace Verif.Msgpack
open Verif.Key (Byte Bytes)

/-- The next `n` bytes, and those after them. -/
def takeN (n : Nat) (bs : Bytes) : Option (Bytes × Bytes) :=
  if bs.length < n then none else some (bs.take n, bs.drop n)

/-- `read_int` and `hard_read_int`, /repo/msgpack.hh:405-415, 507-543. -/
def readInt : Bytes → Option (Int × Bytes)
  | [] => none
  | b :: bs =>
    let x := b.toNat
    if x < 0x80 then some (x, bs)
    else if 0xE0 ≤ x then some ((x : Int) - 256, bs)
    else if x = 0xCC then (takeN 1 bs).map fun (v, r) => (unbe v, r)
    else if x = 0xCD then (takeN 2 bs).map fun (v, r) => (unbe v, r)
    else if x = 0xCE then (takeN 4 bs).map fun (v, r) => (unbe v, r)
    else if x = 0xCF then (takeN 8 bs).map fun (v, r) => (unbe v, r)
    else if x = 0xD0 then (takeN 1 bs).map fun (v, r) => (sunbe v, r)
    else if x = 0xD1 then (takeN 2 bs).map fun (v, r) => (sunbe v, r)
    else if x = 0xD2 then (takeN 4 bs).map fun (v, r) => (sunbe v, r)
    else if x = 0xD3 then (takeN 8 bs).map fun (v, r) => (sunbe v, r)
    else none

/-- A length stored in `k` bytes, and the bytes after it. -/
def readLen (k : Nat) (bs : Bytes) : Option (Nat × Bytes) := (takeN k bs).map fun (v, r) => (unbe v, r)

/-- The length of a string, `operator>>(Str&)`, /repo/msgpack.cc:210-224. -/
def readStrHeader : Bytes → Option (Nat × Bytes)
  | [] => none
  | b :: bs =>
    let x := b.toNat
    if 0xA0 ≤ x ∧ x < 0xC0 then some (x - 0xA0, bs)
    else if x = 0xC4 ∨ x = 0xD9 then readLen 1 bs
    else if x = 0xC5 ∨ x = 0xDA then readLen 2 bs
    else if x = 0xC6 ∨ x = 0xDB then readLen 4 bs
    else none

/-- `operator>>(Str&)`, /repo/msgpack.cc:209-228. -/
def readStr (bs : Bytes) : Option (Bytes × Bytes) := (readStrHeader bs).bind fun (n, r) => takeN n r

/-- `read_array_header`, /repo/msgpack.hh:448-461. -/
def readArrayHeader : Bytes → Option (Nat × Bytes)
  | [] => none
  | b :: bs =>
    let x := b.toNat
    if 0x90 ≤ x ∧ x < 0xA0 then some (x - 0x90, bs)
    else if x = 0xDC then readLen 2 bs
    else if x = 0xDD then readLen 4 bs
    else none

/-- `skip_array_size`, /repo/msgpack.hh:490-500. -/
def skipArraySize : Bytes → Option Bytes
  | [] => none
  | b :: bs =>
    let x := b.toNat
    if 0x90 ≤ x ∧ x < 0xA0 then some bs
    else if x = 0xDC then (takeN 2 bs).map Prod.snd
    else if x = 0xDD then (takeN 4 bs).map Prod.snd
    else none

/-- Past a string whose length is stored in `k` bytes. -/
def skipStr (k : Nat) (bs : Bytes) : Option Bytes := (readLen k bs).bind fun (n, r) => (takeN n r).map Prod.snd

/-- One turn of `skip_primitives`, /repo/msgpack.hh:467-483.  A 64-bit integer, a double, an array
or a map matches no test and is not skipped. -/
def skipPrimitive : Bytes → Option Bytes
  | [] => none
  | b :: bs =>
    let x := b.toNat
    if x < 0x80 ∨ 0xE0 ≤ x ∨ x = 0xC0 ∨ x = 0xC2 ∨ x = 0xC3 then some bs
    else if 0xA0 ≤ x ∧ x < 0xC0 then (takeN (x - 0xA0) bs).map Prod.snd
    else if x = 0xCC ∨ x = 0xD0 then (takeN 1 bs).map Prod.snd
    else if x = 0xCD ∨ x = 0xD1 then (takeN 2 bs).map Prod.snd
    else if x = 0xCE ∨ x = 0xD2 ∨ x = 0xCA then (takeN 4 bs).map Prod.snd
    else if x = 0xD9 ∨ x = 0xC4 then skipStr 1 bs
    else if x = 0xDA ∨ x = 0xC5 then skipStr 2 bs
    else if x = 0xDB ∨ x = 0xC6 then skipStr 4 bs
    else some (b :: bs)

/-- `skip_primitives`, /repo/msgpack.hh:465-486. -/
def skipPrimitives : Nat → Bytes → Option Bytes
  | 0, bs => some bs
  | n + 1, bs => (skipPrimitive bs).bind (skipPrimitives n)

/-! ### Reading what was written -/

theorem takeN_append {n : Nat} {a : Bytes} (h : a.length = n) (rest : Bytes) : takeN n (a ++ rest) = some (a, rest) := by
  subst h
  unfold takeN
  rw [if_neg (by simp)]
  simp

theorem readLen_be {k x : Nat} (h : x < 256 ^ k) (rest : Bytes) : readLen k (be k x ++ rest) = some (x, rest) := by
  unfold readLen
  rw [takeN_append (be_length k x)]
  simp [unbe_be_of_lt h]

theorem readInt_fix {x : Nat} (h : x < 128) (rest : Bytes) : readInt (UInt8.ofNat x :: rest) = some ((x : Int), rest) := by
  unfold readInt
  dsimp only
  rw [toNat_ofNat (by omega)]
  exact if_pos h

theorem readInt_writeU32 {x : Nat} (h : x < 4294967296) (rest : Bytes) :
    readInt (writeU32 x ++ rest) = some ((x : Int), rest) := by
  unfold writeU32
  by_cases h1 : x < 0x80
  · rw [if_pos h1]; exact readInt_fix h1 rest
  rw [if_neg h1]
  by_cases h2 : x < 256
  · rw [if_pos h2]
    have : readInt (0xCC :: (be 1 x ++ rest)) = (takeN 1 (be 1 x ++ rest)).map fun (v, r) => ((unbe v : Int), r) := rfl
    rw [List.cons_append, this, takeN_append (be_length 1 x)]
    simp [unbe_be_of_lt (show x < 256 ^ 1 by simpa using h2)]
  rw [if_neg h2]
  by_cases h3 : x < 65536
  · rw [if_pos h3]
    have : readInt (0xCD :: (be 2 x ++ rest)) = (takeN 2 (be 2 x ++ rest)).map fun (v, r) => ((unbe v : Int), r) := rfl
    rw [List.cons_append, this, takeN_append (be_length 2 x)]
    simp [unbe_be_of_lt (show x < 256 ^ 2 by simpa using h3)]
  rw [if_neg h3]
  have : readInt (0xCE :: (be 4 x ++ rest)) = (takeN 4 (be 4 x ++ rest)).map fun (v, r) => ((unbe v : Int), r) := rfl
  rw [List.cons_append, this, takeN_append (be_length 4 x)]
  simp [unbe_be_of_lt (show x < 256 ^ 4 by simpa using h)]

theorem readInt_writeU64 {x : Nat} (h : x < 18446744073709551616) (rest : Bytes) :
    readInt (writeU64 x ++ rest) = some ((x : Int), rest) := by
  unfold writeU64
  by_cases h1 : x < 4294967296
  · rw [if_pos h1]; exact readInt_writeU32 h1 rest
  rw [if_neg h1]
  have : readInt (0xCF :: (be 8 x ++ rest)) = (takeN 8 (be 8 x ++ rest)).map fun (v, r) => ((unbe v : Int), r) := rfl
  rw [List.cons_append, this, takeN_append (be_length 8 x)]
  simp [unbe_be_of_lt (show x < 256 ^ 8 by simpa using h)]

theorem readInt_writeI32 {x : Int} (h : -2147483648 ≤ x ∧ x < 2147483648) (rest : Bytes) :
    readInt (writeI32 x ++ rest) = some (x, rest) := by
  unfold writeI32
  by_cases h1 : (x + 0x20) % 4294967296 < 0xA0
  · rw [if_pos h1]
    have hb : be 1 (low 1 x) = [UInt8.ofNat (low 1 x)] := by simp [be]
    rw [hb]
    show readInt (UInt8.ofNat (low 1 x) :: rest) = _
    by_cases hx : 0 ≤ x
    · have : low 1 x = x.toNat := by unfold low; norm_num; omega
      rw [this, readInt_fix (by omega)]
      congr 2; omega
    · have : low 1 x = (x + 256).toNat := by unfold low; norm_num; omega
      rw [this]
      unfold readInt
      dsimp only
      rw [toNat_ofNat (by omega)]
      rw [if_neg (by omega), if_pos (by omega)]
      congr 2; omega
  rw [if_neg h1]
  by_cases h2 : (x + 128) % 4294967296 < 256
  · rw [if_pos h2]
    have : readInt (0xD0 :: (be 1 (low 1 x) ++ rest)) = (takeN 1 (be 1 (low 1 x) ++ rest)).map fun (v, r) => (sunbe v, r) := rfl
    rw [List.cons_append, this, takeN_append (be_length _ _)]
    simp [sunbe_low1 (show -128 ≤ x ∧ x < 128 by omega)]
  rw [if_neg h2]
  by_cases h3 : (x + 32768) % 4294967296 < 65536
  · rw [if_pos h3]
    have : readInt (0xD1 :: (be 2 (low 2 x) ++ rest)) = (takeN 2 (be 2 (low 2 x) ++ rest)).map fun (v, r) => (sunbe v, r) := rfl
    rw [List.cons_append, this, takeN_append (be_length _ _)]
    simp [sunbe_low2 (show -32768 ≤ x ∧ x < 32768 by omega)]
  rw [if_neg h3]
  have : readInt (0xD2 :: (be 4 (low 4 x) ++ rest)) = (takeN 4 (be 4 (low 4 x) ++ rest)).map fun (v, r) => (sunbe v, r) := rfl
  rw [List.cons_append, this, takeN_append (be_length _ _)]
  simp [sunbe_low4 h]

theorem readInt_writeI64 {x : Int} (h : -9223372036854775808 ≤ x ∧ x < 9223372036854775808) (rest : Bytes) :
    readInt (writeI64 x ++ rest) = some (x, rest) := by
  unfold writeI64
  by_cases h1 : (x + 2147483648) % 18446744073709551616 < 4294967296
  · rw [if_pos h1]; exact readInt_writeI32 (by omega) rest
  rw [if_neg h1]
  have : readInt (0xD3 :: (be 8 (low 8 x) ++ rest)) = (takeN 8 (be 8 (low 8 x) ++ rest)).map fun (v, r) => (sunbe v, r) := rfl
  rw [List.cons_append, this, takeN_append (be_length _ _)]
  simp [sunbe_low8 h]

theorem readStr_writeString {s : Bytes} (h : s.length < 2147483648) (rest : Bytes) :
    readStr (writeString s ++ rest) = some (s, rest) := by
  have key : ∀ hd : Bytes, readStrHeader (hd ++ (s ++ rest)) = some (s.length, s ++ rest) →
      readStr (hd ++ s ++ rest) = some (s, rest) := by
    intro hd hh
    unfold readStr
    rw [List.append_assoc, hh]
    exact takeN_append rfl rest
  unfold writeString
  refine key _ ?_
  by_cases h1 : s.length < 0x20
  · rw [if_pos h1]
    show readStrHeader (UInt8.ofNat (0xA0 + s.length) :: (s ++ rest)) = _
    unfold readStrHeader
    dsimp only
    rw [toNat_ofNat (by omega)]
    rw [if_pos (by omega), Nat.add_sub_cancel_left]
  rw [if_neg h1]
  by_cases h2 : s.length < 256
  · rw [if_pos h2]
    exact readLen_be (k := 1) (by simpa using h2) _
  rw [if_neg h2]
  by_cases h3 : s.length < 65536
  · rw [if_pos h3]
    exact readLen_be (k := 2) (by simpa using h3) _
  rw [if_neg h3]
  exact readLen_be (k := 4) (by norm_num; omega) _

theorem readArrayHeader_write {n : Nat} (h : n < 4294967296) (rest : Bytes) :
    readArrayHeader (writeArrayHeader n ++ rest) = some (n, rest) := by
  unfold writeArrayHeader
  by_cases h1 : n < 0x10
  · rw [if_pos h1]
    show readArrayHeader (UInt8.ofNat (0x90 + n) :: rest) = _
    unfold readArrayHeader
    dsimp only
    rw [toNat_ofNat (by omega)]
    rw [if_pos (by omega), Nat.add_sub_cancel_left]
  rw [if_neg h1]
  by_cases h3 : n < 65536
  · rw [if_pos h3]
    exact readLen_be (k := 2) (by simpa using h3) _
  rw [if_neg h3]
  exact readLen_be (k := 4) (by simpa using h) _

theorem skipArraySize_write {n : Nat} (h : n < 4294967296) (rest : Bytes) :
    skipArraySize (writeArrayHeader n ++ rest) = some rest := by
  unfold writeArrayHeader
  by_cases h1 : n < 0x10
  · rw [if_pos h1]
    show skipArraySize (UInt8.ofNat (0x90 + n) :: rest) = _
    unfold skipArraySize
    dsimp only
    rw [toNat_ofNat (by omega)]
    rw [if_pos (by omega)]
  rw [if_neg h1]
  by_cases h3 : n < 65536
  · rw [if_pos h3]
    show (takeN 2 (be 2 n ++ rest)).map Prod.snd = _
    rw [takeN_append (be_length 2 n)]; rfl
  rw [if_neg h3]
  show (takeN 4 (be 4 n ++ rest)).map Prod.snd = _
  rw [takeN_append (be_length 4 n)]; rfl

/-- The primitives that `skip_primitives` knows. -/
def Skippable : Json → Prop
  | .null => True
  | .bool _ => True
  | .int x => -2147483648 ≤ x ∧ x < 2147483648
  | .uint x => x < 4294967296
  | .str s => s.length < 2147483648
  | _ => False

theorem skip_writeU32 {x : Nat} (_h : x < 4294967296) (rest : Bytes) : skipPrimitive (writeU32 x ++ rest) = some rest := by
  unfold writeU32
  by_cases h1 : x < 0x80
  · rw [if_pos h1]
    show skipPrimitive (UInt8.ofNat x :: rest) = _
    unfold skipPrimitive
    dsimp only
    rw [toNat_ofNat (by omega)]
    rw [if_pos (by omega)]
  rw [if_neg h1]
  by_cases h2 : x < 256
  · rw [if_pos h2]
    show (takeN 1 (be 1 x ++ rest)).map Prod.snd = _
    rw [takeN_append (be_length _ _)]; rfl
  rw [if_neg h2]
  by_cases h3 : x < 65536
  · rw [if_pos h3]
    show (takeN 2 (be 2 x ++ rest)).map Prod.snd = _
    rw [takeN_append (be_length _ _)]; rfl
  rw [if_neg h3]
  show (takeN 4 (be 4 x ++ rest)).map Prod.snd = _
  rw [takeN_append (be_length _ _)]; rfl

theorem skip_writeI32 {x : Int} (h : -2147483648 ≤ x ∧ x < 2147483648) (rest : Bytes) :
    skipPrimitive (writeI32 x ++ rest) = some rest := by
  unfold writeI32
  by_cases h1 : (x + 0x20) % 4294967296 < 0xA0
  · rw [if_pos h1]
    have hb : be 1 (low 1 x) = [UInt8.ofNat (low 1 x)] := by simp [be]
    have hr : low 1 x < 128 ∨ 0xE0 ≤ low 1 x ∧ low 1 x < 256 := by unfold low; norm_num; omega
    rw [hb]
    show skipPrimitive (UInt8.ofNat (low 1 x) :: rest) = _
    unfold skipPrimitive
    dsimp only
    rw [toNat_ofNat (by omega)]
    rw [if_pos (by omega)]
  rw [if_neg h1]
  by_cases h2 : (x + 128) % 4294967296 < 256
  · rw [if_pos h2]
    show (takeN 1 (be 1 _ ++ rest)).map Prod.snd = _
    rw [takeN_append (be_length _ _)]; rfl
  rw [if_neg h2]
  by_cases h3 : (x + 32768) % 4294967296 < 65536
  · rw [if_pos h3]
    show (takeN 2 (be 2 _ ++ rest)).map Prod.snd = _
    rw [takeN_append (be_length _ _)]; rfl
  rw [if_neg h3]
  show (takeN 4 (be 4 _ ++ rest)).map Prod.snd = _
  rw [takeN_append (be_length _ _)]; rfl

theorem skip_writeString {s : Bytes} (h : s.length < 2147483648) (rest : Bytes) :
    skipPrimitive (writeString s ++ rest) = some rest := by
  have hs : (takeN s.length (s ++ rest)).map Prod.snd = some rest := by rw [takeN_append rfl]; rfl
  unfold writeString
  rw [List.append_assoc]
  by_cases h1 : s.length < 0x20
  · rw [if_pos h1]
    show skipPrimitive (UInt8.ofNat (0xA0 + s.length) :: (s ++ rest)) = _
    unfold skipPrimitive
    dsimp only
    rw [toNat_ofNat (by omega)]
    rw [if_neg (by omega), if_pos (by omega), Nat.add_sub_cancel_left, hs]
  rw [if_neg h1]
  by_cases h2 : s.length < 256
  · rw [if_pos h2]
    show skipStr 1 (be 1 s.length ++ (s ++ rest)) = _
    unfold skipStr
    rw [readLen_be (by simpa using h2)]
    exact hs
  rw [if_neg h2]
  by_cases h3 : s.length < 65536
  · rw [if_pos h3]
    show skipStr 2 (be 2 s.length ++ (s ++ rest)) = _
    unfold skipStr
    rw [readLen_be (by simpa using h3)]
    exact hs
  rw [if_neg h3]
  show skipStr 4 (be 4 s.length ++ (s ++ rest)) = _
  unfold skipStr
  rw [readLen_be (by norm_num; omega)]
  exact hs

theorem skip_enc {j : Json} (h : Skippable j) (rest : Bytes) : skipPrimitive (enc j ++ rest) = some rest := by
  cases j with
  | null => rfl
  | bool b => cases b <;> rfl
  | int x =>
    have h : -2147483648 ≤ x ∧ x < 2147483648 := h
    have e : enc (.int x) = writeI32 x := if_pos (by omega)
    rw [e]; exact skip_writeI32 h rest
  | uint x =>
    have h : x < 4294967296 := h
    have e : enc (.uint x) = writeU32 x := if_pos h
    rw [e]; exact skip_writeU32 h rest
  | dbl _ => exact h.elim
  | str s => exact skip_writeString h rest
  | arr _ => exact h.elim
  | obj _ => exact h.elim

theorem skips_encs : ∀ (l : List Json), (∀ j ∈ l, Skippable j) → ∀ rest : Bytes,
    skipPrimitives l.length (encs l ++ rest) = some rest
  | [], _, _ => rfl
  | j :: l, h, rest => by
    have e : encs (j :: l) ++ rest = enc j ++ (encs l ++ rest) := by rw [← List.append_assoc]; rfl
    show (skipPrimitive (encs (j :: l) ++ rest)).bind (skipPrimitives l.length) = _
    rw [e, skip_enc (h j (by simp))]
    exact skips_encs l (fun j' hj => h j' (by simp [hj])) rest

end Verif.Msgpack
