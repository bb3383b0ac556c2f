import Verif.Key.Model

/-!
# MessagePack encoding and decoding

Model of /repo/msgpack.hh and /repo/msgpack.cc.  Strings are byte lists.  JSON values
(/repo/json.hh) are trees; an object is its list of items in insertion order.

Simplifications:
* The streaming parser's pointers into the value being built (`selem::jp`) are replaced by the
  finished part of each unfinished array or object, kept in the stack.  Stale contents of a
  reused result are not represented: the parser overwrites every element it keeps.
* The pseudo-element that records the length of an unfinished string is part of the mode.
* A size of 2^31 or more in a 4-byte string, array or map header becomes negative when stored in
  `int n`; the code then reads, resizes or counts with a negative number.  This is the outcome
  `ub`.
* Floating-point numbers are their bits.
-/
namespace Verif.Msgpack
open Verif.Key (Byte Bytes)

/-- JSON values.  `int` is `j_int` (int64_t), `uint` is `j_unsigned` (uint64_t), `dbl`
the bits of a double. -/
inductive Json where
  | null
  | bool (b : Bool)
  | int (x : Int)
  | uint (x : Nat)
  | dbl (bits : Nat)
  | str (s : Bytes)
  | arr (l : List Json)
  | obj (l : List (Bytes × Json))

/-- `write_in_net_order<T>` with `sizeof(T) = k`. -/
def be : Nat → Nat → Bytes
  | 0, _ => []
  | k + 1, x => UInt8.ofNat (x / 256 ^ k) :: be k x

/-- `read_in_net_order<T>` of unsigned `T`. -/
def unbe : Bytes → Nat
  | [] => 0
  | b :: bs => b.toNat * 256 ^ bs.length + unbe bs

/-- `read_in_net_order<T>` of signed `T`. -/
def sunbe (bs : Bytes) : Int :=
  let x : Int := unbe bs
  if x < 256 ^ bs.length / 2 then x else x - 256 ^ bs.length

/-- The low `8 k` bits of an integer. -/
def low (k : Nat) (x : Int) : Nat := (x % 256 ^ k).toNat

/-- The bits of a float converted to double (a signalling NaN becomes quiet). -/
def widen (f : Nat) : Nat :=
  let s := f / 2 ^ 31 % 2
  let e := f / 2 ^ 23 % 256
  let m := f % 2 ^ 23
  s * 2 ^ 63 +
    if e = 255 then 2047 * 2 ^ 52 + (if m = 0 then 0 else (m ||| 2 ^ 22) * 2 ^ 29)
    else if e ≠ 0 then (e + 896) * 2 ^ 52 + m * 2 ^ 29
    else if m = 0 then 0
    else (m.log2 + 874) * 2 ^ 52 + (m - 2 ^ m.log2) * 2 ^ (52 - m.log2)

/-! ### Encoding -/

/-- `sized_writer<4>::write_unsigned`, /repo/msgpack.hh:72-86. -/
def writeU32 (x : Nat) : Bytes :=
  if x < 0x80 then [UInt8.ofNat x]
  else if x < 256 then 0xCC :: be 1 x
  else if x < 65536 then 0xCD :: be 2 x
  else 0xCE :: be 4 x

/-- `sized_writer<4>::write_signed`, /repo/msgpack.hh:87-101. -/
def writeI32 (x : Int) : Bytes :=
  if (x + 0x20) % 4294967296 < 0xA0 then be 1 (low 1 x)
  else if (x + 128) % 4294967296 < 256 then 0xD0 :: be 1 (low 1 x)
  else if (x + 32768) % 4294967296 < 65536 then 0xD1 :: be 2 (low 2 x)
  else 0xD2 :: be 4 (low 4 x)

/-- `sized_writer<8>::write_unsigned`, /repo/msgpack.hh:104-111. -/
def writeU64 (x : Nat) : Bytes := if x < 4294967296 then writeU32 x else 0xCF :: be 8 x

/-- `sized_writer<8>::write_signed`, /repo/msgpack.hh:112-119. -/
def writeI64 (x : Int) : Bytes :=
  if (x + 2147483648) % 18446744073709551616 < 4294967296 then writeI32 x else 0xD3 :: be 8 (low 8 x)

/-- `write_double`, /repo/msgpack.hh:153-156. -/
def writeDouble (bits : Nat) : Bytes := 0xCB :: be 8 bits

/-- `write_string`, /repo/msgpack.hh:157-172. -/
def writeString (s : Bytes) : Bytes :=
  (if s.length < 0x20 then [UInt8.ofNat (0xA0 + s.length)]
   else if s.length < 256 then 0xD9 :: be 1 s.length
   else if s.length < 65536 then 0xDA :: be 2 s.length
   else 0xDB :: be 4 s.length) ++ s

/-- `write_array_header`, /repo/msgpack.hh:180-191. -/
def writeArrayHeader (n : Nat) : Bytes :=
  if n < 0x10 then [UInt8.ofNat (0x90 + n)]
  else if n < 65536 then 0xDC :: be 2 n
  else 0xDD :: be 4 n

/-- `write_map_header`, /repo/msgpack.hh:192-203. -/
def writeMapHeader (n : Nat) : Bytes :=
  if n < 0x10 then [UInt8.ofNat (0x80 + n)]
  else if n < 65536 then 0xDE :: be 2 n
  else 0xDF :: be 4 n

mutual
/-- `unparser::operator<<(const Json&)`, /repo/msgpack.hh:545-579. -/
def enc : Json → Bytes
  | .null => [0xC0]
  | .bool b => [if b then 0xC3 else 0xC2]
  | .uint x => writeU64 x
  | .int x => writeI64 x
  | .dbl d => writeDouble d
  | .str s => writeString s
  | .arr l => writeArrayHeader l.length ++ encs l
  | .obj l => writeMapHeader l.length ++ encItems l
def encs : List Json → Bytes
  | [] => []
  | j :: l => enc j ++ encs l
def encItems : List (Bytes × Json) → Bytes
  | [] => []
  | (k, j) :: l => writeString k ++ enc j ++ encItems l
end

/-! ### Streaming decoding -/

/-- The table `nbytes`, /repo/msgpack.cc:5-16, by first byte from 0xC0. -/
def nbytesTable : List Nat :=
  [0, 0, 0, 0, 2, 3, 5, 0, 0, 0, 5, 9, 2, 3, 5, 9, 2, 3, 5, 9, 0, 0, 0, 0, 0, 2, 3, 5, 3, 5, 3, 5]

def nbytes (b : Byte) : Nat := nbytesTable.getD (b.toNat - 0xC0) 0

/-- What an item's header says. -/
inductive Tok where
  | prim (j : Json)
  | arr (n : Nat)
  | map (n : Nat)
  | raw (n : Nat)

/-- One-byte items, /repo/msgpack.cc:59-99. -/
def short (b : Byte) : Option Tok :=
  let x := b.toNat
  if x < 0x80 then some (.prim (.int x))
  else if 0xE0 ≤ x then some (.prim (.int ((x : Int) - 256)))
  else if x = 0xC0 then some (.prim .null)
  else if x = 0xC2 then some (.prim (.bool false))
  else if x = 0xC3 then some (.prim (.bool true))
  else if x < 0x90 then some (.map (x - 0x80))
  else if x < 0xA0 then some (.arr (x - 0x90))
  else if x < 0xC0 then some (.raw (x - 0xA0))
  else none

/-- Longer items, by first byte and the bytes that follow it, /repo/msgpack.cc:101-165. -/
def long (b : Byte) (bs : Bytes) : Tok :=
  let x := b.toNat
  if x = 0xCA then .prim (.dbl (widen (unbe bs)))
  else if x = 0xCB then .prim (.dbl (unbe bs))
  else if x = 0xCC ∨ x = 0xCD then .prim (.int (unbe bs))
  else if x = 0xCE ∨ x = 0xCF then .prim (.uint (unbe bs))
  else if 0xD0 ≤ x ∧ x ≤ 0xD3 then .prim (.int (sunbe bs))
  else if x = 0xDC ∨ x = 0xDD then .arr (unbe bs)
  else if x = 0xDE ∨ x = 0xDF then .map (unbe bs)
  else .raw (unbe bs)

/-- An unfinished array or object: `left` is `selem::size`, the number of items after the current
one.  `key` waits for a key (`jp == &jokey_`), `val` for the value of key `k`. -/
inductive Frame where
  | arr (done : List Json) (left : Nat)
  | key (done : List (Bytes × Json)) (left : Nat)
  | val (done : List (Bytes × Json)) (k : Bytes) (left : Nat)

/-- `state_`, with the value when it is `st_final`, and `str_` when it is in use. -/
inductive Mode where
  | normal
  | part (buf : Bytes)
  | string (n : Nat) (buf : Bytes)
  | final (j : Json)
  | error
  | ub

structure SP where
  mode : Mode
  stack : List Frame

def Mode.done : Mode → Bool
  | .final _ => true
  | .error => true
  | .ub => true
  | _ => false

def Mode.isNormal : Mode → Bool
  | .normal => true
  | _ => false

/-- A new or reset parser. -/
def SP.init : SP := ⟨.normal, []⟩

/-- `get_insert(k) = j`, /repo/json.cc:163-186. -/
def setKey : List (Bytes × Json) → Bytes → Json → List (Bytes × Json)
  | [], k, j => [(k, j)]
  | (k', j') :: l, k, j => if k' = k then (k, j) :: l else (k', j') :: setKey l k j

/-- `to_s()` of an integer, /repo/json.cc:498-501. -/
def digits (n : Nat) : Bytes := (Nat.toDigits 10 n).map fun c => UInt8.ofNat c.toNat
def intString (x : Int) : Bytes := if x < 0 then 45 :: digits x.natAbs else digits x.natAbs

/-- A finished value goes to the top of the stack, finishing what it completes,
/repo/msgpack.cc:184-198. -/
def place : List Frame → Json → SP
  | [], v => ⟨.final v, []⟩
  | .arr done 0 :: st, v => place st (.arr (done ++ [v]))
  | .arr done (l + 1) :: st, v => ⟨.normal, .arr (done ++ [v]) l :: st⟩
  | .val done k 0 :: st, v => place st (.obj (setKey done k v))
  | .val done k (l + 1) :: st, v => ⟨.normal, .key (setKey done k v) l :: st⟩
  | .key done l :: st, _ => ⟨.error, .key done l :: st⟩

/-- Label `next`, /repo/msgpack.cc:168-198, for a primitive or string. -/
def deliver : List Frame → Json → SP
  | .key done l :: st, .str s => ⟨.normal, .val done s l :: st⟩
  | .key done l :: st, .int x => ⟨.normal, .val done (intString x) l :: st⟩
  | .key done l :: st, .uint x => ⟨.normal, .val done (digits x) l :: st⟩
  | .key done l :: st, _ => ⟨.error, .key done l :: st⟩
  | st, v => place st v

/-- Label `next` for an array or map header. -/
def openArr : List Frame → Nat → SP
  | .key done l :: st, _ => ⟨.error, .key done l :: st⟩
  | st, 0 => place st (.arr [])
  | st, n + 1 => ⟨.normal, .arr [] n :: st⟩
def openMap : List Frame → Nat → SP
  | .key done l :: st, _ => ⟨.error, .key done l :: st⟩
  | st, 0 => place st (.obj [])
  | st, n + 1 => ⟨.normal, .key [] n :: st⟩

/-- The effect of a header on the stack; `none` for a string, whose bytes follow. -/
def act (st : List Frame) : Tok → Option SP
  | .prim j => some (deliver st j)
  | .arr n => some (if n < 2147483648 then openArr st n else ⟨.ub, st⟩)
  | .map n => some (if n < 2147483648 then openMap st n else ⟨.ub, st⟩)
  | .raw n => if n < 2147483648 then none else some ⟨.ub, st⟩

/-- What is at the front of the input. -/
inductive Head where
  | bad
  | need
  | tok (t : Tok) (skip : Nat)

/-- The first bytes of the input: an item, fewer bytes than its header needs, or a byte that starts
no item.  `skip` counts header bytes after the first. -/
def head (b : Byte) (bs : Bytes) : Head :=
  match short b with
  | some t => .tok t 0
  | none =>
    if nbytes b = 0 then .bad
    else if bs.length + 1 < nbytes b then .need
    else .tok (long b (bs.take (nbytes b - 1))) (nbytes b - 1)

def rawLen : Tok → Nat
  | .raw n => n
  | _ => 0

/-- The main loop of `consume`, /repo/msgpack.cc:56-206: the parser and the bytes left over. -/
def run (st : List Frame) : Bytes → SP × Bytes
  | [] => (⟨.normal, st⟩, [])
  | b :: bs =>
    match head b bs with
    | .bad => (⟨.error, st⟩, b :: bs)
    | .need => (⟨.part (b :: bs), st⟩, [])
    | .tok t k =>
      match act st t with
      | some sp => if sp.mode.isNormal then run sp.stack (bs.drop k) else (sp, bs.drop k)
      | none =>
        if (bs.drop k).length < rawLen t then (⟨.string (rawLen t) (bs.drop k), st⟩, [])
        else
          let sp := deliver st (.str ((bs.drop k).take (rawLen t)))
          if sp.mode.isNormal then run sp.stack ((bs.drop k).drop (rawLen t)) else (sp, (bs.drop k).drop (rawLen t))
  termination_by bs => bs.length
  decreasing_by
    · simp; omega
    · simp; omega

/-- `streaming_parser::consume`, /repo/msgpack.cc:19-207: the parser and the bytes left over. -/
def SP.consume (sp : SP) (bs : Bytes) : SP × Bytes :=
  match sp.mode with
  | .final _ => (sp, bs)
  | .error => (sp, bs)
  | .ub => (sp, bs)
  | .normal => run sp.stack bs
  | .part buf =>
    let k := nbytes (buf.headD 0) - buf.length
    if bs.length < k then (⟨.part (buf ++ bs), sp.stack⟩, [])
    else
      let sp' := (run sp.stack (buf ++ bs.take k)).1
      if sp'.mode.isNormal then run sp'.stack (bs.drop k) else (sp', bs.drop k)
  | .string n buf =>
    let k := n - buf.length
    if bs.length < k then (⟨.string n (buf ++ bs), sp.stack⟩, [])
    else
      let sp' := deliver sp.stack (.str (buf ++ bs.take k))
      if sp'.mode.isNormal then run sp'.stack (bs.drop k) else (sp', bs.drop k)

end Verif.Msgpack
