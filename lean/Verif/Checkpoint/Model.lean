import Verif.Msgpack.Parser
import Verif.Row.Bag
import Verif.Row.Str
import Verif.Row.Array
import Verif.Scan.Model

/-!
# Checkpoint part files

Model of `ckstate` (/repo/checkpoint.hh, /repo/checkpoint.cc), of the checkpoint functions of the four row
types, of `writecheckpoint` (/repo/mtd.cc:1500-1532) and of `read_checkpoint` (/repo/mtd.cc:1275-1310).
`none` is a failed assertion or a read outside a row or the file.

Simplifications:
* The output buffer is the list of its bytes; it is a `kvout`, which keeps up to 2^31 bytes (see C41).
* The memory image of a bag row is little-endian, as on the machines the server runs on; the image is copied in and
  out unchanged.
* The file is read back as it was written; C27 and the comments there treat crashes.
-/
namespace Verif.Checkpoint
open Verif.Key (Byte Bytes)
open Verif.Msgpack

/-- `row_is_marker`, /repo/kvproto.hh:53-55. -/
def isMarker (ts : BitVec 64) : Bool := ts.toNat % 2 == 1

/-- `write_wide(uint64_t)`, /repo/msgpack.hh:141-144, 288-292. -/
def writeWide (x : BitVec 64) : Bytes := 0xCF :: be 8 x.toNat

/-! ### Row formats -/

/-- How a row type is written and read.  `H` is the memory that rows point into.  `ts` is `timestamp()`, `write` is
`checkpoint_write`, `read` is `checkpoint_read`. -/
structure Format (H R : Type) where
  ts : R → BitVec 64
  write : H → R → Option Bytes
  read : H → BitVec 64 → Bytes → Option (R × H × Bytes)

/-- Two bytes as they lie in memory. -/
def le16 (x : Nat) : Bytes := [UInt8.ofNat x, UInt8.ofNat (x / 256)]

/-- The number they stand for. -/
def unle16 (b c : Byte) : Nat := b.toNat + 256 * c.toNat

/-- Pairs of bytes as numbers. -/
def unle16s : Bytes → List Nat
  | b :: c :: bs => unle16 b c :: unle16s bs
  | _ => []

/-- The bytes at `d_.s_`, /repo/value_bag.hh:30-36. -/
def bagImage (r : Row.Bag.Row) : Bytes := le16 r.ncol ++ r.pos.flatMap le16 ++ r.data

/-- The row whose memory after the timestamp begins with the given bytes. -/
def bagOfImage (ts : BitVec 64) : Bytes → Option Row.Bag.Row
  | b :: c :: bs =>
    let n := unle16 b c
    if bs.length < 2 * (n + 1) then none
    else some { ts := ts, ncol := n, pos := unle16s (bs.take (2 * (n + 1))), data := bs.drop (2 * (n + 1)) }
  | _ => none

/-- `value_bag`, /repo/value_bag.hh:247-262. -/
def bag : Format Unit Row.Bag.Row where
  ts r := r.ts
  write _ r := if (bagImage r).length < r.at r.ncol then none else some (writeString ((bagImage r).take (r.at r.ncol)))
  read _ ts bs := (readStr bs).bind fun (v, rest) => (bagOfImage ts v).map fun r => (r, (), rest)

/-- All bytes of a string row, unless one was never written. -/
def known : List (Option Byte) → Option Bytes
  | [] => some []
  | none :: _ => none
  | some b :: l => (known l).map (b :: ·)

/-- `value_string`, /repo/value_string.hh:179-191. -/
def string : Format Unit Row.Str.Row where
  ts r := r.ts
  write _ r := (known r.s).map writeString
  read _ ts bs := (readStr bs).map fun (v, rest) => (Row.Str.create1 v ts, (), rest)

/-- The column loop of the two `checkpoint_read`s of array rows, /repo/value_array.hh:140-145 and
/repo/value_versioned_array.hh:190-194.  (`make_column` gives no memory to an empty column, so the test at line 143
makes no difference.) -/
def readCols (h : Row.Array.Heap) : Nat → Bytes → Option (List (Option Nat) × Row.Array.Heap × Bytes)
  | 0, bs => some ([], h, bs)
  | n + 1, bs =>
    (readStr bs).bind fun (v, rest) =>
      let (p, h) := h.make v
      (readCols h n rest).map fun (ps, h, rest) => (p :: ps, h, rest)

/-- The strings that the two `checkpoint_write`s of array rows write. -/
def writeCols (cols : List Bytes) : Bytes := writeArrayHeader cols.length ++ cols.flatMap writeString

/-- `value_array`, /repo/value_array.hh:134-154. -/
def array : Format Row.Array.Heap Row.Array.Row where
  ts r := r.ts
  write h r := some (writeCols ((List.range r.cols.length).map (r.col h)))
  read h ts bs :=
    (readArrayHeader bs).bind fun (n, rest) =>
      (readCols h n rest).map fun (ps, h, rest) => ({ ts := ts, cols := ps }, h, rest)

/-- `value_versioned_array`, /repo/value_versioned_array.hh:183-203. -/
def versioned : Format Row.Array.Heap Row.Array.VRow where
  ts r := r.ts
  write h r := some (writeCols ((List.range r.ncol).map (r.col h)))
  read h ts bs :=
    (readArrayHeader bs).bind fun (n, rest) =>
      (readCols h n rest).map fun (ps, h, rest) => ({ ts := ts, ncol := ps.length, cols := ps }, h, rest)

/-! ### Writing -/

/-- `vals` and `count` of `ckstate`; `none` after a read outside a row. -/
abbrev Out := Option (Bytes × Nat)

/-- The negation of `endkey && key >= endkey`, /repo/checkpoint.cc:21. -/
def before (endkey key : Bytes) : Bool := !(!endkey.isEmpty && decide (0 ≤ Scan.cmpBytes key endkey))

/-- `ckstate::visit_value`, /repo/checkpoint.cc:20-30: the new state, and whether to go on. -/
def visit {H R : Type} (f : Format H R) (h : H) (endkey : Bytes) (st : Out) (key : Bytes) (r : R) : Out × Bool :=
  if before endkey key then
    if isMarker (f.ts r) then (st, true)
    else
      (st.bind fun (vals, count) => (f.write h r).map fun w =>
        (vals ++ (writeString key ++ writeWide (f.ts r) ++ w), count + 1), true)
  else (st, false)

/-- The bytes of an ASCII string. -/
def ascii (s : String) : Bytes := s.toList.map fun c => UInt8.ofNat c.toNat

/-- The header of a part file, /repo/mtd.cc:1512-1514. -/
def header (gen count : Nat) (startkey : Bytes) : Json :=
  .obj [(ascii "generation", .uint gen), (ascii "size", .uint count), (ascii "firstkey", .str startkey)]

/-- `writecheckpoint`, /repo/mtd.cc:1500-1532: the contents of the file. -/
def partFile (gen : Nat) (startkey : Bytes) (out : Bytes × Nat) : Bytes := enc (header gen out.2 startkey) ++ out.1

/-! ### Reading -/

/-- `parser::operator>>(Json&)`, /repo/msgpack.hh:665-673: at most 4096 bytes at a time go to a streaming parser. -/
def readJsonFrom : Nat → SP → Bytes → Option (Json × Bytes)
  | 0, _, _ => none
  | n + 1, sp, bs =>
    match sp.consume (bs.take 4096) with
    | (⟨.final j, _⟩, left) => some (j, left ++ bs.drop 4096)
    | (sp', left) => if sp'.mode.done ∨ bs = [] then none else readJsonFrom n sp' (left ++ bs.drop 4096)

def readJson (bs : Bytes) : Option (Json × Bytes) := readJsonFrom (bs.length + 1) SP.init bs

/-- `j[k]`. -/
def field (j : Json) (k : Bytes) : Json :=
  match j with
  | .obj l => ((l.find? fun e => e.1 == k).map Prod.snd).getD .null
  | _ => .null

/-- `is_i()` and `uint64_t(as_i())`, /repo/json.hh:1688-1690, 1873-1876. -/
def asU64 : Json → Option Nat
  | .int x => some (x % 18446744073709551616).toNat
  | .uint x => some (x % 18446744073709551616)
  | _ => none

/-- `ckstate::insert`, /repo/checkpoint.hh:41-54, up to the insertion into the table: the key and the row. -/
def readEntry {H R : Type} (f : Format H R) (h : H) (bs : Bytes) : Option ((Bytes × R) × H × Bytes) :=
  (readStr bs).bind fun (key, bs) =>
    (readInt bs).bind fun (ts, bs) =>
      (f.read h (BitVec.ofInt 64 ts) bs).map fun (r, h, bs) => ((key, r), h, bs)

/-- The loop of `read_checkpoint`, /repo/mtd.cc:1299-1301. -/
def readEntries {H R : Type} (f : Format H R) : Nat → H → Bytes → Option (List (Bytes × R) × H × Bytes)
  | 0, h, bs => some ([], h, bs)
  | n + 1, h, bs =>
    (readEntry f h bs).bind fun (e, h, bs) => (readEntries f n h bs).map fun (es, h, bs) => (e :: es, h, bs)

/-- `read_checkpoint`, /repo/mtd.cc:1275-1310: the generation, the keys and rows that are inserted into the table in
this order, and the memory. -/
def readPart {H R : Type} (f : Format H R) (h : H) (file : Bytes) : Option (Nat × List (Bytes × R) × H) :=
  (readJson file).bind fun (j, bs) =>
    (asU64 (field j (ascii "generation"))).bind fun gen =>
      (asU64 (field j (ascii "size"))).bind fun n =>
        (readEntries f n h bs).map fun (es, h, _) => (gen, es, h)

end Verif.Checkpoint
