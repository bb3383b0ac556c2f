import Verif.Scan.Query
import Verif.Msgpack.Model
import Verif.Row.Bag

/-!
# Requests and replies

Model of `onego` (/repo/mtd.cc:958-1006) with the query functions it calls
(/repo/kvrow.hh:97-138, 165-265, 314-323).

A request is the list of elements of the decoded array; it is edited in place and becomes the
reply.  `stop` is a failed `precondition`, `assert` or `always_assert`, which ends the whole
server; where such checks are compiled out, it is undefined behaviour.

Simplifications:
* Row types are a structure of functions, `none` being undefined behaviour; `bag` is the
  default row type.  `helper_.snapshot` is the row itself, as it is for `value_bag`
  (/repo/kvrow.hh:38-42).
* Requests are executed one at a time; the timestamp a request assigns is arbitrary.  Races
  are the subject of C09 to C12, timestamps of C15.
* Writing log records is in `Verif.Server.Log`; waking the checkpoint threads
  (/repo/mtd.cc:961-965) has no effect here.
* `String` memory is not modelled.
-/
namespace Verif.Server
open Verif.Key (Bytes)
open Verif.Msgpack (Json)
open Verif.Trie (T get upsert remove)
open Verif.Scan (runScan)
variable {V : Type}

/-! ### Values -/

/-- Conversion to `int`. -/
def int32 (x : Int) : Int := (x + 2147483648) % 4294967296 - 2147483648

/-- Conversion to `int64_t`. -/
def int64 (x : Int) : Int := (x + 9223372036854775808) % 18446744073709551616 - 9223372036854775808

/-- The integer part of a double given by its bits; `none` for infinities, NaNs and doubles of
2^64 or more. -/
def truncDouble (bits : Nat) : Option Int :=
  let e := bits / 2 ^ 52 % 2048
  let m := 2 ^ 52 + bits % 2 ^ 52
  if 1139 ≤ e then none
  else
    let a : Nat := if e < 1023 then 0 else if e < 1075 then m / 2 ^ (1075 - e) else m * 2 ^ (e - 1075)
    some (if bits / 2 ^ 63 % 2 = 1 then -a else a)

/-- `as_i`, /repo/json.hh:1873-1876. -/
def asI : Json → Option Int
  | .int x => some x
  | .uint x => some (int64 x)
  | .dbl d =>
    match truncDouble d with
    | some x => if -9223372036854775808 ≤ x ∧ x < 9223372036854775808 then some x else none
    | none => none
  | _ => none

/-- `as_u`, /repo/json.hh:1889-1892. -/
def asU : Json → Option Nat
  | .int x => some (x % 18446744073709551616).toNat
  | .uint x => some x
  | .dbl d =>
    match truncDouble d with
    | some x => if 0 ≤ x ∧ x < 18446744073709551616 then some x.toNat else none
    | none => none
  | _ => none

/-- `as_s`, /repo/json.hh:2036-2039. -/
def asS : Json → Option Bytes
  | .str s => some s
  | _ => none

/-- `is_i`, /repo/json.hh:1685-1690. -/
def isI : Json → Bool
  | .int _ => true
  | .uint _ => true
  | _ => false

/-- `request[i]` read: null when out of range, /repo/json.hh:2439-2445. -/
def el (l : List Json) (i : Nat) : Json := l.getD i .null

/-- `request[i] = j`: the array grows as needed, /repo/json.cc:532-544. -/
def put (l : List Json) (i : Nat) (j : Json) : List Json :=
  if i < l.length then l.set i j else l ++ List.replicate (i - l.length) .null ++ [j]

/-- `resize`, /repo/json.cc:374-382. -/
def resize (l : List Json) (n : Nat) : List Json := l.take n ++ List.replicate (n - l.length) .null

/-- All or nothing. -/
def allSome {α : Type} : List (Option α) → Option (List α)
  | [] => some []
  | none :: _ => none
  | some x :: l => (allSome l).map (x :: ·)

/-! ### Rows -/

/-- A row type. -/
structure Rows (V : Type) where
  /-- `row_is_marker`, /repo/kvproto.hh:52-55 -/
  marker : V → Bool
  /-- `create` from an array column, value, column, value, … -/
  create : List Json → BitVec 64 → Option V
  /-- `create1` from a whole value -/
  create1 : Bytes → BitVec 64 → Option V
  update : V → List Json → BitVec 64 → Option V
  ncol : V → Nat
  /-- conversion to `index_type` -/
  index : Int → Int
  col : V → Int → Option Bytes

/-- The changes `[first, last)` as the loops of `value_bag::update` read them
(/repo/value_bag.hh:144-146, 172, 201).  Column 2^32 - 1, for which the column count wraps to 0, is
not modelled further. -/
def changes : List Json → Option (List (Nat × Bytes))
  | [] => some []
  | [_] => none
  | c :: v :: l =>
    match asU c, asS v, changes l with
    | some i, some s, some ups => if i % 4294967296 = 4294967295 then none else some ((i % 4294967296, s) :: ups)
    | _, _, _ => none

/-- `value_bag<uint16_t>`, the default row type. -/
def bag : Rows Row.Bag.Row where
  marker r := r.ts.toNat % 2 == 1
  create js ts := (changes js).bind fun ups => Row.Bag.create ups ts
  create1 v ts := some (Row.Bag.create1 v ts)
  update r js ts := (changes js).bind fun ups => r.update ups ts
  ncol r := r.ncol
  index x := (x + 32768) % 65536 - 32768
  col r i := if i < 0 then some [] else r.col i.toNat

/-! ### Queries -/

/-- The columns asked for, or all. -/
def wanted (R : Rows V) (v : V) (f : List Int) : List Int :=
  if f = [] then (List.range (R.ncol v)).map Int.ofNat else f

/-- The values of the wanted columns. -/
def columns (R : Rows V) (v : V) (f : List Int) : Option (List Json) :=
  (allSome ((wanted R v f).map (R.col v))).map fun l => l.map .str

/-- `emit_fields`, /repo/kvrow.hh:97-107: what is appended. -/
def emitFields (R : Rows V) (v : V) (f : List Int) : Option (List Json) := columns R v f

/-- `emit_fields1`, /repo/kvrow.hh:109-121: what a null value becomes. -/
def emitFields1 (R : Rows V) (f : List Int) (v : V) : Option Json :=
  if (f = [] ∧ R.ncol v = 1) ∨ f.length = 1 then (R.col v (f.headD 0)).map .str
  else (columns R v f).map fun l => if l = [] then .null else .arr l

/-- `run_get`, /repo/kvrow.hh:124-138: the request afterwards. -/
def runGet (R : Rows V) (t : T V) (req : List Json) : Option (List Json) :=
  match asS (el req 2) with
  | none => none
  | some k =>
    match get k t with
    | none => none
    | some none => some req
    | some (some v) =>
      if R.marker v then some req
      else
        match allSome ((req.drop 3).map asI) with
        | none => none
        | some cs => (emitFields R v (cs.map R.index)).map fun vs => resize req 2 ++ vs

/-- `apply_put`, /repo/kvrow.hh:179-207: was it an insertion, and the new row. -/
def applyPut (R : Rows V) (old : Option V) (js : List Json) (ts : BitVec 64) : Option (Bool × V) :=
  match old with
  | none => (R.create js ts).map fun v => (true, v)
  | some v => if R.marker v then (R.create js ts).map fun v => (true, v) else (R.update v js ts).map fun v => (false, v)

/-- `apply_replace`, /repo/kvrow.hh:221-239. -/
def applyReplace (R : Rows V) (old : Option V) (s : Bytes) (ts : BitVec 64) : Option (Bool × V) :=
  let inserted := match old with
    | none => true
    | some v => R.marker v
  (R.create1 s ts).map fun v => (inserted, v)

/-- `Inserted` and `Updated`, /repo/kvproto.hh:33-41. -/
def result (inserted : Bool) : Json := .int (if inserted then 1 else 2)

/-- `run_put` and `run_replace`, /repo/kvrow.hh:165-177 and 209-219: `find_insert`, then the row is
computed from the one found, then `finish(1)`. -/
def runUpdate (t : T V) (k : Bytes) (f : Option V → Option (Bool × V)) : Option (Json × T V) :=
  match get k t with
  | none => none
  | some old =>
    match f old with
    | none => none
    | some (inserted, v) => (upsert true (fun _ => v) k t).map fun r => (result inserted, r.2)

/-- What a scan finds in memory: the content of uninitialised buffers and of `scankey_`. -/
structure Env where
  ts : BitVec 64
  fresh : Nat → Bytes
  old : Bytes

/-- Pairs flattened. -/
def flat : List (Bytes × Json) → List Json
  | [] => []
  | (k, j) :: l => .str k :: j :: flat l

/-- `run_scan`, /repo/kvrow.hh:314-323, and the visitor's constructor (/repo/kvrow.hh:271-277): the
request afterwards. -/
def runScanReq (R : Rows V) (E : Env) (fuel : Nat) (t : T V) (req : List Json) : Option (List Json) :=
  match asI (el req 3), asS (el req 2), allSome ((req.drop 4).map asI) with
  | some n, some first, some cs =>
    if n ≤ 0 ∨ 256 < first.length then none
    else
      match runScan .fwd R.marker (emitFields1 R (cs.map R.index)) E.fresh t first (E.fresh (256 - first.length)) E.old
          (int32 n) fuel with
      | .fin q _ =>
        (allSome (q.reply.map fun e => e.2.map fun j => (e.1, j))).map fun l => resize req 2 ++ flat l
      | _ => none
  | _, _, _ => none

/-! ### `onego` -/

inductive Out (V : Type) where
  | stop
  /-- the value returned, 1 or -1, the request edited into a reply, and the table -/
  | done (ok : Bool) (reply : List Json) (t : T V)

/-- The end of `onego`: `request[1] = command + 1; return 1`. -/
def finish (cmd : Int) (req : List Json) (t : T V) : Out V := .done true (put req 1 (.int (cmd + 1))) t

def ofOption {α : Type} (f : α → Out V) : Option α → Out V
  | none => .stop
  | some x => f x

/-- The commands, /repo/kvproto.hh:20-29. -/
def cmdGet : Int := 2
def cmdScan : Int := 4
def cmdPut : Int := 6
def cmdReplace : Int := 8
def cmdRemove : Int := 10
def cmdCheckpoint : Int := 12
def cmdHandshake : Int := 14

/-- `onego`, /repo/mtd.cc:958-1006. -/
def onego (R : Rows V) (E : Env) (fuel : Nat) (t : T V) (req : List Json) : Out V :=
  match asI (el req 1) with
  | none => .stop
  | some c =>
    let cmd := int32 c
    if cmd = cmdCheckpoint then finish cmd (resize req 2) t
    else if cmd = cmdGet then ofOption (fun r => finish cmd r t) (runGet R t req)
    else if cmd = cmdPut ∧ 3 < req.length ∧ req.length % 2 = 1 then
      match asS (el req 2) with
      | none => .stop
      | some k =>
        ofOption (fun (j, t') => finish cmd (resize (put req 2 j) 3) t')
          (runUpdate t k fun old => applyPut R old (req.drop 3) E.ts)
    else if cmd = cmdReplace then
      match asS (el req 2), asS (el req 3) with
      | some k, some s =>
        ofOption (fun (j, t') => finish cmd (resize (put req 2 j) 3) t')
          (runUpdate t k fun old => applyReplace R old s E.ts)
      | _, _ => .stop
    else if cmd = cmdRemove then
      match asS (el req 2) with
      | none => .stop
      | some k =>
        ofOption (fun r => finish cmd (resize (put req 2 (.bool r.1)) 3) r.2.1) (remove k t)
    else if cmd = cmdScan then ofOption (fun r => finish cmd r t) (runScanReq R E fuel t req)
    else .done false (resize (put req 1 (.int (-1))) 2) t

end Verif.Server
