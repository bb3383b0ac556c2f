import Verif.Server.Lemmas
import Verif.Log.Buffer
import Verif.Log.Replay

/-!
# What the server logs

Model of the logging in `onego`, /repo/mtd.cc:970-996, for a server with logging enabled, together with the timestamps that
the update functions leave for it (/repo/kvrow.hh:150-162, 179-265).  A put is logged with the bytes the client
sent, from after the key, if the connection still has them; otherwise the changes are encoded again.

Simplifications:
* Rows are of the default type.
* The epoch is arbitrary; so is the log that a request goes to.  Handing the record to the log is C22.
* The key logged is that of the request (the code keeps a pointer into the string while it overwrites the array element that
  owns it).
-/
namespace Verif.Server
open Verif.Key (Bytes)
open Verif.Msgpack
open Verif.Trie (T get remove)

/-- The value logged for a put, /repo/mtd.cc:976-981 and /repo/log.cc:370-378; `str` is `request_str`. -/
def putValue (req : List Json) (str : Bytes) : Option Bytes :=
  if str = [] then some (writeArrayHeader (req.length - 3) ++ encs (req.drop 3))
  else (skipArraySize str).bind (skipPrimitives 3)

/-- `prev_ts` after `apply_put`, /repo/kvrow.hh:179-207: a marker is replaced as if there were no row. -/
def prevPut : Option Row.Bag.Row → Nat
  | none => 0
  | some v => if bag.marker v then 0 else v.ts.toNat

/-- `prev_ts` after `apply_replace` and `apply_remove`, /repo/kvrow.hh:221-265. -/
def prevOther : Option Row.Bag.Row → Nat
  | none => 0
  | some v => v.ts.toNat

/-- What `onego` hands to the log, given the table before it; the outer `none` is undefined behaviour. -/
def logOf (epoch : Nat) (E : Env) (t : T Row.Bag.Row) (req : List Json) (str : Bytes) : Option (Option Log.Req) :=
  match asI (el req 1) with
  | none => none
  | some c =>
    if int32 c = cmdPut ∧ 3 < req.length ∧ req.length % 2 = 1 then
      (asS (el req 2)).bind fun k => (get k t).bind fun old => (putValue req str).map fun v =>
        some ⟨.put, ⟨epoch, E.ts.toNat, prevPut old⟩, k, v⟩
    else if int32 c = cmdReplace then
      (asS (el req 2)).bind fun k => (asS (el req 3)).bind fun v => (get k t).map fun old =>
        some ⟨.replace, ⟨epoch, E.ts.toNat, prevOther old⟩, k, v⟩
    else if int32 c = cmdRemove then
      (asS (el req 2)).bind fun k => (get k t).bind fun old => (remove k t).map fun r =>
        if r.1 then some ⟨.remove, ⟨epoch, E.ts.toNat, prevOther old⟩, k, []⟩ else none
    else some none

/-- A request with the bytes it came in, and what else it depends on. -/
structure Job where
  E : Env
  epoch : Nat
  req : List Json
  str : Bytes

/-- Serving one request. -/
def serve (fuel : Nat) (t : T Row.Bag.Row) (e : Job) : Option (T Row.Bag.Row × Option Log.Req) :=
  match onego bag e.E fuel t e.req, logOf e.epoch e.E t e.req e.str with
  | .done _ _ t', some q => some (t', q)
  | _, _ => none

/-- Serving requests one after the other: the table and what was logged. -/
def serveAll (fuel : Nat) (t : T Row.Bag.Row) : List Job → Option (T Row.Bag.Row × List Log.Req)
  | [] => some (t, [])
  | e :: es => (serve fuel t e).bind fun (t', q) => (serveAll fuel t' es).map fun (t'', qs) => (t'', q.toList ++ qs)

end Verif.Server
