import Verif.Server.Model
import Verif.Msgpack.Stream

/-!
# Connections

Model of what the server does with TCP connections and UDP datagrams: the accepting loop
(/repo/mtd.cc:834-866), `handshake` (/repo/mtd.cc:937-956), `conn` (/repo/mtd.cc:465-552),
`tcp_threadfunc` (/repo/mtd.cc:1111-1178) and `udp_threadfunc` (/repo/mtd.cc:1180-1234).

The bytes a client sends are given as the list of blocks that the calls of `read` return; after the
last one `read` returns 0 or an error.  Accepting, greeting and serving happen in any order across
the connections; each request is executed as a whole.

Simplifications:
* The output is the list of bytes written, as if flushed at once; `kvout` is the subject of C41.
* The choice of the thread is not modelled, only its index, which is part of a reply.
* Lengths of 2^31 or more in a message are undefined behaviour, as is a failed assertion: there is
  no step.
* The buffers of `conn`, and strings that point into them, are not modelled.
* If a handshake is cut off inside the value of a repeated object key, the elements of a former
  array value are taken to be gone.
-/
namespace Verif.Server
open Verif.Key (Bytes)
open Verif.Msgpack
open Verif.Trie (T)
variable {V : Type}

/-! ### The handshake -/

/-- `json_` for an unfinished stack: arrays have their full length from the start
(/repo/msgpack.cc:76-82), object values are inserted with their key (/repo/msgpack.cc:170-177).
`cur` is what has been written to the current place, if anything. -/
def unfinished : List Frame → Option Json → Json
  | [], cur => cur.getD .null
  | .arr done left :: st, cur => unfinished st (some (.arr (done ++ [cur.getD .null] ++ List.replicate left .null)))
  | .key done _ :: st, _ => unfinished st (some (.obj done))
  | .val done k _ :: st, cur =>
    unfinished st (some (.obj (match cur with
      | some j => setKey done k j
      | none => if (done.map Prod.fst).contains k then done else setKey done k .null)))

/-- `result()`. -/
def result? (sp : SP) : Json :=
  match sp.mode with
  | .final j => j
  | _ => unfinished sp.stack none

/-- The check of the accepting loop, /repo/mtd.cc:844-850: a handshake request, if the block holds
one and nothing else. -/
def greeting? (block : Bytes) : Option (List Json) :=
  if block = [] ∨ (SP.init.consume block).2 ≠ [] then none
  else
    match result? (SP.init.consume block).1 with
    | .arr l => if 2 ≤ l.length ∧ isI (el l 1) = true ∧ asI (el l 1) = some cmdHandshake then some l else none
    | _ => none

def isO : Json → Bool
  | .obj _ => true
  | _ => false

/-- `j[k]`, null if there is none. -/
def member (j : Json) (k : Bytes) : Json :=
  match j with
  | .obj l => ((l.find? fun e => e.1 == k).map Prod.snd).getD .null
  | _ => .null

/-- "maxkeylen" -/
def sMaxkeylen : Bytes := [109, 97, 120, 107, 101, 121, 108, 101, 110]
/-- "bad maxkeylen" -/
def sBad : Bytes := [98, 97, 100, 32] ++ sMaxkeylen

/-- `handshake`, /repo/mtd.cc:938-956: whether the connection stays, and the reply; `none` is the
failed `always_assert`.  `MASSTREE_MAXKEYLEN` is 255 (/repo/configure.ac:332-336). -/
def handshake (index : Int) (name : Bytes) (l : List Json) : Option (Bool × List Json) :=
  if 2 ≤ l.length ∧ isI (el l 1) = true ∧ asI (el l 1) = some cmdHandshake ∧ (l.length = 2 ∨ isO (el l 2) = true) then
    let m := member (el l 2) sMaxkeylen
    if isI m = true ∧ 255 < (asI m).getD 0 then
      some (false, put (resize (put (put l 2 (.bool false)) 3 (.str sBad)) 4) 1 (.int (cmdHandshake + 1)))
    else
      some (true,
        put (resize (put (put (put l 2 (.bool true)) 3 (.int index)) 4 (.str name)) 5) 1 (.int (cmdHandshake + 1)))
  else none

/-! ### Receiving a request -/

/-- The loop of `conn::receive`, /repo/mtd.cc:482-486: the parser, the rest of the current block and
the blocks not yet read. -/
def recv : SP → List Bytes → SP × Bytes × List Bytes
  | sp, [] => (sp, [], [])
  | sp, c :: cs =>
    if (sp.feed c).1.mode.done then ((sp.feed c).1, (sp.feed c).2, cs) else recv (sp.feed c).1 cs

/-! ### The server -/

def isUb : Mode → Bool
  | .ub => true
  | _ => false

inductive Phase where
  /-- connected, nothing read -/
  | fresh
  /-- passed on to a thread with its handshake request -/
  | greeting (hs : List Json)
  /-- being served; the bytes read but not parsed -/
  | opened (buf : Bytes)
  | closed

structure Conn where
  phase : Phase
  inp : List Bytes
  out : Bytes

structure Srv (V : Type) where
  t : T V
  conn : Nat → Conn

inductive Act where
  | accept (i : Nat)
  | greet (i : Nat) (index : Int)
  | serve (i : Nat) (E : Env) (fuel : Nat)

/-- What happened: an answer to a handshake or to a request, with the decision whether the
connection stays open. -/
inductive Ev where
  | quiet
  | greeted (i : Nat) (hs reply : List Json) (stays : Bool)
  | served (i : Nat) (ts : BitVec 64) (req reply : List Json) (stays : Bool)

def Srv.set (s : Srv V) (i : Nat) (c : Conn) : Srv V := { s with conn := fun j => if j = i then c else s.conn j }

/-- One step; `none` if it is not possible, ends the server or is undefined. -/
def Srv.step (R : Rows V) (name : Bytes) (s : Srv V) : Act → Option (Srv V × Ev)
  | .accept i =>
    match s.conn i with
    | ⟨.fresh, inp, out⟩ =>
      match inp with
      | [] => some (s.set i ⟨.closed, [], out⟩, .quiet)
      | c :: cs =>
        if isUb (SP.init.consume c).1.mode then none
        else
          match greeting? c with
          | some hs => some (s.set i ⟨.greeting hs, cs, out⟩, .quiet)
          | none => some (s.set i ⟨.closed, cs, out⟩, .quiet)
    | _ => none
  | .greet i index =>
    match s.conn i with
    | ⟨.greeting hs, inp, out⟩ =>
      (handshake index name hs).map fun (ok, reply) =>
        (s.set i ⟨if ok then .opened [] else .closed, inp, out ++ enc (.arr reply)⟩, .greeted i hs reply ok)
    | _ => none
  | .serve i E fuel =>
    match s.conn i with
    | ⟨.opened buf, inp, out⟩ =>
      let r := recv SP.init (buf :: inp)
      match r.1.mode with
      | .ub => none
      | .final (.arr req) =>
        match onego R E fuel s.t req with
        | .stop => none
        | .done ok reply t =>
          some ({ s with t := t }.set i ⟨if ok then .opened r.2.1 else .closed, r.2.2, out ++ enc (.arr reply)⟩,
            .served i E.ts req reply ok)
      | _ => some (s.set i ⟨.closed, r.2.2, out⟩, .quiet)
    | _ => none

/-- Several steps. -/
def Srv.run (R : Rows V) (name : Bytes) (s : Srv V) : List Act → Option (Srv V × List Ev)
  | [] => some (s, [])
  | a :: as =>
    match s.step R name a with
    | none => none
    | some (s', e) => (Srv.run R name s' as).map fun (s'', es) => (s'', e :: es)

/-- Clients that have connected and will send the given blocks. -/
def Srv.init (inp : Nat → List Bytes) : Srv V := ⟨Trie.empty, fun i => ⟨.fresh, inp i, []⟩⟩

/-! ### UDP -/

/-- One round of `udp_threadfunc`, /repo/mtd.cc:1204-1232: the buffer, the datagram sent back, if
any, and the table.  The parser is handed the whole buffer, not just the bytes received. -/
def udp (R : Rows V) (E : Env) (fuel : Nat) (t : T V) (buf datagram : Bytes) : Option (Bytes × Option Bytes × T V) :=
  let buf' := datagram.take buf.length ++ buf.drop datagram.length
  match (SP.init.consume buf').1.mode with
  | .ub => none
  | .final (.arr req) =>
    match onego R E fuel t req with
    | .stop => none
    | .done ok reply t' => some (buf', if ok then some (enc (.arr reply)) else none, t')
  | _ => some (buf', none, t)

end Verif.Server
