import Verif.Client.Window
import Verif.Server.Conn

/-!
# The messages of a client

Model of `KVConn`, /repo/mtclient.hh:31-219, and `KVConn::hard_check`, /repo/mtclient.cc:763-788, and of what `checkasync`
does with a reply, /repo/mtclient.cc:883-932.

Simplifications:
* The bytes received are given as the blocks that the calls of `read` return; an empty block is the end of the input or an error.
  The buffers they are read into, and strings that point there, are not modelled.
* Sending is modelled as the message; `kvout` is the subject of C41.
* The client waits for replies (`tryhard` is 2), it does not poll.
-/
namespace Verif.Client
open Verif.Key (Bytes)
open Verif.Msgpack
open Verif.Server

/-! ### Requests -/

/-- The functions that send a request, with their arguments. -/
inductive Req where
  | getWhole (key : Bytes)
  | getCol (key : Bytes) (col : Int)
  | get (key : Bytes) (f : List Nat)
  | putCol (key : Bytes) (col : Int) (val : Bytes)
  | putWhole (key val : Bytes)
  | remove (key : Bytes)
  | scanWhole (first : Bytes) (num : Int)
  | scan (first : Bytes) (f : List Nat) (num : Int)

/-- The first elements of a message, e.g. /repo/mtclient.hh:77-80, in the array left by the message before. -/
def begin (j : List Json) (n : Nat) (seq : Nat) (cmd : Int) (key : Bytes) : List Json :=
  put (put (put (resize j n) 0 (.uint seq)) 1 (.int cmd)) 2 (.str key)

/-- `j_` after a send function, which is the message sent, given `j_` before it: `sendgetwhole`, /repo/mtclient.hh:76-82,
`sendgetcol`, 83-90, `sendget`, 91-98, `sendputcol`, 100-108, `sendputwhole`, 109-116, `sendremove`, 117-123, `sendscanwhole`,
125-132, `sendscan`, 133-142. -/
def compose (j : List Json) (seq : Nat) : Req → List Json
  | .getWhole k => begin j 3 seq cmdGet k
  | .getCol k c => put (begin j 4 seq cmdGet k) 3 (.int c)
  | .get k f => put (begin j 4 seq cmdGet k) 3 (.arr (f.map .uint))
  | .putCol k c v => put (put (begin j 5 seq cmdPut k) 3 (.int c)) 4 (.str v)
  | .putWhole k v => put (begin j 3 seq cmdReplace k) 3 (.str v)
  | .remove k => begin j 3 seq cmdRemove k
  | .scanWhole k n => put (begin j 4 seq cmdScan k) 3 (.int n)
  | .scan k f n => put (put (begin j 5 seq cmdScan k) 3 (.int n)) 4 (.arr (f.map .uint))

/-- The messages for requests, numbered from `seq` on; numbers have 32 bits. -/
def messages (j : List Json) (seq : Nat) : List Req → List (List Json)
  | [] => []
  | r :: rs => compose j (seq % 2 ^ 32) r :: messages (compose j (seq % 2 ^ 32) r) (seq + 1) rs

/-- "core" -/
def sCore : Bytes := [99, 111, 114, 101]

/-- The handshake, /repo/mtclient.hh:196-200, the first message. -/
def hello (core : Int) : List Json := [.int 0, .int cmdHandshake, .obj [(sCore, .int core), (sMaxkeylen, .int 255)]]

/-! ### Replies -/

/-- `inbuf_[inbufpos_, inbuflen_)`, `parser_` and what is yet to be read. -/
structure Input where
  sp : SP
  buf : Bytes
  blocks : List Bytes

/-- The loop of `receive`, /repo/mtclient.hh:168-171, with `check`, /repo/mtclient.hh:161-165. -/
def pull (sp : SP) (buf : Bytes) : List Bytes → SP × Bytes × List Bytes
  | [] => ((sp.feed buf).1, (sp.feed buf).2, [])
  | c :: cs =>
    if (sp.feed buf).1.mode.done then ((sp.feed buf).1, (sp.feed buf).2, c :: cs)
    else if c = [] then ((sp.feed buf).1, [], cs)
    else pull (sp.feed buf).1 c cs

/-- `receive`, /repo/mtclient.hh:167-177; `none` is null, for which all callers stop (/repo/mtclient.hh:205-210,
/repo/mtclient.cc:803 and 890), or undefined. -/
def Input.receive (s : Input) : Option (List Json × Input) :=
  match (pull s.sp s.buf s.blocks).1.mode with
  | .final (.arr l) => some (l, ⟨SP.init, (pull s.sp s.buf s.blocks).2.1, (pull s.sp s.buf s.blocks).2.2⟩)
  | _ => none

/-- A client that has connected. -/
def Input.new (blocks : List Bytes) : Input := ⟨SP.init, [], blocks⟩

/-- `unsigned rseq = result[0].as_i()`, /repo/mtclient.cc:894. -/
def seqOf (reply : List Json) : Option (BitVec 32) := (asI (el reply 0)).map (BitVec.ofInt 32)

/-- `truthy`, /repo/json.hh:1662-1666.  A string without a memo, as the parser makes for an empty one and for one in the buffer
(/repo/msgpack.cc:93-98, /repo/string.hh:202-210), is true even if it is empty. -/
def truthy : Json → Bool
  | .null => false
  | .bool b => b
  | .int x => x ≠ 0
  | .uint x => x ≠ 0
  | .dbl d => d ≠ 0
  | .str _ => true
  | .arr _ => true
  | .obj _ => true

/-- Comparison with a number, /repo/json.cc:546-556. -/
def eqNum (j : Json) (x : Int) : Bool :=
  match j with
  | .int y => y = x
  | .uint y => (y : Int) = x
  | _ => false

/-- The client is content with the reply to its handshake, and its `partition_`, /repo/mtclient.hh:204-211. -/
def welcomed (reply : List Json) : Option Int :=
  if eqNum (el reply 1) (cmdHandshake + 1) && truthy (el reply 2) then asI (el reply 3) else none

/-- `get` with the reply to request `seq`, /repo/mtclient.cc:803-810: -1, or the value; `none` if an assertion fails. -/
def getSync (seq : Nat) (max : Nat) (reply : List Json) : Option (Option Bytes) :=
  if eqNum (el reply 0) seq then
    if truthy (el reply 2) then
      if reply.length = 3 then
        match asS (el reply 2) with
        | some s => if s.length ≤ max then some (some s) else none
        | none => none
      else none
    else some none
  else none

/-- What a callback is given, /repo/mtclient.cc:909-925. -/
inductive Got where
  | value (found : Bool) (s : Bytes)
  | status (x : Int)
  | nothing
deriving DecidableEq

/-- /repo/mtclient.cc:909-925, for a request with a callback; `none` if an accessor's precondition fails. -/
def interpret (r : Req) (reply : List Json) : Option Got :=
  match r with
  | .getWhole _ | .getCol _ _ | .get _ _ =>
    if 2 < reply.length then (asS (el reply 2)).map (.value true) else some (.value false [])
  | .putCol _ _ _ | .putWhole _ _ | .remove _ => (asI (el reply 2)).map .status
  | .scanWhole _ _ | .scan _ _ _ => some .nothing

end Verif.Client
