import Verif.Log.Record

/-!
# The in-memory log

Model of `loginfo::record` and `loginfo::run`, /repo/log.cc:235-368, for one log.  What a thread does while it
holds the log's lock is one step.  A buffer is the list of its bytes.  Writing outside a buffer is the
outcome `none`.

Simplifications:
* Epochs are natural numbers compared as such: `circular_int` compares the same way as long as the epochs
  in play are less than 2^63 apart (C30).
* `wait` records on the stack are numbers naming the recording threads.
* The write and fsync of a full buffer are one step, `written`; nothing is said here about a crash in
  between (see C21 for torn files).
-/
namespace Verif.Log
open Verif.Key (Bytes)

/-- `loginfo::query_times`, /repo/log.hh:40-44. -/
structure Times where
  epoch : Nat
  ts : Nat
  prev : Nat

/-- `logrec_...::store(buf + pos, ...)`.  The padding keeps the bytes it finds. -/
def put (buf : Bytes) (pos : Nat) (r : Rec) : Option Bytes :=
  if pos + r.size ≤ buf.length then
    some (buf.take pos ++ r.store ((buf.drop (pos + r.size - 4)).take 4) ++ buf.drop (pos + r.size))
  else none

/-- Several records, one after the other. -/
def puts (buf : Bytes) (pos : Nat) : List Rec → Option (Bytes × Nat)
  | [] => some (buf, pos)
  | r :: rs => (put buf pos r).bind fun b => puts b (pos + r.size) rs

/-- The epochs a log remembers, /repo/log.hh:64-67. -/
structure Marks where
  logEpoch : Nat
  quiescent : Nat
  wake : Nat
  flushed : Nat

/-- A log. -/
structure Li extends Marks where
  len : Nat
  pos : Nat
  buf : Bytes
  xbuf : Bytes
  waiting : List Nat

/-- What to log. -/
structure Req where
  command : KvCmd
  qt : Times
  key : Bytes
  val : Bytes

/-- The size that `record` asks for, /repo/log.cc:297-298. -/
def Req.space (q : Req) : Nat := (32 + q.key.length + q.val.length) + 16 + 8

/-- `we` after the wake-up of a quiescent log raised `global_wake_epoch`, /repo/log.cc:304, 312-322. -/
def Marks.globalWake (l : Marks) (gw : Nat) (q : Req) : Nat := if l.quiescent ≠ 0 ∧ gw < q.qt.epoch then q.qt.epoch else gw

/-- The wake epoch to be logged, /repo/log.cc:329-330. -/
def Marks.wakeFor (l : Marks) (gw : Nat) (q : Req) : Nat :=
  let we := l.globalWake gw q
  if we ≠ l.wake ∧ q.qt.epoch < we then q.qt.epoch else we

/-- The record of the update itself, /repo/log.cc:336-343. -/
def Req.update (q : Req) : Rec :=
  if q.command = .put ∧ q.qt.prev ≠ 0 ∧ q.qt.prev % 2 = 0 then .modify q.qt.ts q.qt.prev q.key q.val
  else .kv q.command q.qt.ts q.key q.val

/-- The epochs after recording a request, /repo/log.cc:307-334. -/
def Marks.recorded (l : Marks) (gw : Nat) (q : Req) : Marks where
  logEpoch := q.qt.epoch
  flushed := if l.quiescent ≠ 0 ∧ l.flushed = l.quiescent then q.qt.epoch else l.flushed
  quiescent := 0
  wake := l.wakeFor gw q

/-- The records written for a request, /repo/log.cc:307-343. -/
def Marks.group (l : Marks) (gw : Nat) (q : Req) : List Rec :=
  (if q.qt.epoch ≠ l.logEpoch then [.epoch q.qt.epoch] else []) ++
  (if l.wakeFor gw q ≠ l.wake then [.wake] else []) ++
  [q.update]

/-- The outcome of one turn of the loop in `record`. -/
inductive Turn where
  | logged (l : Li) (gw : Nat)
  | waits (l : Li)
  | overrun

/-- One turn of the loop in `record`, /repo/log.cc:301-366, by thread `w`. -/
def Li.record (l : Li) (gw : Nat) (w : Nat) (q : Req) : Turn :=
  if q.space ≤ l.len - l.pos ∧ (w ∉ l.waiting ∨ l.waiting.head? = some w) then
    match puts l.buf l.pos (l.group gw q) with
    | none => .overrun
    | some (b, p) =>
      .logged
        { l with
          toMarks := l.toMarks.recorded gw q
          buf := b
          pos := p
          waiting := if l.waiting.head? = some w then l.waiting.tail else l.waiting }
        (l.globalWake gw q)
  else .waits { l with waiting := if w ∈ l.waiting then l.waiting else l.waiting ++ [w] }

/-- The first part of the logger's turn, /repo/log.cc:250-254: a wake-up elsewhere ends quiescence. -/
def Marks.noticeWake (l : Marks) (gw : Nat) : Marks := if l.wake ≠ gw then { l with wake := gw, quiescent := 0 } else l

/-- The same for the log. -/
def Li.noticeWake (l : Li) (gw : Nat) : Li := { l with toMarks := l.toMarks.noticeWake gw }

/-- The records of a quiescence notification, /repo/log.cc:261-266. -/
def quiesceGroup (ge gw : Nat) : List Rec := [.epoch ge] ++ (if ge = gw then [.wake] else []) ++ [.quiesce]

/-- Whether a log whose buffer is empty may write a quiescence notification, /repo/log.cc:258-259. -/
def Marks.mayRest (l : Marks) (ge gw : Nat) : Prop := l.quiescent = 0 ∧ ge ≠ l.logEpoch ∧ ge ≠ gw

instance (l : Marks) (ge gw : Nat) : Decidable (l.mayRest ge gw) := inferInstanceAs (Decidable (_ ∧ _))

/-- The epochs after a quiescence notification, /repo/log.cc:260. -/
def Marks.rested (l : Marks) (ge : Nat) : Marks := { l with logEpoch := ge, quiescent := ge }

/-- Whether the logger writes a quiescence notification, /repo/log.cc:258-259. -/
def Li.goesQuiet (l : Li) (ge gw : Nat) : Prop := l.pos = 0 ∧ l.toMarks.mayRest ge gw ∧ l.waiting = []

instance (l : Li) (ge gw : Nat) : Decidable (l.goesQuiet ge gw) := inferInstanceAs (Decidable (_ ∧ _))

/-- The second part, /repo/log.cc:258-267. -/
def Li.maybeQuiesce (l : Li) (ge gw : Nat) : Option Li :=
  if l.goesQuiet ge gw then
    (puts l.buf 0 (quiesceGroup ge l.wake)).map fun (b, p) =>
      { l with toMarks := l.toMarks.rested ge, buf := b, pos := p }
  else some l

/-- The third part, /repo/log.cc:268-273: the buffers are swapped, and the bytes to be written are those of
the old one. -/
def Li.swap (l : Li) : Li × Bytes := ({ l with buf := l.xbuf, xbuf := l.buf, pos := 0 }, l.buf.take l.pos)

end Verif.Log
