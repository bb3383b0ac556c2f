import Verif.Log.Buffer

/-!
# Several logs, and how recovery reads them

Model of `loginfo::record` and `loginfo::run` for several logs that share the global log and wake epochs,
/repo/log.cc:235-368, of `logreplay::info`, `min_post_quiescent_wake_epoch` and the selection loop of
`replayandclean1`, /repo/log.cc:605-743, and of the epoch computation of `recover`, /repo/mtd.cc:1392-1455.

Simplifications:
* A log is the list of its records; C21 and C22 relate it to the bytes.  A file cut at any byte holds the records
  before some point (C21.torn), so a crash leaves a beginning of the list.
* Everything done under a log's lock is one step.  The epoch of an update is read after the lock is taken,
  /repo/kvrow.hh:182-184, and the lock is kept until `record` has stored the records.  The global epoch can
  advance in between, and other logs can record, so the epoch of an update may be older than the global epoch
  of its step.  It is older than the epoch of the log only if `record` had to wait for space, because
  waiting gives up the lock, /repo/log.cc:359-366.
* Epochs are natural numbers (see `Verif.Log.Buffer`).
* Logs start empty.
-/
namespace Verif.Log
open Verif.Key (Bytes)

/-- A log. `swapped` records have been handed to the logger's write, `disk` of them are known to be on disk. -/
structure Lg where
  marks : Marks
  recs : List Rec
  swapped : Nat
  inflight : Option Nat
  disk : Nat

/-- An update: the log it went to, what was logged, and the global wake epoch afterwards. -/
structure Entry where
  log : Nat
  q : Req
  gw : Nat

/-- The server's logs; `hist` are all updates in the order in which they happened. -/
structure Sys where
  ge : Nat
  gw : Nat
  logs : Nat → Lg
  hist : List Entry

inductive LAct where
  /-- `check_epoch`, /repo/log.cc:225-233. -/
  | tick
  /-- An update through log `i`. -/
  | update (i : Nat) (q : Req)
  /-- The critical section of logger `i`; `w`: some thread is waiting for space. -/
  | logger (i : Nat) (w : Bool)
  /-- Logger `i` has written and synced. -/
  | written (i : Nat)

/-- The part of `record` under the lock. -/
def Lg.record (l : Lg) (gw : Nat) (q : Req) : Lg :=
  { l with marks := l.marks.recorded gw q, recs := l.recs ++ l.marks.group gw q }

/-- The part of `run` under the lock. -/
def Lg.logger (l : Lg) (ge gw : Nat) (w : Bool) : Lg :=
  let m := l.marks.noticeWake gw
  let quiet : Bool := decide (l.swapped = l.recs.length) && decide (m.mayRest ge gw) && !w
  let m' := if quiet then m.rested ge else m
  let recs := if quiet then l.recs ++ quiesceGroup ge m.wake else l.recs
  if l.swapped < recs.length then
    { l with marks := m', recs := recs, swapped := recs.length, inflight := some m'.logEpoch }
  else { l with marks := m', recs := recs }

def Sys.step (s : Sys) : LAct → Sys
  | .tick => { s with ge := s.ge + 1 }
  | .update i q =>
    let gw := (s.logs i).marks.globalWake s.gw q
    { s with
      gw := gw
      logs := fun j => if j = i then (s.logs i).record s.gw q else s.logs j
      hist := s.hist ++ [⟨i, q, gw⟩] }
  | .logger i w =>
    if (s.logs i).inflight = none then { s with logs := fun j => if j = i then (s.logs i).logger s.ge s.gw w else s.logs j }
    else s
  | .written i =>
    match (s.logs i).inflight with
    | none => s
    | some e =>
      { s with
        logs := fun j =>
          if j = i then { s.logs i with disk := (s.logs i).swapped, inflight := none, marks := { (s.logs i).marks with flushed := e } }
          else s.logs j }

/-- The server after start, /repo/mtd.cc:708-709 and /repo/log.cc:179-199. -/
def Sys.init : Sys := ⟨1, 0, fun _ => ⟨⟨0, 0, 0, 0⟩, [], 0, none, 0⟩, []⟩

def Sys.runs (s : Sys) : List LAct → Sys
  | [] => s
  | a :: as => (s.step a).runs as

/-! ### Reading the logs -/

/-- `logreplay::info_type`, /repo/log.hh:138-144; the field `min_post_quiescent_wake_epoch` is `postWake` below. -/
structure Info where
  first : Nat
  last : Nat
  wake : Nat
  quiescent : Bool

/-- One turn of the loop in `info`, /repo/log.cc:616-648. -/
def Info.read (x : Info) : Rec → Info
  | .epoch e => ⟨if x.first = 0 then e else x.first, e, if x.wake ≠ 0 ∧ e < x.wake then 0 else x.wake, false⟩
  | .wake => { x with wake := x.last, quiescent := false }
  | .quiesce => { x with quiescent := true }
  | _ => { x with quiescent := false }

/-- `info`, /repo/log.cc:605-657. -/
def info (rs : List Rec) : Info := rs.foldl Info.read ⟨0, 0, 0, true⟩

/-- `min_post_quiescent_wake_epoch`, /repo/log.cc:659-688. -/
def firstWake (q : Nat) : Nat → List Rec → Nat
  | _, [] => 0
  | e, r :: rs =>
    match r with
    | .epoch e' => firstWake q e' rs
    | .wake => if e ≠ 0 ∧ q ≤ e then e else firstWake q e rs
    | _ => firstWake q e rs

/-- The largest epoch seen, /repo/mtd.cc:1394-1404. -/
def maxEpoch (ckpMax : Nat) (xs : List Info) : Nat :=
  xs.foldl (fun m x => if x.last ≠ 0 ∧ (m = 0 ∨ m < x.last) then x.last else m) (if ckpMax = 0 then 0 else ckpMax + 1)

/-- The largest first epoch, /repo/mtd.cc:1406-1413. -/
def maxFirst (xs : List Info) : Nat := xs.foldl (fun m x => if x.first ≠ 0 ∧ (m = 0 ∨ m < x.first) then x.first else m) 0

/-- The largest epoch of a wake command, /repo/mtd.cc:1415-1421. -/
def maxWake (xs : List Info) : Nat := xs.foldl (fun m x => if x.wake ≠ 0 ∧ (m = 0 ∨ m < x.wake) then x.wake else m) 0

/-- The smallest last epoch of a quiescent log, /repo/mtd.cc:1423-1429. -/
def minQuiescentLast (xs : List Info) : Nat := xs.foldl (fun m x => if x.quiescent ∧ (m = 0 ∨ x.last < m) then x.last else m) 0

/-- `rec_replay_min_quiescent_last_epoch`, /repo/mtd.cc:1431-1439. -/
def missedFrom (xs : List Info) : Nat := if maxWake xs ≠ 0 ∧ minQuiescentLast xs ≤ maxWake xs then minQuiescentLast xs else 0

/-- The log's `min_post_quiescent_wake_epoch`, /repo/log.cc:850-856, 609. -/
def postWake (missed : Nat) (rs : List Rec) : Nat := if missed ≠ 0 ∧ missed ≤ (info rs).wake then firstWake missed 0 rs else 0

/-- `rec_replay_max_epoch`, /repo/mtd.cc:1442-1455. -/
def replayMax (ckpMax : Nat) (logs : List (List Rec)) : Nat :=
  let xs := logs.map info
  logs.foldl (fun m rs =>
    let x := info rs
    let m := if !x.quiescent ∧ x.last ≠ 0 ∧ x.last < m then x.last else m
    let p := postWake (missedFrom xs) rs
    if p ≠ 0 ∧ p < m then p else m) (maxEpoch ckpMax xs)

/-- The key of an update. -/
def Rec.key? : Rec → Option Bytes
  | .kv _ _ k _ => some k
  | .modify _ _ k _ => some k
  | _ => none

/-- Whether `replayandclean1` applies the record; it skips empty keys, /repo/log.cc:729-734. -/
def Rec.applied (r : Rec) : Bool := match r.key? with
  | some (_ :: _) => true
  | _ => false

/-- The epoch after a record. -/
def Rec.epochAfter (e : Nat) : Rec → Nat
  | .epoch e' => e'
  | _ => e

/-- Whether the record begins an epoch. -/
def Rec.isEpoch : Rec → Bool
  | .epoch _ => true
  | _ => false

/-- The records that `replayandclean1` applies, /repo/log.cc:701-743.  `began`: `repbegin` is set.  `none` is a
failed assertion (the one at line 727 is checked in debug builds only). -/
def replayLog (min max : Nat) : Nat → Bool → List Rec → Option (List Rec)
  | _, _, [] => some []
  | e, began, r :: rs =>
    let e := r.epochAfter e
    let began := began || (r.isEpoch && (decide (min ≠ 0 ∧ e < min) || decide (min = 0)))
    if r.isEpoch ∧ max ≤ e then if began then some [] else none
    else if e = 0 ∨ (min ≠ 0 ∧ e < min) then replayLog min max e began rs
    else if began then (replayLog min max e began rs).map fun l => if r.applied then r :: l else l
    else none

end Verif.Log
