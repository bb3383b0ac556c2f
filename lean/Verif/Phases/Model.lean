/-!
# The phases of recovery

`recphase`, `waituntilphase`, `inactive` of /repo/mtd.cc:1312-1349, and who calls them:
`recover` (/repo/mtd.cc:1380-1478), `recovercheckpoint` (1330-1339) and `logreplay::replay`
(/repo/log.cc:837-867).

The phases are those of /repo/log.hh:162-163: 0 is REC_NONE, 1 is REC_CKP, 2 is REC_LOG_TS, 3 is
REC_LOG_ANALYZE_WAKE, 4 is REC_LOG_REPLAY, 5 is REC_DONE.  Threads below `nck` are checkpoint
threads, the other `nlog` are loggers.

Simplifications:
* what is done while `rec_mu` is held is one step; `pthread_cond_wait` is a step that falls asleep and
  gives up the lock, and the next step of the thread looks at the condition again;
* `recover` holds `rec_mu` except while it waits, so what it computes between two phases is part of the
  step that begins the next;
* `pthread_cond_broadcast` wakes all; a thread may also wake for no reason;
* threads are there from the beginning; one that is created later is one that has not yet made a step.
-/
namespace Verif.Phases

/-- A thread waits for a phase (and may be asleep), works in a phase, or is through. -/
inductive W where
  | wait (p : Nat) (asleep : Bool)
  | work (p : Nat)
  | through
  deriving DecidableEq

/-- The variables `rec_state` and `rec_nactive`, whether `recover` sleeps, and the threads. -/
structure S where
  phase : Nat
  nactive : Int
  mainAsleep : Bool
  w : Nat → W

/-- The first `waituntilphase`, /repo/mtd.cc:1331, /repo/log.cc:840. -/
def first (nck i : Nat) : W := .wait (if i < nck then 1 else 2) false

/-- What follows `inactive` in phase `p`: /repo/mtd.cc:1338-1339, /repo/log.cc:848-867. -/
def after (nck i p : Nat) : W :=
  if i < nck then .through else if p < 4 then .wait (p + 1) false else .through

/-- The first argument of `recphase` for each phase, /repo/mtd.cc:1383, 1387, 1440, 1475, 1478. -/
def announced (nck nlog p : Nat) : Nat := if p = 1 then nck else if p ≤ 4 then nlog else 0

/-- `pthread_cond_broadcast`. -/
def woken : W → W
  | .wait p _ => .wait p false
  | x => x

def start (nck : Nat) : S := ⟨0, 0, false, first nck⟩

def setW (s : S) (i : Nat) (x : W) : S := { s with w := fun j => if j = i then x else s.w j }

/-- The steps; the flag is `true` for waking up without a broadcast. -/
inductive Step (nck nlog : Nat) : Bool → S → S → Prop
  /-- `recphase` finds threads active, /repo/mtd.cc:1347-1348. -/
  | mainSleeps {s : S} : s.mainAsleep = false → s.nactive ≠ 0 →
      Step nck nlog false s { s with mainAsleep := true }
  /-- `recphase` returns and the next begins, /repo/mtd.cc:1344-1347. -/
  | advance {s : S} : s.mainAsleep = false → s.nactive = 0 → s.phase < 5 →
      Step nck nlog false s ⟨s.phase + 1, announced nck nlog (s.phase + 1), false, fun i => woken (s.w i)⟩
  /-- `waituntilphase` finds another phase, /repo/mtd.cc:1316-1317. -/
  | sleeps {s : S} {i p : Nat} : i < nck + nlog → s.w i = .wait p false → s.phase ≠ p →
      Step nck nlog false s (setW s i (.wait p true))
  /-- `waituntilphase` returns, /repo/mtd.cc:1316, 1318. -/
  | starts {s : S} {i p : Nat} : i < nck + nlog → s.w i = .wait p false → s.phase = p →
      Step nck nlog false s (setW s i (.work p))
  /-- `inactive`, /repo/mtd.cc:1324-1327. -/
  | finishes {s : S} {i p : Nat} : i < nck + nlog → s.w i = .work p →
      Step nck nlog false s ⟨s.phase, s.nactive - 1, false, fun j => if j = i then after nck i p else woken (s.w j)⟩
  | mainWakes {s : S} : s.mainAsleep = true → Step nck nlog true s { s with mainAsleep := false }
  | wakes {s : S} {i p : Nat} : i < nck + nlog → s.w i = .wait p true →
      Step nck nlog true s (setW s i (.wait p false))

inductive Reach (nck nlog : Nat) : S → Prop
  | start : Reach nck nlog (start nck)
  | step {b : Bool} {s t : S} : Reach nck nlog s → Step nck nlog b s t → Reach nck nlog t

end Verif.Phases
