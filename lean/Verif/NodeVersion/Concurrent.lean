import Verif.NodeVersion.Model
/-
Any number of threads using one node's lock, as an interleaving transition system.

Every read and write of the shared word is a separate step, so the plain
read-modify-write `v_ |= bit` of `mark_*` (/repo/nodeversion.hh:143-184) and the
read-then-write of `unlock()` (/repo/nodeversion.hh:129-141) can be interleaved with the
other threads; only the compare-and-swap of `lock` (/repo/nodeversion.hh:94-109) and
`try_lock` (/repo/nodeversion.hh:115-127) is atomic.  Memory is sequentially consistent.
-/
namespace Verif.NodeVersion.Concurrent

/-- Where a thread is. -/
inductive PC
  /-- outside the lock -/
  | idle
  /-- in `lock`/`try_lock`, has read `expected` and is about to try the compare-and-swap -/
  | trying (expected : Ver)
  /-- holds the lock -/
  | holding
  /-- holds the lock, has read the word and is about to write it back marked -/
  | marking (x : Ver) (m : Mark)
  /-- holds the lock, has read the word and is about to write the unlocked word -/
  | unlocking (x : Ver)

/-- The thread is between a successful lock and the unlocking write. -/
def PC.holds : PC → Prop
  | .holding | .marking _ _ | .unlocking _ => True
  | _ => False

/-- The shared word and the position of every thread (threads are numbered by `Nat`; no
bound on how many are active). -/
structure State where
  v : Ver
  pc : Nat → PC

def State.set (s : State) (t : Nat) (p : PC) : State :=
  { s with pc := fun u => if u = t then p else s.pc u }

inductive Step : State → State → Prop
  /-- read the expected value (or start from any remembered one: `lock(expected)` is called
  with an arbitrary earlier version) -/
  | begin (s : State) (t : Nat) (e : Ver) : s.pc t = .idle → Step s (s.set t (.trying e))
  /-- successful compare-and-swap -/
  | cas (s : State) (t : Nat) (e : Ver) : s.pc t = .trying e → locked e = false → s.v = e →
      Step s { s.set t .holding with v := lockWord e }
  /-- failed attempt: re-read and retry (`lock`) -/
  | retry (s : State) (t : Nat) (e : Ver) : s.pc t = .trying e → (locked e = true ∨ s.v ≠ e) →
      Step s (s.set t (.trying s.v))
  /-- failed attempt: give up (`try_lock`) -/
  | giveUp (s : State) (t : Nat) (e : Ver) : s.pc t = .trying e → (locked e = true ∨ s.v ≠ e) →
      Step s (s.set t .idle)
  /-- read half of `mark_*` -/
  | readMark (s : State) (t : Nat) (m : Mark) : s.pc t = .holding →
      Step s (s.set t (.marking s.v m))
  /-- write half of `mark_*` -/
  | writeMark (s : State) (t : Nat) (x : Ver) (m : Mark) : s.pc t = .marking x m →
      Step s { s.set t .holding with v := m.apply x }
  /-- read half of `unlock` -/
  | readUnlock (s : State) (t : Nat) : s.pc t = .holding →
      Step s (s.set t (.unlocking s.v))
  /-- write half of `unlock` -/
  | writeUnlock (s : State) (t : Nat) (x : Ver) : s.pc t = .unlocking x →
      Step s { s.set t .idle with v := unlockWord x }

/-- States reachable from a fresh, unlocked node with every thread idle. -/
inductive Reachable (isleaf : Bool) : State → Prop
  | init : Reachable isleaf { v := make isleaf, pc := fun _ => .idle }
  | step {s s'} : Reachable isleaf s → Step s s' → Reachable isleaf s'

end Verif.NodeVersion.Concurrent
