/-!
# The window of requests of a client

`struct async`, `struct child`, `check_flush` (/repo/mtclient.cc:56-94), `checkasync` (883-934), the functions
that send (`aget`, `aget_col`, `aput`, `aput_col`, `aremove`, 939-1111) and those that send and wait (`get`, `put`, `remove`,
791-811, 996-1011, 1074-1089).

Sequence numbers are 32-bit; a number below 2^32 stands for one.  `T` is what a request leaves in its slot for the reply:
command, callback and what is wanted.

Simplifications: what is sent, received and done by a callback is left out; a callback that sends or checks does so
after the step it is called from (`tmpa` is a copy, /repo/mtclient.cc:905-907); a request is sent once the loop of `check_flush`
has ended, the replies it waits for are steps before.
-/
namespace Verif.Window

/-- `no`: the loop of `check_flush` does not end without a reply; `stop`: a failed assertion. -/
inductive Out (α : Type) where
  | ok (a : α)
  | no
  | stop

/-- `struct async`. -/
structure Slot (T : Type) where
  seq : Nat
  acked : Bool
  tag : Option T
  deriving DecidableEq

/-- `seq0_`, `seq1_` and `a` of `struct child`. -/
structure C (T : Type) where
  seq0 : Nat
  seq1 : Nat
  slots : Nat → Slot T

/-- 32-bit addition of 1 and subtraction. -/
def succ32 (a : Nat) : Nat := (a + 1) % 2 ^ 32
def sub32 (a b : Nat) : Nat := (a + 2 ^ 32 - b) % 2 ^ 32

/-- `seq & (window - 1)`; `window - 1` is 2^32 - 1 if the window is 0. -/
def idx (w seq : Nat) : Nat := seq &&& sub32 w 1

/-- The check of the option, /repo/mtclient.cc:520-522. -/
def accepts (w : Nat) : Bool := w ≤ 512 && (w &&& sub32 w 1) == 0

variable {T : Type}

def C.put (c : C T) (i : Nat) (a : Slot T) : C T := { c with slots := fun j => if j = i then a else c.slots j }

/-- /repo/mtclient.cc:714-716. -/
def C.init : C T := ⟨0, 0, fun _ => ⟨0, false, none⟩⟩

/-- A request that is not waited for: `check_flush`, /repo/mtclient.cc:92-93, and for example 947-959. -/
def C.send (w : Nat) (c : C T) (t : T) : Out (C T) :=
  if sub32 c.seq1 c.seq0 ≥ w then .no
  else .ok { c.put (idx w c.seq1) ⟨c.seq1, false, some t⟩ with seq1 := succ32 c.seq1 }

/-- A request that is waited for, for example /repo/mtclient.cc:998-1008. -/
def C.sync (c : C T) : Out (C T) :=
  if c.seq0 = c.seq1 then .ok { c with seq0 := succ32 c.seq0, seq1 := succ32 c.seq1 } else .stop

/-- The loop that advances the window, /repo/mtclient.cc:902-903; the number is how far `seq0_` is from `seq1_`. -/
def C.advance (w : Nat) (c : C T) : Nat → C T
  | 0 => c
  | k + 1 => if (c.slots (idx w c.seq0)).acked then C.advance w { c with seq0 := succ32 c.seq0 } k else c

/-- A reply, /repo/mtclient.cc:889-907; also gives the slot that the callback gets. -/
def C.reply (w : Nat) (c : C T) (rseq : Nat) : Out (C T × Option T) :=
  if c.seq0 = c.seq1 then .no
  else if ¬ sub32 rseq c.seq0 < sub32 c.seq1 c.seq0 then .stop
  else
    let a := c.slots (idx w rseq)
    if a.seq ≠ rseq then .stop
    else if a.acked then .stop
    else
      let c' := c.put (idx w rseq) { a with acked := true }
      .ok (c'.advance w (sub32 c'.seq1 c'.seq0), a.tag)

end Verif.Window
