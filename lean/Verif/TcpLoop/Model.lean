/-!
# The loop of a thread that serves TCP connections

`tcpfds` in both versions, /repo/mtd.cc:1009-1047 (epoll) and 1049-1093 (select), and the loop of
`tcp_threadfunc`, /repo/mtd.cc:1111-1178.

Pointers are numbers: 0 is the null pointer, 1 is the mark of the pipe (/repo/mtd.cc:1020, 1061).

Simplifications:
* what `receive` and `onego` compute is left out (it is in `Server`): a request ends with bytes left in
  the buffer, with none left, or with the connection closed;
* `wait` returns with at least one event and reports a descriptor at most once; that epoll reports at
  most 100 is left out, so there are more behaviours here than in the code;
* `read` of the pipe yields 1 to 100 whole pointers;
* file descriptors opened by other threads are left out: the operating system never gives a new
  connection a descriptor that this thread has open.
-/
namespace Verif.TcpLoop

/-- `no`: not possible in this state; `stop`: a failed `always_assert`; `ub`: access outside a vector
or to a deleted connection. -/
inductive Out (α : Type) where
  | ok (a : α)
  | no
  | stop
  | ub
  deriving DecidableEq

def Out.bind {α β : Type} : Out α → (α → Out β) → Out β
  | .ok a, f => f a
  | .no, _ => .no
  | .stop, _ => .stop
  | .ub, _ => .ub

def upd {α : Type} (f : Nat → α) (i : Nat) (x : α) : Nat → α := fun j => if j = i then x else f j

/-! ## The version with select -/

/-- `nfds_`, `rfds_`, `conns_`, /repo/mtd.cc:1050-1052. -/
structure Sel where
  nfds : Nat
  rfds : Nat → Bool
  conns : List Nat

/-- `FD_SETSIZE`. -/
def setsize : Nat := 1024

/-- `std::vector::resize` with 0 for new elements. -/
def resize (l : List Nat) (n : Nat) : List Nat := l.take n ++ List.replicate (n - l.length) 0

/-- `conns_[fd] = c`. -/
def put (s : Sel) (fd c : Nat) : Out Sel :=
  if fd < s.conns.length then .ok { s with conns := s.conns.set fd c } else .ub

/-- The constructor, /repo/mtd.cc:1055-1062. -/
def Sel.init (pipefd : Nat) : Out Sel :=
  if pipefd < setsize then
    put ⟨pipefd + 1, upd (fun _ => false) pipefd true, resize [] (pipefd + 1)⟩ pipefd 1
  else .stop

/-- `add`, /repo/mtd.cc:1075-1083. -/
def Sel.add (s : Sel) (fd c : Nat) : Out Sel :=
  if fd < setsize then
    if s.nfds ≤ fd then put ⟨fd + 1, upd s.rfds fd true, resize s.conns (fd + 1)⟩ fd c
    else put ⟨s.nfds, upd s.rfds fd true, s.conns⟩ fd c
  else .stop

/-- The loop of `remove`, /repo/mtd.cc:1089-1090. -/
def shrink (r : Nat → Bool) : Nat → Nat
  | 0 => 0
  | n + 1 => if r n then n + 1 else shrink r n

/-- `remove`, /repo/mtd.cc:1085-1092. -/
def Sel.remove (s : Sel) (fd : Nat) : Out Sel :=
  if fd < setsize then
    if fd + 1 = s.nfds then .ok ⟨shrink (upd s.rfds fd false) s.nfds, upd s.rfds fd false, s.conns⟩
    else .ok ⟨s.nfds, upd s.rfds fd false, s.conns⟩
  else .stop

/-- The loop over the events, /repo/mtd.cc:1124-1126 with `event_conn`, 1071-1073. -/
def collect (s : Sel) (es : Nat → Bool) : List Nat → Out (List Nat)
  | [] => .ok []
  | i :: is =>
    if es i then
      match s.conns[i]? with
      | none => .ub
      | some c => (collect s es is).bind fun l => .ok (if c = 0 then l else c :: l)
    else collect s es is

/-- What is put on the queue after `wait`, /repo/mtd.cc:1065-1069, 1123-1126. -/
def Sel.events (s : Sel) (es : Nat → Bool) : Out (List Nat) := collect s es (List.range s.nfds)

/-- A call of `add` or `remove`. -/
inductive Op where
  | add (fd c : Nat)
  | remove (fd : Nat)

def Sel.run (s : Sel) : List Op → Out Sel
  | [] => .ok s
  | .add fd c :: l => (s.add fd c).bind fun s' => s'.run l
  | .remove fd :: l => (s.remove fd).bind fun s' => s'.run l

/-! ## The loop -/

/-- What the operating system knows of the epoll descriptor, the connections that are allocated with
their descriptors, the descriptors that are open, and the queue `ready`. -/
structure L where
  reg : Nat → Option Nat
  heap : Nat → Option Nat
  opened : Nat → Bool
  ready : List Nat

/-- /repo/mtd.cc:1012-1023, 1117-1119. -/
def L.init (pipefd : Nat) : L :=
  ⟨upd (fun _ => none) pipefd (some 1), fun _ => none, upd (fun _ => false) pipefd true, []⟩

/-- `add` with epoll, /repo/mtd.cc:1035-1041: fails if the descriptor is there already. -/
def L.add (s : L) (fd c : Nat) : Out L :=
  match s.reg fd with
  | none => .ok { s with reg := upd s.reg fd (some c) }
  | some _ => .stop

/-- `remove` with epoll, /repo/mtd.cc:1043-1046: fails if the descriptor is not there. -/
def L.remove (s : L) (fd : Nat) : Out L :=
  match s.reg fd with
  | none => .stop
  | some _ => .ok { s with reg := upd s.reg fd none }

/-- `sloop.remove(c->fd); delete c`, /repo/mtd.cc:1145-1146, 1172-1173, with `~conn`, 474-480. -/
def L.drop (s : L) (c : Nat) : Out L :=
  match s.heap c with
  | none => .ub
  | some fd => (s.remove fd).bind fun s' =>
      .ok { s' with heap := upd s'.heap c none, opened := upd s'.opened fd false }

/-- A new connection: its address, its descriptor, whether the handshake is good. -/
structure New where
  ptr : Nat
  fd : Nat
  good : Bool

/-- One connection from the pipe, /repo/mtd.cc:1139-1147.  `new` returns an address not in use. -/
def L.accept (s : L) (n : New) : Out L :=
  if 2 ≤ n.ptr ∧ s.heap n.ptr = none ∧ s.opened n.fd = false then
    (L.add { s with heap := upd s.heap n.ptr (some n.fd), opened := upd s.opened n.fd true } n.fd n.ptr).bind
      fun s' => if n.good then .ok s' else s'.drop n.ptr
  else .no

def L.acceptAll (s : L) : List New → Out L
  | [] => .ok s
  | n :: l => (s.accept n).bind fun s' => s'.acceptAll l

/-- How the service of a connection ends, /repo/mtd.cc:1155-1173. -/
inductive End where
  | more
  | idle
  | closed

inductive Act where
  | wait (fds : List Nat)
  | pipe (l : List New)
  | serve (e : End)

/-- /repo/mtd.cc:1122-1175; the second component is the connection that was served. -/
def L.step (s : L) : Act → Out (L × List Nat)
  | .wait fds =>
    if s.ready = [] ∧ fds ≠ [] ∧ fds.Nodup ∧ ∀ fd ∈ fds, (s.reg fd).isSome then
      .ok ({ s with ready := (fds.filterMap s.reg).filter (· ≠ 0) }, [])
    else .no
  | .pipe l =>
    match s.ready with
    | [] => .no
    | c :: r =>
      if c = 1 then (L.acceptAll { s with ready := r } l).bind fun s' => .ok (s', [c]) else .no
  | .serve e =>
    match s.ready with
    | [] => .no
    | c :: r =>
      if c = 1 then .no
      else match s.heap c with
        | none => .ub
        | some _ => match e with
          | .more => .ok ({ s with ready := r ++ [c] }, [c])
          | .idle => .ok ({ s with ready := r }, [c])
          | .closed => (L.drop { s with ready := r } c).bind fun s' => .ok (s', [c])

def L.run (s : L) : List Act → Out (L × List Nat)
  | [] => .ok (s, [])
  | a :: l => (s.step a).bind fun x => (x.1.run l).bind fun y => .ok (y.1, x.2 ++ y.2)

end Verif.TcpLoop
