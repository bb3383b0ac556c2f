import Mathlib.Logic.Function.Basic

/-!
# Strings that share memory

`String` (/repo/string.hh, /repo/string.cc) keeps its characters in a memo, a block with a reference count that several strings
share, or refers to constant data.  Strings are appended to in place where possible.

Strings are named by numbers.  An operation that would touch freed memory, bytes beyond a memo, or an absent string has no
result (`none`).  Not modelled: failing allocation (out-of-memory strings), lengths of 2^31 and more, reference counts of 2^32
and more, threads (reference counts are changed without atomic operations), profiling.  Memos are never reused: a new memo has a
number that none had before.
-/
namespace Verif.Strings

/-- `memo_type`, /repo/string.hh:235-265.  `bytes` is `real_data`. -/
structure Memo where
  refcount : Nat
  capacity : Nat
  dirty : Nat
  bytes : Nat → UInt8

/-- Where characters are: in constant data or in a memo. -/
inductive Ptr where
  | const (region off : Nat)
  | memo (m off : Nat)
deriving DecidableEq

/-- Pointer addition. -/
def Ptr.add : Ptr → Nat → Ptr
  | .const r o, n => .const r (o + n)
  | .memo m o, n => .memo m (o + n)

/-- `rep_type`, /repo/string.hh:177-221.  `memo` is `memo()`: none if `memo_offset` is 0. -/
structure Rep where
  data : Ptr
  length : Nat
  memo : Option Nat

/-- All strings and memos. -/
structure State where
  /-- Constant data; region 0 is `String_generic::empty_data`. -/
  const : Nat → Nat → UInt8
  heap : Nat → Option Memo
  /-- The number of the next memo. -/
  next : Nat
  strs : List (Option Rep)

/-- `MEMO_SPACE` without profiling, /repo/string.hh:267-269. -/
def memoSpace : Nat := 12

/-- The representation of a string. -/
def State.rep (s : State) (i : Nat) : Option Rep := (s.strs[i]?).join

def State.setRep (s : State) (i : Nat) (r : Option Rep) : State := { s with strs := s.strs.set i r }

/-- A new string. -/
def State.addRep (s : State) (r : Rep) : State := { s with strs := s.strs ++ [some r] }

def State.setMemo (s : State) (m : Nat) (M : Option Memo) : State := { s with heap := Function.update s.heap m M }

/-- `n` characters from `p` on.  No result if they are not within a memo that exists. -/
def State.read (s : State) (p : Ptr) (n : Nat) : Option (List UInt8) :=
  match p with
  | .const r o => some ((List.range n).map fun k => s.const r (o + k))
  | .memo m o =>
    match s.heap m with
    | none => none
    | some M => if o + n ≤ M.capacity then some ((List.range n).map fun k => M.bytes (o + k)) else none

/-- Bytes with `l` from `o` on. -/
def poke (b : Nat → UInt8) (o : Nat) (l : List UInt8) : Nat → UInt8 := fun x => if o ≤ x then (l[x - o]?).getD (b x) else b x

/-- `memcpy` into a memo. -/
def State.write (s : State) (p : Ptr) (l : List UInt8) : Option State :=
  match p with
  | .const _ _ => none
  | .memo m o =>
    match s.heap m with
    | none => none
    | some M => if o + l.length ≤ M.capacity then some (s.setMemo m (some { M with bytes := poke M.bytes o l })) else none

/-- `incref` of a memo, /repo/string.hh:253-256. -/
def State.incref (s : State) (m : Nat) : Option State :=
  match s.heap m with
  | none => none
  | some M => some (s.setMemo m (some { M with refcount := M.refcount + 1 }))

/-- `decref` of a memo and `delete_memo` if that gives 0, /repo/string.hh:186-189, 257-261; /repo/string.cc:520-527. -/
def State.decref (s : State) (m : Nat) : Option State :=
  match s.heap m with
  | none => none
  | some M =>
    if M.refcount = 0 then none
    else if M.refcount = 1 then some (s.setMemo m none)
    else some (s.setMemo m (some { M with refcount := M.refcount - 1 }))

/-- `rep_type::ref`, /repo/string.hh:182-185. -/
def State.ref (s : State) (r : Rep) : Option State :=
  match r.memo with
  | none => some s
  | some m => s.incref m

/-- `rep_type::deref`, /repo/string.hh:186-189. -/
def State.deref (s : State) (r : Rep) : Option State :=
  match r.memo with
  | none => some s
  | some m => s.decref m

/-- `create_memo` with `memcpy` of `l` to its beginning: /repo/string.cc:511-518.  The other bytes are unknown (here 0). -/
def State.create (s : State) (capacity dirty : Nat) (l : List UInt8) : State :=
  { s.setMemo s.next (some ⟨1, capacity, dirty, poke (fun _ => 0) 0 l⟩) with next := s.next + 1 }

/-- `String()`, /repo/string.hh:368-370. -/
def emptyRep : Rep := ⟨.const 0 0, 0, none⟩

/-- Where the characters of an argument `const char* s, int len` are: in a buffer of the caller, or in data of strings. -/
inductive Src where
  | ext (l : List UInt8)
  | data (p : Ptr) (len : Nat)

def Src.len : Src → Nat
  | .ext l => l.length
  | .data _ n => n

/-- The characters of an argument. -/
def Src.get (s : State) : Src → Option (List UInt8)
  | .ext l => some l
  | .data p n => s.read p n

/-- `s >= m->real_data && s + len <= m->real_data + m->capacity`, /repo/string.cc:695-696, 802-803. -/
def Src.within (src : Src) (m : Nat) (M : Memo) : Bool :=
  match src with
  | .data (.memo m' o) n => m' == m && decide (o + n ≤ M.capacity)
  | _ => false

/-- `create_memo` and copy at the end of `assign`, /repo/string.cc:704-721. -/
def State.fill (s : State) (src : Src) : Option (State × Rep) :=
  if src.len = 0 then some (s, emptyRep)
  else
    match src.get s with
    | none => none
    | some l =>
      some (s.create ((src.len + 15 + memoSpace) / 16 * 16 - memoSpace) src.len l, ⟨.memo s.next 0, src.len, some s.next⟩)

/-- `assign(s, len, true)`, /repo/string.cc:682-722. -/
def State.assignSrc (s : State) (i : Nat) (src : Src) : Option State :=
  match s.rep i with
  | none => none
  | some r =>
    let fresh := match s.deref r with
      | none => none
      | some s1 =>
        match s1.fill src with
        | none => none
        | some (s2, r2) => some (s2.setRep i (some r2))
    match r.memo with
    | none => fresh
    | some m =>
      match s.heap m with
      | none => none
      | some M =>
        match src with
        | .data p n => if src.within m M then some (s.setRep i (some ⟨p, n, some m⟩)) else fresh
        | .ext _ => fresh

/-- The least of `c`, `2 c`, `4 c`, … not below `want`: /repo/string.cc:765-766. -/
def doubled (c want : Nat) : Nat := if h : 0 < c ∧ c < want then doubled (c * 2) want else c
termination_by want - c
decreasing_by omega

/-- The capacity of the memo with space, when a string is appended to: /repo/string.cc:760-766. -/
def appendCapacity (want : Nat) : Nat := if want ≤ 1024 then (want + 15) / 16 * 16 else doubled 2048 want

/-- `append_uninitialized` for `len > 0`, /repo/string.cc:729-780, with the place of the new characters. -/
def State.extend (s : State) (i len : Nat) : Option (State × Ptr) :=
  match s.rep i with
  | none => none
  | some r =>
    let fresh := match s.read r.data r.length with
      | none => none
      | some l =>
        let s1 := s.create (appendCapacity (r.length + len + memoSpace) - memoSpace) (r.length + len) l
        match s1.deref r with
        | none => none
        | some s2 => some (s2.setRep i (some ⟨.memo s.next 0, r.length + len, some s.next⟩), .memo s.next r.length)
    match r.memo with
    | none => fresh
    | some m =>
      match s.heap m with
      | none => none
      | some M =>
        if M.capacity > M.dirty + len ∧ r.data.add r.length = .memo m M.dirty then
          some ((s.setMemo m (some { M with dirty := M.dirty + len })).setRep i (some { r with length := r.length + len }),
            .memo m M.dirty)
        else fresh

/-- `append_uninitialized(len)` and `memcpy` of the argument, /repo/string.cc:804-805. -/
def State.extendCopy (s : State) (i : Nat) (src : Src) : Option State :=
  match s.extend i src.len with
  | none => none
  | some (s1, p) =>
    match src.get s1 with
    | none => none
    | some l => s1.write p l

/-- `append(s, len, memo)`, /repo/string.cc:782-811.  The memo is given when the argument is a string. -/
def State.append (s : State) (i : Nat) (src : Src) (memo : Option Nat) : Option State :=
  match s.rep i with
  | none => none
  | some r =>
    if src.len = 0 then some s
    else
      let general := match r.memo with
        | none => s.extendCopy i src
        | some mm =>
          match s.heap mm with
          | none => none
          | some M =>
            if src.within mm M then
              match s.incref mm with
              | none => none
              | some s1 =>
                match s1.extendCopy i src with
                | none => none
                | some s2 => s2.decref mm
            else s.extendCopy i src
      match memo, src with
      | some m, .data p n =>
        if r.length = 0 then
          match s.deref r with
          | none => none
          | some s1 =>
            match s1.incref m with
            | none => none
            | some s2 => some (s2.setRep i (some ⟨p, n, some m⟩))
        else general
      | _, _ => general

/-- `c_str`, /repo/string.hh:560-580. -/
def State.cstr (s : State) (i : Nat) : Option State :=
  match s.rep i with
  | none => none
  | some r =>
    let add := match s.extend i 1 with
      | none => none
      | some (s1, p) =>
        match s1.write p [0] with
        | none => none
        | some s2 =>
          match s2.rep i with
          | none => none
          | some r2 => some (s2.setRep i (some { r2 with length := r2.length - 1 }))
    let look := match s.read (r.data.add r.length) 1 with
      | none => none
      | some l => if l = [0] then some s else add
    match r.memo with
    | none => look
    | some m =>
      match s.heap m, r.data.add r.length with
      | some M, .memo _ o => if o ≥ M.dirty then add else look
      | _, _ => none

/-- The bounds of `substr`, /repo/string.cc:889-903; no result if the sum at line 898 exceeds an `int`. -/
def substrBounds (pos len n : Int) : Option (Int × Int) :=
  let pos := if pos < 0 then pos + n else pos
  let pos2 := if len < 0 then some (n + len) else if pos ≥ 0 ∧ len ≥ n then some n
    else if pos + len < 2 ^ 31 then some (pos + len) else none
  match pos2 with
  | none => none
  | some pos2 => some (if pos < 0 then 0 else pos, if pos2 > n then n else pos2)

/-- `substr` as a new string, /repo/string.cc:886-911. -/
def State.substr (s : State) (i : Nat) (pos len : Int) : Option State :=
  match s.rep i with
  | none => none
  | some r =>
    match substrBounds pos len r.length with
    | none => none
    | some (a, b) =>
      if a ≥ b then some (s.addRep emptyRep)
      else
        match s.ref r with
        | none => none
        | some s1 => some (s1.addRep ⟨r.data.add a.toNat, (b - a).toNat, r.memo⟩)

/-- `is_shared`, /repo/string.hh:783-786. -/
def State.isShared (s : State) (r : Rep) : Option Bool :=
  match r.memo with
  | none => some true
  | some m =>
    match s.heap m with
    | none => none
    | some M => some (M.refcount == 1)

/-- `mutable_data`, /repo/string.cc:824-839. -/
def State.mutableData (s : State) (i : Nat) : Option State :=
  match s.rep i with
  | none => none
  | some r =>
    match s.isShared r with
    | none => none
    | some false => some s
    | some true =>
      match s.ref r with
      | none => none
      | some s1 =>
        match s1.deref r with
        | none => none
        | some s2 =>
          match s2.fill (.data r.data r.length) with
          | none => none
          | some (s3, r3) => (s3.setRep i (some r3)).deref r

/-- What a program may do with strings. -/
inductive Op where
  /-- `String()` -/
  | empty
  /-- `make_stable`, /repo/string.hh:498-539 -/
  | stable (region off len : Nat)
  /-- `String(s, len)` from a buffer, /repo/string.hh:408-413 -/
  | bytes (l : List UInt8)
  /-- copy construction, /repo/string.hh:373-376 -/
  | copy (j : Nat)
  /-- move construction, /repo/string.hh:379-382 -/
  | moveNew (j : Nat)
  /-- `substr`, /repo/string.cc:886-911 -/
  | substr (j : Nat) (pos len : Int)
  /-- `unique`, /repo/string.hh:796-802 -/
  | unique (j : Nat)
  /-- the destructor, /repo/string.hh:468-470 -/
  | destroy (i : Nat)
  /-- `operator=(const String&)`, /repo/string.hh:636-651 -/
  | assign (i j : Nat)
  /-- `operator=(String&&)`, /repo/string.hh:654-664 -/
  | moveAssign (i j : Nat)
  /-- `swap`, /repo/string.hh:711-714 -/
  | swap (i j : Nat)
  /-- `assign` from a buffer, /repo/string.hh:667-708 -/
  | assignBytes (i : Nat) (l : List UInt8)
  /-- `assign(s, len)` with `s` within a string, which may be the same: /repo/string.cc:694-699 -/
  | assignPart (i j off len : Nat)
  /-- `append(const String&)`, /repo/string.hh:717-719 -/
  | append (i j : Nat)
  /-- `append` from a buffer, /repo/string.hh:723-751 -/
  | appendBytes (i : Nat) (l : List UInt8)
  /-- `append(s, len)` with `s` within a string, which may be the same -/
  | appendPart (i j off len : Nat)
  /-- `append_fill`, /repo/string.cc:814-820 -/
  | appendFill (i : Nat) (c : UInt8) (len : Nat)
  /-- `c_str` -/
  | cstr (i : Nat)
  /-- `shrink_to_fit`, /repo/string.hh:808-812 -/
  | shrink (i : Nat)

def State.step (s : State) : Op → Option State
  | .empty => some (s.addRep emptyRep)
  | .stable region off len => some (s.addRep ⟨.const region off, len, none⟩)
  | .bytes l => (s.fill (.ext l)).map fun x => x.1.addRep x.2
  | .copy j => (s.rep j).bind fun r => (s.ref r).map fun s1 => s1.addRep r
  | .moveNew j => (s.rep j).map fun r => (s.setRep j (some { r with memo := none })).addRep r
  | .substr j pos len => s.substr j pos len
  | .unique j => (s.rep j).bind fun r =>
      match r.memo with
      | none => some (s.addRep r)
      | some m => (s.heap m).bind fun M =>
          if M.refcount = 1 then (s.incref m).map fun s1 => s1.addRep r
          else (s.fill (.data r.data r.length)).map fun x => x.1.addRep x.2
  | .destroy i => (s.rep i).bind fun r => (s.deref r).map fun s1 => s1.setRep i none
  | .assign i j => (s.rep i).bind fun r => (s.rep j).bind fun r' =>
      (s.ref r').bind fun s1 => (s1.deref r).map fun s2 => s2.setRep i (some r')
  | .moveAssign i j => (s.rep i).bind fun r => (s.deref r).bind fun s1 => (s1.rep j).map fun r' =>
      let s2 := s1.setRep i (some r')
      s2.setRep j (some { r' with memo := none })
  | .swap i j => (s.rep i).bind fun r => (s.rep j).map fun r' => (s.setRep i (some r')).setRep j (some r)
  | .assignBytes i l => s.assignSrc i (.ext l)
  | .assignPart i j off len => (s.rep j).bind fun r => s.assignSrc i (.data (r.data.add off) len)
  | .append i j => (s.rep j).bind fun r => s.append i (.data r.data r.length) r.memo
  | .appendBytes i l => s.append i (.ext l) none
  | .appendPart i j off len => (s.rep j).bind fun r => s.append i (.data (r.data.add off) len) none
  | .appendFill i c len =>
      if len = 0 then (s.rep i).map fun _ => s
      else (s.extend i len).bind fun x => x.1.write x.2 (List.replicate len c)
  | .cstr i => s.cstr i
  | .shrink i => (s.rep i).bind fun r =>
      match r.memo with
      | none => some s
      | some m => (s.heap m).bind fun M =>
          if M.refcount ≠ 1 ∧ r.length + 256 < M.capacity then
            (s.fill (.data r.data r.length)).bind fun x => (x.1.deref r).map fun s1 => s1.setRep i (some x.2)
          else some s

/-- The operations of a program, in order. -/
def State.run (s : State) : List Op → Option State
  | [] => some s
  | o :: l => (s.step o).bind fun s1 => s1.run l

end Verif.Strings
