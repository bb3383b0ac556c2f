/-!
# Reading and writing whole files

`safe_read`, `safe_write`, `checked_write` (/repo/file.hh:24-67), `read_file_contents`,
`sync_write_file_contents`, `atomic_write_file_contents` (/repo/file.cc:20-89) against a system
whose calls may take part of the data, be interrupted, or fail.

Simplifications:
* what the system does is a list of answers, one for each call of `read` or `write`; a function
  that runs out of answers has not returned (`none`);
* a file is its bytes; crashes and what is on the disk are property C27;
* memory does not run out (`reserve`, property C67);
* lengths are unbounded, so the conversion in `size_t(x) == count` is an equality of numbers;
* the errors of the calls are numbers other than 0 where a theorem says so.
-/
namespace Verif.File

abbrev Bytes := List Nat
abbrev Name := List Nat

/-- What a call of `read` or `write` may do: move so many bytes (but at least one, and no more
than asked for and, when reading, than there are), return 0, or fail with an error. -/
inductive Answer where
  | took (n : Nat)
  | zero
  | fail (e : Nat)
  deriving DecidableEq, Repr

/-- `EINTR` of Linux. -/
def EINTR : Nat := 4

/-- The part of a buffer that a call moves, if it moves some. -/
def moved (n : Nat) (bs : Bytes) : Bytes := bs.take (max n 1)

/-- The outcome of `safe_write`: the value returned, what went to the file, and `errno`. -/
structure Written where
  ret : Int
  out : Bytes
  errno : Nat
  deriving DecidableEq, Repr

/-- The loop of `safe_write`, /repo/file.hh:46-59.  `buf` is the memory from the pointer on, of
which `count - pos` bytes are to be written. -/
def writeLoop : List Answer → (buf : Bytes) → (count pos errno : Nat) → Option Written
  | as, buf, count, pos, errno =>
    if pos = count then .some ⟨pos, [], errno⟩
    else match as with
    | [] => none
    | .took n :: as =>
      let bs := moved n (buf.take (count - pos))
      (writeLoop as (buf.drop bs.length) count (pos + bs.length) errno).map
        fun w => { w with out := bs ++ w.out }
    | .zero :: _ => .some ⟨pos, [], errno⟩
    | .fail e :: as =>
      if e ≠ EINTR ∧ pos = 0 then .some ⟨-1, [], e⟩
      else if e ≠ EINTR then .some ⟨pos, [], e⟩
      else writeLoop as buf count pos e

/-- `safe_write`, /repo/file.hh:43-60. -/
def safeWrite (as : List Answer) (buf : Bytes) (count errno : Nat) : Option Written :=
  writeLoop as buf count 0 errno

/-- `checked_write`, /repo/file.hh:62-67: the program stops (`none` inside) if not everything was
written. -/
def checkedWrite (as : List Answer) (buf : Bytes) (count errno : Nat) : Option (Option Bytes) :=
  (safeWrite as buf count errno).map fun w => if w.ret = (count : Int) then .some w.out else none

/-- The outcome of `safe_read`: the value returned, the buffer, the rest of the file, `errno`. -/
structure Got where
  ret : Int
  buf : Bytes
  rest : Bytes
  errno : Nat
  deriving DecidableEq, Repr

/-- Bytes put into a buffer. -/
def put (buf : Bytes) (off : Nat) (bs : Bytes) : Bytes :=
  buf.take off ++ bs ++ buf.drop (off + bs.length)

/-- The loop of `safe_read`, /repo/file.hh:27-40.  `off` is where the pointer is in the buffer.
At the end of the file every call that does not fail returns 0. -/
def readLoop : List Answer → (buf : Bytes) → (off count pos : Nat) → (file : Bytes) → (errno : Nat) → Option Got
  | as, buf, off, count, pos, file, errno =>
    if pos = count then .some ⟨pos, buf, file, errno⟩
    else match as with
    | [] => none
    | .took n :: as =>
      let bs := moved n (file.take (count - pos))
      if bs = [] then .some ⟨pos, buf, file, errno⟩
      else readLoop as (put buf off bs) (off + bs.length) count (pos + bs.length) (file.drop bs.length) errno
    | .zero :: _ => .some ⟨pos, buf, file, errno⟩
    | .fail e :: as =>
      if e ≠ EINTR ∧ pos = 0 then .some ⟨-1, buf, file, e⟩
      else if e ≠ EINTR then .some ⟨pos, buf, file, e⟩
      else readLoop as buf off count pos file e

/-- `safe_read`, /repo/file.hh:24-41. -/
def safeRead (as : List Answer) (buf : Bytes) (count : Nat) (file : Bytes) (errno : Nat) : Option Got :=
  readLoop as buf 0 count 0 file errno

/-- `read_file_contents(fd)`, /repo/file.cc:20-40: the string and `errno`. -/
def readContents : List Answer → (sa : Bytes) → (file : Bytes) → Option (Bytes × Nat)
  | [], _, _ => none
  | .took n :: as, sa, file =>
    let bs := moved n (file.take 4096)
    if bs = [] then .some (sa, 0) else readContents as (sa ++ bs) (file.drop bs.length)
  | .zero :: _, sa, _ => .some (sa, 0)
  | .fail e :: as, sa, file => if e ≠ EINTR then .some ([], e) else readContents as sa file

/-- The files by name. -/
abbrev Files := Name → Option Bytes

/-- How the calls end: `open`, `fsync`, `close`, `rename` with an error, or `none` for success;
the calls of `write` with their answers. -/
structure Sys where
  opened : Option Nat := none
  writes : List Answer := []
  fsync : Option Nat := none
  closed : Option Nat := none
  rename : Option Nat := none

/-- A file gets contents. -/
def Files.set (fs : Files) (f : Name) (c : Option Bytes) : Files := fun g => if g = f then c else fs g

/-- The outcome of a function on files: value returned, `errno`, the files, how many descriptors
were opened and closed, and whether the data was synced. -/
structure Outcome where
  ret : Int
  errno : Nat
  files : Files
  opens : Nat := 0
  closes : Nat := 0
  synced : Bool := false

/-- `read_file_contents(filename)`, /repo/file.cc:42-56: the text, `errno`, and how many
descriptors were opened and closed.  A file that is not there cannot be opened (`ENOENT`, 2). -/
def readFile (sys : Sys) (as : List Answer) (fs : Files) (f : Name) :
    Option (Bytes × Nat × Nat × Nat) :=
  match sys.opened with
  | .some e => .some ([], e, 0, 0)
  | none =>
    match fs f with
    | none => .some ([], 2, 0, 0)
    | .some c =>
      match readContents as [] c with
      | none => none
      | .some (text, errno) =>
        if text = [] ∧ errno ≠ 0 then .some (text, errno, 1, 1)
        else .some (text, sys.closed.getD errno, 1, 1)

/-- `sync_write_file_contents`, /repo/file.cc:58-78. -/
def syncWrite (sys : Sys) (fs : Files) (f : Name) (contents : Bytes) (errno : Nat) : Option Outcome :=
  match sys.opened with
  | .some e => .some { ret := -1, errno := e, files := fs }
  | none =>
    match safeWrite sys.writes contents contents.length errno with
    | none => none
    | .some w =>
      let fs1 := fs.set f (.some w.out)
      if w.ret ≠ (contents.length : Int) then
        .some { ret := -1, errno := w.errno, files := fs1, opens := 1, closes := 1 }
      else
        match sys.fsync with
        | .some e => .some { ret := -1, errno := e, files := fs1, opens := 1, closes := 1 }
        | none =>
          match sys.closed with
          | .some e => .some { ret := -1, errno := e, files := fs1, opens := 1, closes := 1, synced := true }
          | none => .some { ret := 0, errno := w.errno, files := fs1, opens := 1, closes := 1, synced := true }

/-- ".tmp" -/
def tmpName (f : Name) : Name := f ++ [46, 116, 109, 112]

/-- `atomic_write_file_contents`, /repo/file.cc:80-89. -/
def atomicWrite (sys : Sys) (fs : Files) (f : Name) (contents : Bytes) (errno : Nat) : Option Outcome :=
  match syncWrite sys fs (tmpName f) contents errno with
  | none => none
  | .some o =>
    if o.ret ≠ 0 then .some { o with ret := -1 }
    else match sys.rename with
      | .some e => .some { o with ret := -1, errno := e }
      | none => .some { o with ret := 0, files := (o.files.set f (o.files (tmpName f))).set (tmpName f) none }

end Verif.File
