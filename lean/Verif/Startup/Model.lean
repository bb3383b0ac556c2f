import Verif.Json.Model

/-!
# Settings of the server and the files they lead to

The part of `main` of /repo/mtd.cc that makes directories and cores of options (619-630, 695-702),
the names of log and checkpoint files (1236-1257, 1330-1338, 1364, 1541-1545, 1574, 1582-1588), the
choice of a logger and a thread (1108, 852-859).

Simplifications:
* texts are bytes without the null byte at the end;
* the number of threads is not negative, and the settings do not change while the server runs;
* a checkpoint file is its generation and what is in it (property C26 is about the rest).
-/
namespace Verif.Startup
open Verif.Json (Bytes digits)

/-- `strtok(s, ",")` and then `strtok(NULL, ",")` until it is null, /repo/mtd.cc:620-622: fields
between commas that are not empty.  `cur` is the field being read. -/
def tokensFrom (cur : Bytes) : Bytes → List Bytes
  | [] => if cur = [] then [] else [cur]
  | b :: s =>
    if b = 44 then (if cur = [] then tokensFrom [] s else cur :: tokensFrom [] s)
    else tokensFrom (cur ++ [b]) s

def tokens (s : Bytes) : List Bytes := tokensFrom [] s

/-- The directories after all options for them were read, /repo/mtd.cc:619-630, 695-698. -/
def directories (options : List Bytes) : List Bytes :=
  let ds := options.flatMap tokens
  if ds = [] then [[46]] else ds

/-- What matters here of the settings: the number of threads (`nlogger`, `tcpthreads`, `udpthreads`
and `nckthreads` are the same, /repo/mtd.cc:603, 617), and the directories. -/
structure Settings where
  threads : Nat
  logdirs : List Bytes
  ckpdirs : List Bytes
  deriving DecidableEq

/-- `dirs[i % dirs.size()]`. -/
def dirAt (dirs : List Bytes) (i : Nat) : Bytes := dirs.getD (i % dirs.length) []

/-- `log_filename`, /repo/mtd.cc:1236-1250. -/
def logName (dir : Bytes) (i : Nat) : Bytes := dir ++ [47, 107, 118, 100, 45, 108, 111, 103, 45] ++ digits i

/-- The name of a part of a checkpoint, /repo/mtd.cc:1333-1335, 1542-1544, 1584-1586. -/
def ckpName (dir : Bytes) (gen i : Nat) : Bytes :=
  dir ++ [47, 107, 118, 100, 45, 99, 107, 112, 45] ++ digits gen ++ [45] ++ digits i

/-- The name of the file that names the checkpoint, /repo/mtd.cc:1364, 1574. -/
def genName (dir : Bytes) : Bytes := dir ++ [47, 107, 118, 100, 45, 99, 107, 112, 45, 103, 101, 110]

/-- The logs of a server, which it reads when it starts and writes then, /repo/mtd.cc:1255-1257. -/
def logFiles (s : Settings) : List Bytes := (List.range s.threads).map fun i => logName (dirAt s.logdirs i) i

/-- The parts of a checkpoint, /repo/mtd.cc:1541-1545, 1333-1335. -/
def ckpFile (s : Settings) (gen i : Nat) : Bytes := ckpName (dirAt s.ckpdirs i) gen i

/-- A file system: the checkpoint files with generation and contents. -/
abbrev Disk (α : Type) := Bytes → Option (Nat × List α)

/-- All checkpoint threads have written their parts, /repo/mtd.cc:1535-1548. -/
def writeParts (s : Settings) (gen : Nat) (parts : Nat → List α) (d : Disk α) : Disk α :=
  (List.range s.threads).foldl
    (fun d i => fun f => if f = ckpFile s gen i then some (gen, parts i) else d f) d

/-- `recovercheckpoint` of one thread, /repo/mtd.cc:1330-1339 (and 1275-1282 for a file that is not
there): `none` if the program stops. -/
def readPart (s : Settings) (gen : Nat) (d : Disk α) (i : Nat) : Option (List α) :=
  match d (ckpFile s gen i) with
  | none => if gen = 0 then some [] else none
  | some (g, c) => if g = gen then some c else none

/-- All threads, /repo/mtd.cc:1383. -/
def readParts (s : Settings) (gen : Nat) (d : Disk α) : Option (List (List α)) :=
  (List.range s.threads).mapM (readPart s gen d)

/-- The deletion of the parts of the checkpoint before, /repo/mtd.cc:1582-1588. -/
def deleteOld (s : Settings) (gen : Nat) (d : Disk α) : Disk α :=
  fun f => if f ∈ (List.range s.threads).map (ckpFile s (gen - 1)) then none else d f

/-- The filling of `cores`, /repo/mtd.cc:699-702; `first` is -1 if it was not given. -/
def fillFrom (first stride : Int) : Nat → List Int → List Int
  | 0, cores => cores
  | k + 1, cores => fillFrom (first + stride) stride k (cores ++ [first])

def firstCore (cores : List Int) (first : Int) : Int :=
  if first < 0 then (match cores.getLast? with | some c => c + 1 | none => 0) else first

def fillCores (cores : List Int) (first stride : Int) (n : Nat) : List Int :=
  fillFrom (firstCore cores first) stride (n - cores.length) cores

/-- The thread for a connection and the next value of `next`, /repo/mtd.cc:856-859; `core` is what
the client asked for, or -1.  `none`: division by zero. -/
def pickThread (n : Nat) (core : Int) (next : Nat) : Option (Nat × Nat) :=
  if core < 0 ∨ core ≥ n then (if n = 0 then none else some (next % n, next + 1))
  else some (core.toNat, next)

end Verif.Startup
