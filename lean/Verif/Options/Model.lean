/-!
# Command line options

The parser of /repo/clp.c as the programs here use it: `Clp_NewParser`, `Clp_AddType`, `Clp_Next`.

Simplifications:
* UTF-8 is off: a character is a byte.  Strings are lists of characters without NUL.
* Only `-` begins short options (no calls of `Clp_SetOptionChar` in /repo), so no argument can be both a short and a long option
  (`could_be_short`, `long1pos` and `long1neg` are 0), and `whole_negated` is 0.
* Option ids are not negative.
* Messages are not modelled; of the values for an ambiguous option, all are kept, not only the first four.
* What a value function makes of a string is a parameter; `parse_bool` is modelled.
-/
namespace Verif.Options

abbrev Str := List Char

/-- `Clp_Option`, /repo/clp.h:55-65. -/
structure Opt where
  long : Option Str := none
  short : Option Char := none
  id : Nat
  valType : Nat := 0
  mandatory : Bool := false
  optional : Bool := false
  negate : Bool := false
  onlyNegated : Bool := false
  preferred : Bool := false
  deriving DecidableEq

/-- `Clp_InternOption`, /repo/clp.c:171-184. -/
structure IOpt where
  ilong : Bool
  ishort : Bool
  imandatory : Bool
  ioptional : Bool
  ipos : Bool
  ineg : Bool
  iprefmatch : Bool
  ilongoff : Nat
  lmmpos : Nat := 0
  lmmneg : Nat := 0
  deriving DecidableEq

structure Entry where
  o : Opt
  io : IOpt
  deriving DecidableEq

/-- `long_name + ilongoff`. -/
def Entry.name (e : Entry) : Str := (e.o.long.getD []).drop e.io.ilongoff

def noDash : Str := ['n', 'o', '-']

/-- `strncmp(s, t, n) == 0`. -/
def strncmpEq (s t : Str) (n : Nat) : Bool := s.take n == t.take n

/-- The loop of `Clp_SetOptions`, /repo/clp.c:820-858. -/
def massage (o : Opt) : IOpt :=
  let ilong := o.long.getD [] != []
  let no := ilong && strncmpEq (o.long.getD []) noDash 3
  let imandatory := if o.valType = 0 then false else if o.optional then o.mandatory else true
  { ilong
    ishort := o.short.isSome
    imandatory
    ioptional := if o.valType = 0 then false else o.optional
    ipos := !(no || o.onlyNegated)
    ineg := no || o.onlyNegated || o.negate
    iprefmatch := o.preferred
    ilongoff := if no then 3 else 0 }

/-- `min_different_chars`, /repo/clp.c:379-392. -/
def minDifferent : Str → Str → Nat
  | [], _ => 0
  | _ :: _, [] => 1
  | a :: s, b :: t => if a = b then minDifferent s t + 1 else 1

/-- `compare_options`, /repo/clp.c:410-465; it changes the first option. -/
def compareOptions (e : Entry) (f : Entry) : Entry :=
  if (!e.io.ishort && !e.io.ilong) || (!f.io.ishort && !f.io.ilong)
      || !((e.io.ipos && f.io.ipos) || (e.io.ineg && f.io.ineg)) || e.o.id == f.o.id then e
  else if e.io.ilong && f.io.ilong then
    let fits := !e.io.iprefmatch || !strncmpEq e.name f.name e.name.length
    { e with io := { e.io with
        lmmpos := if e.io.ipos && f.io.ipos && strncmpEq e.name f.name e.io.lmmpos && fits then minDifferent e.name f.name
          else e.io.lmmpos
        lmmneg := if e.io.ineg && f.io.ineg && strncmpEq e.name f.name e.io.lmmneg && fits then minDifferent e.name f.name
          else e.io.lmmneg } }
  else e

/-- `calculate_lmm`, /repo/clp.c:467-477. -/
def calculateLmm (es : List Entry) : List Entry :=
  es.map fun e => es.foldl compareOptions { e with io := { e.io with lmmpos := 1, lmmneg := 1 } }

/-- `Clp_SetOptions`, /repo/clp.c:797-864. -/
def setOptions (os : List Opt) : List Entry := calculateLmm (os.map fun o => ⟨o, massage o⟩)

/-- The loops of `argcmp`: what is left of `ref` and `arg`, and how much of each is used. -/
def argcmpLoop (fewer : Bool) : Str → Str → Nat → Nat → Str × Nat × Nat
  | c :: ref, d :: arg, r, a =>
    if d ≠ '=' ∧ c = d then argcmpLoop fewer ref arg (r + 1) (a + 1)
    else if fewer = true ∧ c = '-' ∧ ref.head? = some d then argcmpLoop fewer ref (d :: arg) (r + 1) a
    else (d :: arg, r, a)
  | _, arg, r, a => (arg, r, a)

/-- `argcmp`, /repo/clp.c:922-958. -/
def argcmp (ref arg : Str) (minMatch : Nat) (fewer : Bool) : Int :=
  let (left, r, a) := argcmpLoop fewer ref arg 0 0
  if left ≠ [] ∧ left.head? ≠ some '=' then 0 else if r < minMatch then -1 else a

/-- The option has a long name of the kind asked for. -/
def Entry.usable (e : Entry) (neg : Bool) : Bool := e.io.ilong && (if neg then e.io.ineg else e.io.ipos)

def Entry.lmm (e : Entry) (neg : Bool) : Nat := if neg then e.io.lmmneg else e.io.lmmpos

/-- The loop of `find_prefix_opt`, /repo/clp.c:975-992. -/
def pass (neg fewer : Bool) (arg : Str) : List Entry → Nat → List Nat → Option Nat × List Nat
  | [], _, amb => (none, amb)
  | e :: es, i, amb =>
    if !e.usable neg then pass neg fewer arg es (i + 1) amb
    else
      let len := argcmp e.name arg (e.lmm neg) fewer
      if len > 0 then (some i, amb)
      else if len < 0 then pass neg fewer arg es (i + 1) (amb ++ [i])
      else pass neg fewer arg es (i + 1) amb

/-- `find_prefix_opt`, /repo/clp.c:960-1001. -/
def findPrefix (es : List Entry) (neg : Bool) (arg : Str) (amb : List Nat) : Option Nat × List Nat :=
  match pass neg false arg es 0 amb with
  | (some i, amb') => (some i, amb')
  | (none, amb') => if amb'.length = amb.length then pass neg true arg es 0 amb' else (none, amb')

inductive Long where
  | none
  /-- The option, whether it is negated, and the value after `=`. -/
  | found (i : Nat) (neg : Bool) (val : Option Str)
  /-- The assertion fails. -/
  | abort
  deriving DecidableEq

/-- The end of `find_long`, /repo/clp.c:1771-1785. -/
def worked (es : List Entry) (i : Nat) (neg : Bool) (arg : Str) : Long :=
  match es[i]? with
  | none => .abort
  | some e =>
    let len := argcmp e.name arg (e.lmm neg) true
    if len > 0 then
      .found i neg (if arg[len.toNat]? = some '=' then some (arg.drop (len.toNat + 1)) else .none)
    else .abort

/-- The loop of `find_long`, /repo/clp.c:1750-1758. -/
def findNegated (es : List Entry) (neg : Bool) (amb : List Nat) : Str → Long
  | 'n' :: 'o' :: '-' :: arg =>
    match findPrefix es (!neg) arg amb with
    | (some i, _) => worked es i (!neg) arg
    | (none, amb') => findNegated es (!neg) amb' arg
  | _ => .none

/-- `find_long`, /repo/clp.c:1726-1785. -/
def findLong (es : List Entry) (arg : Str) : Long :=
  match findPrefix es false arg [] with
  | (some i, _) => worked es i false arg
  | (none, amb) => findNegated es false amb arg

/-- `find_short`, /repo/clp.c:1788-1809; the result tells whether the option is negated. -/
def findShort (es : List Entry) (c : Char) : Option (Nat × Bool) :=
  match es.findIdx? fun e => e.io.ishort && e.o.short == some c with
  | some i => some (i, !((es[i]?).map (·.io.ipos)).getD true)
  | none => none

/-- Where the parser is, /repo/clp.c:195-230. -/
structure State where
  /-- `argv[0]` and what follows. -/
  cur : Str
  rest : List Str
  xtext : Option Str := none
  isShort : Bool := false
  processing : Bool := true
  deriving DecidableEq

/-- `Clp_NewParser` skips the program name, /repo/clp.c:547. -/
def State.start (args : List Str) : State := { cur := [], rest := args }

/-- The second half of `next_argument`, /repo/clp.c:1629-1710. -/
def nextWord (s : State) (want : Nat) : State × Bool × Option Str :=
  match s.rest with
  | [] => ({ s with xtext := none, isShort := false }, false, none)
  | text :: rest =>
    let s := { s with cur := text, rest, xtext := none, isShort := false }
    if want > 1 then (s, false, some text)
    else
      match text with
      | '-' :: '-' :: t => ({ s with xtext := some t }, true, none)
      | '-' :: c :: t => ({ s with xtext := some (c :: t), isShort := true }, true, none)
      | _ => (s, false, some text)

/-- `next_argument`, /repo/clp.c:1579-1710: whether there is an option, and the value. -/
def nextArgument (s : State) (want : Nat) : State × Bool × Option Str :=
  if s.isShort then
    match (s.xtext.getD []).drop 1 with
    | [] => nextWord s want
    | c :: t =>
      if want > 0 then ({ s with xtext := some (c :: t), isShort := false }, false, some (if c = '=' then t else c :: t))
      else ({ s with xtext := some (c :: t) }, true, none)
  else nextWord s want

/-- `Clp_ValType`, /repo/clp.c:164-169. -/
structure ValType (V : Type) where
  type : Nat
  func : Str → Option V
  /-- `Clp_DisallowOptions`. -/
  disallow : Bool

/-- The loop of `val_type_binsearch`, /repo/clp.c:1012-1020. -/
def binsearchLoop {V : Type} (a : List (ValType V)) (t : Nat) (l r : Nat) : Nat :=
  if h : l < r then
    let m := l + (r - l) / 2
    match a[m]? with
    | none => l
    | some v =>
      if v.type = t then m else if v.type < t then binsearchLoop a t (m + 1) r else binsearchLoop a t l m
  else l
termination_by r - l
decreasing_by all_goals omega

/-- `val_type_binsearch`, /repo/clp.c:1008-1022. -/
def binsearch {V : Type} (a : List (ValType V)) (t : Nat) : Nat := binsearchLoop a t 0 a.length

/-- The value types and how many there is room for. -/
structure Types (V : Type) where
  arr : List (ValType V)
  cap : Nat

/-- /repo/clp.c:522. -/
def Types.empty (V : Type) : Types V := ⟨[], 8⟩

/-- `Clp_AddType`, /repo/clp.c:1055-1093; `none` if it writes after the end of the array. -/
def Types.add {V : Type} (ts : Types V) (v : ValType V) : Option (Types V) :=
  let p := binsearch ts.arr v.type
  if (ts.arr[p]?).map (·.type) = some v.type then some { ts with arr := ts.arr.set p v }
  else
    let cap := if ts.arr.length ≠ 0 ∧ ts.arr.length % 8 = 0 then ts.arr.length + 8 else ts.cap
    if ts.arr.length < cap then some ⟨ts.arr.insertIdx p v, cap⟩ else none

/-- `val_type_binsearch` and the check in `Clp_Next`, /repo/clp.c:1939-1944. -/
def Types.find {V : Type} (ts : Types V) (t : Nat) : Option (ValType V) :=
  match ts.arr[binsearch ts.arr t]? with
  | some v => if v.type = t then some v else none
  | none => none

structure Parser (V : Type) where
  es : List Entry
  types : Types V

/-- What `Clp_Next` returns. -/
inductive Res (V : Type) where
  /-- `Clp_Done`. -/
  | done
  /-- `Clp_NotOption`. -/
  | notOption (s : Str)
  /-- `Clp_BadOption`. -/
  | bad
  /-- `Clp_Error`. -/
  | error
  /-- An option, whether it is negated, and its value. -/
  | opt (i : Nat) (neg : Bool) (val : Option (Str × V))
  /-- An assertion fails. -/
  | abort

/-- The beginning of `Clp_Next` if there is no option, /repo/clp.c:1868-1873. -/
def plain {V : Type} (s : State) (v : Option Str) : Res V × State :=
  match v with
  | some t => (.notOption t, s)
  | none => (.done, s)

/-- The end of `Clp_Next`, /repo/clp.c:1974-1991, with the state `save` to go back to. -/
def parseValue {V : Type} (i : Nat) (neg : Bool) (vt : ValType V) (complain : Bool) (save s : State) (v : Option Str) :
    Res V × State :=
  match v with
  | none => (.opt i neg none, s)
  | some w =>
    match vt.func w with
    | some y => (.opt i neg (some (w, y)), s)
    | none => if complain then (.bad, s) else (.opt i neg none, save)

/-- `Clp_Next` once the option is known, /repo/clp.c:1914-1991. -/
def withOption {V : Type} (p : Parser V) (s : State) (e : Entry) (i : Nat) (neg : Bool) (v : Option Str) : Res V × State :=
  if neg || (!e.io.imandatory && !e.io.ioptional) then
    if v.isSome then (.bad, s) else (.opt i neg none, s)
  else if e.o.valType = 0 then (.error, s)
  else
    match p.types.find e.o.valType with
    | none => (.error, s)
    | some vt =>
      let complain := v.isSome || e.io.imandatory
      if e.io.imandatory && v.isNone then
        match nextArgument s (if vt.disallow then 1 else 2) with
        | (_, _, none) => (.bad, s)
        | (s', _, some w) => parseValue i neg vt complain s s' (some w)
      else if s.isShort && v.isNone && (s.xtext.getD []).drop 1 != [] then
        let (s', _, w) := nextArgument s 1
        parseValue i neg vt complain s s' w
      else parseValue i neg vt complain s s v

/-- `Clp_Next` if the option is not known, /repo/clp.c:1889-1912. -/
def unknown {V : Type} (s : State) : Res V × State :=
  if s.cur = ['-', '-'] then
    let (s', _, v) := nextArgument { s with processing := false } 2
    plain s' v
  else (.bad, s)

/-- `Clp_Next`, /repo/clp.c:1854-1992. -/
def next {V : Type} (p : Parser V) (s : State) : Res V × State :=
  match nextArgument s (if s.processing then 0 else 2) with
  | (s, false, v) => plain s v
  | (s, true, _) =>
    let found : Long :=
      if s.isShort then
        match (s.xtext.getD []).head? with
        | none => .none
        | some c => match findShort p.es c with | some (i, neg) => .found i neg none | none => .none
      else findLong p.es (s.xtext.getD [])
    match found with
    | .abort => (.abort, s)
    | .none => unknown s
    | .found i neg v =>
      match p.es[i]? with
      | none => (.abort, s)
      | some e => if neg && !e.io.ineg then unknown s else withOption p s e i neg v

/-- The results of the first `n` calls. -/
def results {V : Type} (p : Parser V) : Nat → State → List (Res V)
  | 0, _ => []
  | n + 1, s => (next p s).1 :: results p n (next p s).2

/-- The state after the first `n` calls. -/
def after {V : Type} (p : Parser V) : Nat → State → State
  | 0, s => s
  | n + 1, s => after p n (next p s).2

/-- `tolower` of the C locale. -/
def lower (c : Char) : Char := if 'A' ≤ c ∧ c ≤ 'Z' then Char.ofNat (c.toNat + 32) else c

/-- `parse_bool`, /repo/clp.c:1161-1190. -/
def parseBool (arg : Str) : Option Bool :=
  if arg.length > 5 ∨ '=' ∈ arg then none
  else
    let l := arg.map lower
    if argcmp "yes".toList l 1 false > 0 ∨ argcmp "true".toList l 1 false > 0 ∨ argcmp "1".toList l 1 false > 0 then some true
    else if argcmp "no".toList l 1 false > 0 ∨ argcmp "false".toList l 1 false > 0 ∨ argcmp "1".toList l 1 false > 0 then
      some false
    else none

/-- How many of the possible values `finish_string_list` wants reported, /repo/clp.c:1251-1257. -/
def invalidReport (nitems itemscap : Nat) (allowInt : Bool) : Nat :=
  if nitems < 4 ∧ nitems < itemscap ∧ allowInt = true then nitems + 1 else if nitems > 5 then 5 else nitems

/-- Whether `Clp_Next` returns a number that is not negative, /repo/clp.h:155-162. -/
def Res.going {V : Type} : Res V → Bool
  | .notOption _ | .opt _ _ _ => true
  | _ => false

/-- What the loop of `main` sees, /repo/mtd.cc:608. -/
def loop {V : Type} (p : Parser V) (n : Nat) (s : State) : List (Res V) := (results p n s).takeWhile Res.going

/-- A word of the table. -/
def opt (name : String) (short : Option Char) (id valType : Nat) (optional negate : Bool) : Opt :=
  { long := if name = "" then none else some name.toList, short, id, valType, optional, negate }

/-- `options`, /repo/mtd.cc:563-595. -/
def mtdOptions : List Opt := [
  opt "no-log" none 1 0 false false,
  opt "" (some 'n') 1 0 false false,
  opt "no-run" none 12 0 false false,
  opt "pin" (some 'p') 2 0 false true,
  opt "logdir" none 3 1 false false,
  opt "ld" none 3 1 false false,
  opt "checkpoint" (some 'c') 13 8 true true,
  opt "ckp" none 13 8 true true,
  opt "ckpdir" none 5 1 false false,
  opt "ckdir" none 5 1 false false,
  opt "cd" none 5 1 false false,
  opt "port" none 4 4 false false,
  opt "duration" (some 'd') 6 8 false false,
  opt "limit" (some 'l') 14 10 false false,
  opt "test" none 7 1 false false,
  opt "test-rw1" none 8 0 false false,
  opt "test-rw2" none 8 0 false false,
  opt "test-rw3" none 8 0 false false,
  opt "test-rw4" none 8 0 false false,
  opt "test-rw5" none 8 0 false false,
  opt "test-rw16" none 8 0 false false,
  opt "test-palm" none 8 0 false false,
  opt "test-ycsbk" none 8 0 false false,
  opt "test-rw1fixed" none 8 0 false false,
  opt "threads" (some 'j') 9 4 false false,
  opt "cores" none 10 1 false false,
  opt "print" none 11 0 false true,
  opt "epoch-interval" none 15 8 false false]

end Verif.Options
