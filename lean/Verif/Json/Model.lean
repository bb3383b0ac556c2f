import Mathlib.Data.List.Basic

/-!
# Json text

`Json::unparse` (/repo/json.hh:2759-2782, `hard_unparse`, /repo/json.cc:608-678), `String_base::encode_json`
(/repo/string_base.hh:517-577), `StringAccum::append_utf8` (/repo/straccum.hh:523-531, /repo/straccum.cc:203-224), and the parser
`Json::streaming_parser` (/repo/json.cc:697-1231).

Simplifications:
* Bytes are numbers; nothing depends on their being below 256.
* An integer is a number: `operator==` does not tell `j_int` from `j_unsigned` (/repo/json.cc:546-552).
* A double is the text that is given to `strtod`; doubles are not printed.
* An object is the list of its live members, in order (`hash_` only finds them).
* Where an error is found is left out.
* A byte read at `last` and the overflow of `-int64_t(x)` are the outcome `ub`.
* `stack_` and `json_` are kept as the containers that are open, the last first; a container is put into the one around it when it is
  closed, not when it is opened.  Members get their keys together with their values.
* Memory does not run out.
-/
namespace Verif.Json

abbrev Bytes := List Nat

/-- A value. -/
inductive J where
  | null
  | bool (b : Bool)
  | num (n : Int)
  | dbl (s : Bytes)
  | str (s : Bytes)
  | arr (xs : List J)
  | obj (xs : List (Bytes × J))

/-! ## Printing -/

/-- `upper_hex_nibble`, /repo/string_base.hh:72-74. -/
def nibble (n : Nat) : Nat := if 9 < n then n + 55 else n + 48

/-- `\u` and four digits, /repo/string_base.hh:556-562. -/
def uEsc (c : Nat) : Bytes := [92, 117, nibble (c / 4096), nibble (c / 256 % 16), nibble (c / 16 % 16), nibble (c % 16)]

/-- One byte, /repo/string_base.hh:530-570. -/
def esc (c : Nat) : Bytes :=
  if 32 ≤ c ∧ c ≠ 92 ∧ c ≠ 34 ∧ c ≠ 47 then [c]
  else if c = 8 then [92, 98]
  else if c = 12 then [92, 102]
  else if c = 10 then [92, 110]
  else if c = 13 then [92, 114]
  else if c = 9 then [92, 116]
  else if c = 92 ∨ c = 34 ∨ c = 47 then [92, c]
  else uEsc c

/-- `encode_json`, /repo/string_base.hh:517-577; U+2028 and U+2029 are escaped, lines 526-529 and 563-564. -/
def encode : Bytes → Bytes
  | 0xE2 :: 0x80 :: c :: r =>
    if c = 0xA8 ∨ c = 0xA9 then uEsc (0x2028 + c % 2) ++ encode r
    else esc 0xE2 ++ encode (0x80 :: c :: r)
  | c :: r => esc c ++ encode r
  | [] => []

/-- The digits of a number, `%lu`. -/
def digits (n : Nat) : Bytes := if n < 10 then [48 + n] else digits (n / 10) ++ [48 + n % 10]

/-- `%ld` and `%lu`, /repo/straccum.cc:265-286. -/
def decimal : Int → Bytes
  | .ofNat n => digits n
  | .negSucc n => 45 :: digits (n + 1)

/-- `unparse_manipulator`, /repo/json.hh:2698-2744.  Which containers are printed on several lines (`indent_depth_` and
`unparse_is_complex`, /repo/json.cc:570-592 and 611) is left open: any function of the depth and the value. -/
structure Man where
  tab : Nat := 0
  nl : Bool := false
  sep : Bool := false
  expanded : Nat → J → Bool := fun _ _ => false

/-- `unparse_indent`, /repo/json.cc:594-600. -/
def indent (m : Man) (d : Nat) : Bytes :=
  let w := d * if m.tab = 0 then 8 else m.tab
  10 :: (List.replicate (w / 8) 9 ++ List.replicate (w % 8) 32)

/-- `upx[0]` and `upx[1]`, /repo/json.cc:602-618. -/
def colon (m : Man) (e : Bool) : Bytes := if e || m.sep then [58, 32] else [58]
def comma (m : Man) (e : Bool) : Bytes := if !e && m.sep then [44, 32] else [44]

mutual
/-- `hard_unparse`, /repo/json.cc:608-674. -/
def text (m : Man) (d : Nat) : J → Bytes
  | .null => [110, 117, 108, 108]
  | .bool true => [116, 114, 117, 101]
  | .bool false => [102, 97, 108, 115, 101]
  | .num n => decimal n
  | .dbl s => s
  | .str s => 34 :: (encode s ++ [34])
  | .arr xs =>
    let e := m.expanded d (.arr xs)
    91 :: (elems m d e false xs ++ ((if e then indent m d else []) ++ [93]))
  | .obj xs =>
    let e := m.expanded d (.obj xs)
    123 :: (members m d e false xs ++ ((if e then indent m d else []) ++ [125]))

/-- The elements of an array, /repo/json.cc:648-655. -/
def elems (m : Man) (d : Nat) (e rest : Bool) : List J → Bytes
  | [] => []
  | x :: xs =>
    (if rest then comma m e else []) ++ ((if e then indent m (d + 1) else []) ++ (text m (d + 1) x ++ elems m d e true xs))

/-- The members of an object, /repo/json.cc:627-638. -/
def members (m : Man) (d : Nat) (e rest : Bool) : List (Bytes × J) → Bytes
  | [] => []
  | (k, x) :: xs =>
    (if rest then comma m e else []) ++ ((if e then indent m (d + 1) else []) ++
      (34 :: (encode k ++ 34 :: (colon m e ++ (text m (d + 1) x ++ members m d e true xs)))))
end

/-- `unparse`, /repo/json.hh:2759-2772; the newline at the end, /repo/json.cc:676-677. -/
def unparse (m : Man) (j : J) : Bytes := text m 0 j ++ if m.nl then [10] else []

/-! ## Parsing -/

/-- `append_utf8`, /repo/straccum.hh:523-531, and `append_utf8_hard`, /repo/straccum.cc:203-224.  `char` keeps eight bits. -/
def appendUtf8 (ch : Nat) : Option Bytes :=
  if ch = 0 then none
  else if ch ≤ 0x7F then some [ch]
  else if ch < 0x8000 then some [(192 ||| ch / 64) % 256, 128 + ch % 64]
  else if ch < 0x10000 then
    if (0xD800 ≤ ch ∧ ch < 0xE000) ∨ 0xFFFD < ch then none
    else some [224 + ch / 4096, 128 + ch / 64 % 64, 128 + ch % 64]
  else if ch < 0x110000 then some [240 + ch / 262144, 128 + ch / 4096 % 64, 128 + ch / 64 % 64, 128 + ch % 64]
  else none

/-- A hexadecimal digit, /repo/json.cc:1029-1036. -/
def hex (b : Nat) : Option Nat :=
  if 48 ≤ b ∧ b ≤ 57 then some (b - 48)
  else if 65 ≤ b ∧ b ≤ 70 then some (b - 55)
  else if 97 ≤ b ∧ b ≤ 102 then some (b - 87)
  else none

/-- A hexadecimal digit of the second half of a surrogate pair, /repo/json.cc:1055-1062: the test for `a` to `f` tests for `A` to `F`
again. -/
def hexUp (b : Nat) : Option Nat :=
  if 48 ≤ b ∧ b ≤ 57 then some (b - 48)
  else if 65 ≤ b ∧ b ≤ 70 then some (b - 55)
  else none

/-- What came of an attempt to read something: more bytes are needed, an error, or the value and the rest. -/
inductive Rd (α : Type) where
  | part
  | err
  | ok (a : α) (rest : Bytes)

/-- The loops over four digits. -/
def hexs (f : Nat → Option Nat) : Nat → Nat → Bytes → Rd Nat
  | 0, ch, bs => .ok ch bs
  | _ + 1, _, [] => .part
  | n + 1, ch, b :: bs =>
    match f b with
    | some d => hexs f n (16 * ch + d) bs
    | none => .err

/-- /repo/json.cc:1071-1073. -/
def fin (ch : Nat) (r : Bytes) : Rd Bytes :=
  match appendUtf8 ch with
  | some u => .ok u r
  | none => .err

/-- `consume_backslash`, /repo/json.cc:1004-1079, after the backslash; the result is what is appended. -/
def backslash : Bytes → Rd Bytes
  | [] => .part
  | c :: r =>
    if c = 34 ∨ c = 92 ∨ c = 47 then fin c r
    else if c = 98 then fin 8 r
    else if c = 102 then fin 12 r
    else if c = 110 then fin 10 r
    else if c = 114 then fin 13 r
    else if c = 116 then fin 9 r
    else if c = 117 then
      match hexs hex 4 0 r with
      | .part => .part
      | .err => .err
      | .ok ch r =>
        if 0xD800 ≤ ch ∧ ch < 0xE000 then
          if 0xDC00 ≤ ch then .err
          else
            match r with
            | [] => .part
            | c1 :: r =>
              if c1 ≠ 92 then .err
              else
                match r with
                | [] => .part
                | c2 :: r =>
                  if c2 ≠ 117 then .err
                  else
                    match hexs hexUp 4 0 r with
                    | .part => .part
                    | .err => .err
                    | .ok ch2 r =>
                      if 0xDC00 ≤ ch2 ∧ ch2 < 0xE000 then fin (0x10000 + (ch - 0xD800) * 0x400 + (ch2 - 0xDC00)) r else .err
        else fin ch r
    else .err

/-- A byte that follows the first of a character, /repo/json.cc:932, 940 and 942; `(*first & 0xC0) == 0x80`, line 977. -/
def cont (b : Nat) : Bool := decide (0x80 ≤ b ∧ b < 0xC0)

/-- /repo/json.cc:933-938. -/
def badSecond (b c : Nat) : Bool :=
  decide ((b = 0xE0 ∧ c < 0xA0) ∨ (b = 0xED ∧ 0xA0 ≤ c) ∨ (b = 0xF0 ∧ c < 0x90) ∨ (b = 0xF4 ∧ 0x90 ≤ c))

/-- The bytes after which lines 934-937 read the next one, even beyond the end of the chunk (/repo/json.cc:932-938). -/
def edge (b : Nat) : Bool := decide (b = 0xE0 ∨ b = 0xED ∨ b = 0xF0 ∨ b = 0xF4)

/-- The number of bytes of a character, /repo/json.cc:930. -/
def want (b : Nat) : Nat := 2 + (if 0xE0 ≤ b then 1 else 0) + (if 0xF0 ≤ b then 1 else 0)

/-- The end of `consume_string`: the chunk ended, with `n` bytes of an escape or a character at the end of `s`; the string ended. -/
inductive SR where
  | more (s : Bytes) (n : Nat)
  | done (s : Bytes) (rest : Bytes)
  | err
  | ub

/-- The loop of `consume_string`, /repo/json.cc:916-967; at most `fuel` rounds, one for each byte is enough. -/
def plain : Nat → Bytes → Bytes → SR
  | _, sa, [] => .more sa 0
  | 0, sa, _ :: _ => .more sa 0
  | fuel + 1, sa, b :: r =>
    if 32 ≤ b ∧ b < 128 ∧ b ≠ 92 ∧ b ≠ 34 then plain fuel (sa ++ [b]) r
    else if b = 92 then
      match backslash r with
      | .part => .more (sa ++ 92 :: r) (r.length + 1)
      | .err => .err
      | .ok u r => plain fuel (sa ++ u) r
    else if b = 34 then .done sa r
    else if ¬ (0xC2 ≤ b ∧ b < 0xF5) then .err
    else
      match r with
      | [] => if edge b then .ub else .more (sa ++ [b]) 1
      | c :: r =>
        if !cont c || badSecond b c then .err
        else if want b = 2 then plain fuel (sa ++ [b, c]) r
        else
          match r with
          | [] => .more (sa ++ [b, c]) 2
          | d :: r =>
            if !cont d then .err
            else if want b = 3 then plain fuel (sa ++ [b, c, d]) r
            else
              match r with
              | [] => .more (sa ++ [b, c, d]) 3
              | e :: r => if !cont e then .err else plain fuel (sa ++ [b, c, d, e]) r

/-- `isxdigit`. -/
def isxdigit (b : Nat) : Bool := (hex b).isSome

/-- The tests on the next byte, /repo/json.cc:977-981. -/
def partBad (tag part b : Nat) : Bool :=
  (tag ≠ 92 && !cont b) || (tag = 92 && part = 6 && b ≠ 92) || (tag = 92 && part = 7 && b ≠ 117) ||
    (tag = 92 && part ≠ 1 && part ≠ 6 && part ≠ 7 && !isxdigit b)

/-- The escape or character may be complete, /repo/json.cc:986-987. -/
def partFull (tag part : Nat) : Bool :=
  (tag ≠ 92 && part = 1 + (if 0xE0 ≤ tag then 1 else 0) + (if 0xF0 ≤ tag then 1 else 0)) ||
    (tag = 92 && (part = 1 || part = 5 || part = 11))

/-- One round of `consume_stringpart`, /repo/json.cc:974-1000, with `part` bytes of an escape or character at the end of `sa`.  The call
of `consume_string` always ends with the chunk. -/
def partStep (sa : Bytes) (part b : Nat) : Option (Bytes × Nat) :=
  let i := sa.length - part
  if partBad (sa.getD i 0) part b then none
  else if partFull (sa.getD i 0) part then
    match plain (part + 1) (sa.take i) (sa.drop i ++ [b]) with
    | .more s n => some (s, n)
    | _ => none
  else some (sa ++ [b], part + 1)

/-- `consume_string`, /repo/json.cc:904-968, with `consume_stringpart`, lines 970-1002. -/
def consumeString : Bytes → Nat → Bytes → SR
  | sa, 0, bs => plain bs.length sa bs
  | sa, n + 1, [] => .more sa (n + 1)
  | sa, n + 1, b :: r =>
    match partStep sa (n + 1) b with
    | some (s, n') => consumeString s n' r
    | none => .err

/-- `t`, /repo/json.cc:1085. -/
def words : Bytes := [110, 117, 108, 108, 0, 102, 97, 108, 115, 101, 0, 116, 114, 117, 101, 0]

/-- /repo/json.cc:1101-1106. -/
def wordValue (n : Nat) : J := if n = 4 then .null else if n = 10 then .bool false else .bool true

/-- The end of `consume_primitive` and `consume_number`: the chunk ended, an error, or a value. -/
inductive VR where
  | more (n : Nat)
  | done (j : J) (rest : Bytes)
  | err
  | ub

/-- The loop of `consume_primitive`, /repo/json.cc:1095-1107. -/
def primitive : Nat → Bytes → VR
  | n, [] => if words.getD n 0 = 0 then .done (wordValue n) [] else .more n
  | n, b :: r =>
    if words.getD n 0 = 0 then .done (wordValue n) (b :: r)
    else if words.getD n 0 = b then primitive (n + 1) r
    else .err

def isDigit (b : Nat) : Bool := decide (48 ≤ b ∧ b ≤ 57)

/-! `consume_number`, /repo/json.cc:1110-1183: the bytes read, the position, and the rest.  One function for each label. -/

def num9 (bs : Bytes) : Bytes × Nat × Bytes := (bs.takeWhile isDigit, 9, bs.dropWhile isDigit)

def num8 : Bytes → Bytes × Nat × Bytes
  | b :: r => if isDigit b then ((b :: (num9 r).1), 9, (num9 r).2.2) else ([], 8, b :: r)
  | [] => ([], 8, [])

def num6 : Bytes → Bytes × Nat × Bytes
  | [] => ([], 6, [])
  | b :: r => if b = 43 ∨ b = 45 then ((b :: (num8 r).1), (num8 r).2) else num8 (b :: r)

/-- `maybe_exponent`. -/
def numExp (pos : Nat) : Bytes → Bytes × Nat × Bytes
  | b :: r => if b = 101 ∨ b = 69 then ((b :: (num6 r).1), (num6 r).2) else ([], pos, b :: r)
  | [] => ([], pos, [])

def num5 (pos : Nat) (bs : Bytes) : Bytes × Nat × Bytes :=
  let ds := bs.takeWhile isDigit
  let r := bs.dropWhile isDigit
  if r ≠ [] ∧ pos = 5 then (ds ++ (numExp 5 r).1, (numExp 5 r).2) else (ds, pos, r)

def num4 : Bytes → Bytes × Nat × Bytes
  | b :: r => if isDigit b then ((b :: (num5 5 r).1), (num5 5 r).2) else num5 4 (b :: r)
  | [] => num5 4 []

def num3 (pos : Nat) : Bytes → Bytes × Nat × Bytes
  | b :: r => if b = 46 then ((b :: (num4 r).1), (num4 r).2) else numExp pos (b :: r)
  | [] => numExp pos []

def num1 (bs : Bytes) : Bytes × Nat × Bytes :=
  let r := bs.dropWhile isDigit
  (bs.takeWhile isDigit ++ (num3 1 r).1, (num3 1 r).2)

def num2 : Bytes → Bytes × Nat × Bytes
  | b :: r =>
    if b = 48 then ((b :: (num3 3 r).1), (num3 3 r).2)
    else if 49 ≤ b ∧ b ≤ 57 then ((b :: (num1 r).1), (num1 r).2)
    else num3 2 (b :: r)
  | [] => num3 2 []

def num0 : Bytes → Bytes × Nat × Bytes
  | b :: r => if b = 45 then ((b :: (num2 r).1), (num2 r).2) else num2 (b :: r)
  | [] => num2 []

/-- The `switch`. -/
def numScan : Nat → Bytes → Bytes × Nat × Bytes
  | 0, bs => num0 bs
  | 1, bs => num1 bs
  | 2, bs => num2 bs
  | 3, bs => num3 3 bs
  | 4, bs => num4 bs
  | 5, bs => num5 5 bs
  | 6, bs => num6 bs
  | 8, bs => num8 bs
  | 9, bs => num9 bs
  | n, bs => ([], n, bs)

/-- `x = (x * 10) + *prev - '0'`, a `uint64_t`, /repo/json.cc:1199-1203. -/
def u64 (ds : Bytes) : Nat := ds.foldl (fun x b => (x * 10 + (b - 48)) % 2 ^ 64) 0

/-- The value of the text `s` of a number, /repo/json.cc:1194-1213; `none` is undefined. -/
def numValue (s : Bytes) (pos : Nat) : Option J :=
  match s with
  | [b] => some (.num (Int.ofNat b - 48))
  | _ =>
    if pos < 4 then
      match s with
      | 45 :: ds =>
        let x := u64 ds
        if x = 2 ^ 63 then none else some (.num (if x < 2 ^ 63 then -(x : Int) else 2 ^ 64 - (x : Int)))
      | ds => some (.num (u64 ds : Int))
    else some (.dbl s)

/-- `state_` without its low bits, /repo/json.hh:2815-2825; `ub` is added. -/
inductive St where
  | initial | arrInit | arrVal | objVal | arrDelim | objDelim | objInit | objKey | objColon | final | error | ub
  deriving DecidableEq

/-- `state_ < 0`. -/
def St.over : St → Bool
  | .final | .error | .ub => true
  | _ => false

/-- `state_ <= st_object_value`. -/
def St.val : St → Bool
  | .initial | .arrInit | .arrVal | .objVal => true
  | _ => false

/-- The low bits of `state_`, /repo/json.hh:2812-2813. -/
inductive Part where
  | no
  | str (n : Nat)
  | prim (n : Nat)
  | num (pos : Nat)

/-- A container that is not closed; an object with the key of the member that is being read. -/
inductive Open where
  | arr (xs : List J)
  | obj (xs : List (Bytes × J)) (k : Bytes)

/-- The container. -/
def Open.close : Open → J
  | .arr xs => .arr xs
  | .obj xs _ => .obj xs

/-- `get_insert` (/repo/json.cc:163-186) of a key and what is done with the value there, /repo/json.cc:865-871: if an array is there, the
new value is appended to it. -/
def put (k : Bytes) (j : J) : List (Bytes × J) → List (Bytes × J)
  | [] => [(k, j)]
  | (k', v) :: xs =>
    if k' = k then
      match v with
      | .arr ys => (k', .arr (ys ++ [j])) :: xs
      | _ => (k', j) :: xs
    else (k', v) :: put k j xs

/-- A value in a container. -/
def Open.place : Open → J → Open
  | .arr xs, j => .arr (xs ++ [j])
  | .obj xs k, j => .obj (put k j xs) k

/-- The state after a value in a container, /repo/json.cc:879-882 and 896. -/
def Open.delim : Open → St
  | .arr _ => .arrDelim
  | .obj _ _ => .objDelim

/-- `streaming_parser`, /repo/json.hh:2787-2841. -/
structure P where
  st : St := .initial
  part : Part := .no
  str : Bytes := []
  open_ : List Open := []
  res : J := .null

/-- `stack_.size()`: the outermost container is not on the stack, and a member is while its value is read. -/
def P.size (p : P) : Nat := p.open_.length - 1 + if p.st = .objVal then 1 else 0

def P.fail (p : P) : P := { p with st := .error, part := .no, str := [] }

def P.undef (p : P) : P := { p with st := .ub, part := .no, str := [] }

/-- A value is done: `value`, /repo/json.cc:865-888, or `close_value`, lines 890-898. -/
def P.value (p : P) (j : J) : P :=
  match p.open_ with
  | [] => { p with st := .final, part := .no, str := [], res := j }
  | o :: os => { p with st := o.delim, part := .no, str := [], open_ := o.place j :: os }

/-- A container begins: `value`, /repo/json.cc:865-878. -/
def P.enter (p : P) (o : Open) (s : St) : P := { p with st := s, part := .no, str := [], open_ := o :: p.open_ }

/-- `close_value`, /repo/json.cc:890-898. -/
def P.leave (p : P) : P :=
  match p.open_ with
  | [] => p.fail
  | o :: os => ({ p with open_ := os }).value o.close

/-- A key is done, /repo/json.cc:821-824. -/
def P.key (p : P) (k : Bytes) : P :=
  match p.open_ with
  | .obj xs _ :: os => { p with part := .no, str := [], open_ := .obj xs k :: os }
  | _ => p.fail

/-- After `consume_string`, /repo/json.cc:810-824. -/
def P.afterString (p : P) : SR → P × Bytes
  | .more s n => ({ p with part := .str n, str := s }, [])
  | .done s r => (if p.st = .objColon then p.key s else p.value (.str s), r)
  | .err => (p.fail, [])
  | .ub => (p.undef, [])

/-- After `consume_primitive`, /repo/json.cc:834-836. -/
def P.afterPrimitive (p : P) : VR → P × Bytes
  | .more n => ({ p with part := .prim n }, [])
  | .done j r => (p.value j, r)
  | .err => (p.fail, [])
  | .ub => (p.undef, [])

/-- The end of a number, /repo/json.cc:1185-1216. -/
def P.endNumber (p : P) (s : Bytes) (pos : Nat) : P :=
  if pos % 2 = 0 then p.fail
  else
    match numValue s pos with
    | some j => p.value j
    | none => p.undef

/-- `consume_number`, /repo/json.cc:1110-1231, with the text `s` read before. -/
def P.number (p : P) (complete : Bool) (s : Bytes) (pos : Nat) (bs : Bytes) : P × Bytes :=
  let x := numScan pos bs
  if x.2.2 ≠ [] ∨ complete then (p.endNumber (s ++ x.1) x.2.1, x.2.2)
  else ({ p with part := .num x.2.1, str := s ++ x.1 }, [])

/-- Where the words begin, /repo/json.cc:1091. -/
def wordStart (b : Nat) : Nat := if b = 110 then 1 else if b = 102 then 6 else 12

/-- One round of the loop of `consume`, /repo/json.cc:734-863, at the byte `b`. -/
def P.round (p : P) (complete : Bool) (b : Nat) (r : Bytes) : P × Bytes :=
  if b = 32 ∨ b = 10 ∨ b = 13 ∨ b = 9 then (p, r)
  else if b = 44 then
    if p.st = .arrDelim then ({ p with st := .arrVal }, r)
    else if p.st = .objDelim then ({ p with st := .objKey }, r)
    else (p.fail, [])
  else if b = 58 then
    if p.st = .objColon then ({ p with st := .objVal }, r) else (p.fail, [])
  else if b = 123 then
    if p.st.val = true ∧ p.size ≠ 2048 then (p.enter (.obj [] []) .objInit, r) else (p.fail, [])
  else if b = 125 then
    if p.st = .objInit ∨ p.st = .objDelim then (p.leave, r) else (p.fail, [])
  else if b = 91 then
    if p.st.val = true ∧ p.size ≠ 2048 then (p.enter (.arr []) .arrInit, r) else (p.fail, [])
  else if b = 93 then
    if p.st = .arrInit ∨ p.st = .arrDelim then (p.leave, r) else (p.fail, [])
  else if b = 34 then
    if p.st.val = true then p.afterString (consumeString [] 0 r)
    else if p.st = .objInit ∨ p.st = .objKey then
      P.afterString { p with st := .objColon } (consumeString [] 0 r)
    else (p.fail, [])
  else if b = 110 ∨ b = 102 ∨ b = 116 then
    if p.st.val = true then p.afterPrimitive (primitive (wordStart b) r) else (p.fail, [])
  else if b = 45 ∨ isDigit b = true then
    if p.st.val = true then p.number complete [] 0 (b :: r) else (p.fail, [])
  else (p.fail, [])

/-- The loop of `consume`, /repo/json.cc:733-901; at most `fuel` rounds, one for each byte is enough. -/
def loop (complete : Bool) : Nat → P × Bytes → P × Bytes
  | _, (p, []) => (p, [])
  | 0, (p, b :: r) => (p, b :: r)
  | fuel + 1, (p, b :: r) => if p.st.over then (p, b :: r) else loop complete fuel (p.round complete b r)

/-- `consume`, /repo/json.cc:714-902: go on with what is unfinished, then the loop. -/
def P.consume (p : P) (bs : Bytes) (complete : Bool) : P × Bytes :=
  if p.st.over then (p, bs)
  else
    match p.part with
    | .no => loop complete bs.length (p, bs)
    | .str n => loop complete bs.length (p.afterString (consumeString p.str n bs))
    | .prim n => loop complete bs.length (p.afterPrimitive (primitive n bs))
    | .num pos => loop complete bs.length (p.number complete p.str pos bs)

/-- The end of a parse. -/
inductive Res where
  | ok (j : J)
  | fail
  | ub

/-- /repo/json.cc:687-689. -/
def dropWs : Bytes → Bytes
  | b :: r => if b = 32 ∨ b = 10 ∨ b = 13 ∨ b = 9 then r else b :: r
  | [] => []

/-- `assign_parse`, /repo/json.cc:681-695: at most one space after the value. -/
def parse (bs : Bytes) : Res :=
  let x := P.consume {} bs true
  match x.1.st, dropWs x.2 with
  | .ub, _ => .ub
  | .final, [] => .ok x.1.res
  | _, _ => .fail

/-- A text that comes in chunks: `consume` of each with `complete` false, until the parser is done, and at the end with `complete` true.
Also what is left of the text. -/
def P.run (p : P) : List Bytes → P × Bytes
  | [] => p.consume [] true
  | c :: cs =>
    let x := p.consume c false
    if x.1.st.over then (x.1, x.2 ++ cs.flatten) else x.1.run cs

end Verif.Json
