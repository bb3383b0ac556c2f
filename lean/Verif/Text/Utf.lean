import Verif.Json.Utf8

/-!
# Conversions to UTF-8

`String::skip_utf8_char`, `parse_cesu8_char`, `windows1252_to_utf8`, `utf16be_to_utf8`, `utf16le_to_utf8`, `utf16_to_utf8`, `cesu8_to_utf8`,
`utf8_to_utf8` and `to_utf8`, /repo/string.cc:1055-1351; `skip_utf8_bom`, /repo/string.hh:834-841.

Simplifications:
* Bytes are numbers.
* A loop has what was put into the `StringAccum`, the bytes between `last` and `s` and those from `s` on.  The string itself is returned
  if `last` is at its start (/repo/string.cc:1131-1132 and elsewhere); nothing was put into the `StringAccum` then, so that the result is the
  same.
* Loops count down from the length of the string; each turn takes at least one byte.
-/
namespace Verif.Text

open Verif.Json (Bytes appendUtf8 cont)

/-- What `append_utf8` appends (`Verif.Json.appendUtf8`). -/
def app (ch : Nat) : Bytes := (appendUtf8 ch).getD []

/-- `u_replacement`, /repo/string.hh:100. -/
def replacement : Nat := 0xFFFD

/-- The number of bytes over which `skip_utf8_char` goes, /repo/string.cc:1055-1085. -/
def skipChar : Bytes → Nat
  | [] => 0
  | c :: s =>
    if 0 < c ∧ c < 0x80 then 1
    else if c < 0xC2 then 0
    else if c < 0xE0 then
      match s with
      | x :: _ => if cont x then 2 else 0
      | _ => 0
    else if c < 0xF0 then
      match s with
      | x :: y :: _ => if cont x ∧ cont y ∧ (c ≠ 0xE0 ∨ 0xA0 ≤ x) ∧ (c ≠ 0xED ∨ x < 0xA0) then 3 else 0
      | _ => 0
    else if c < 0xF5 then
      match s with
      | x :: y :: z :: _ => if cont x ∧ cont y ∧ cont z ∧ (c ≠ 0xF0 ∨ 0x90 ≤ x) ∧ (c ≠ 0xF4 ∨ x < 0x90) then 4 else 0
      | _ => 0
    else 0

/-- `parse_cesu8_char`, /repo/string.cc:1087-1102. -/
def parseCesu : Bytes → Nat
  | a :: b :: c :: d :: e :: f :: _ =>
    if a = 0xED ∧ 0xA0 ≤ b ∧ b < 0xB0 ∧ 0x80 ≤ c ∧ c < 0xC0 ∧ d = 0xED ∧ 0xB0 ≤ e ∧ e < 0xC0 ∧ 0x80 ≤ f ∧ f < 0xC0 then
      0x10000 + ((b % 16) * 65536) + ((c % 64) * 1024) + ((e % 16) * 64) + f % 64
    else 0
  | _ => 0

/-- `windows1252_c1_mapping`, /repo/string.cc:1104-1109. -/
def c1 : Bytes := [0x20AC, 0x0081, 0x201A, 0x0192, 0x201E, 0x2026, 0x2020, 0x2021,
  0x20C6, 0x2030, 0x0160, 0x2039, 0x0152, 0x008D, 0x017D, 0x008F,
  0x0090, 0x2018, 0x2019, 0x201C, 0x201D, 0x2022, 0x2013, 0x2014,
  0x20DC, 0x2122, 0x0161, 0x203A, 0x0153, 0x009D, 0x017E, 0x0178]

/-- The character of a byte from 128 on, /repo/string.cc:1125-1126. -/
def high (c : Nat) : Nat := if c < 160 then c1.getD (c - 128) 0 else c

/-- The loop of `windows1252_to_utf8`, /repo/string.cc:1116-1130. -/
def winLoop (sa last : Bytes) : Bytes → Bytes
  | [] => sa ++ last
  | c :: s =>
    if c = 0 then winLoop (sa ++ last) [] s
    else if c < 128 then winLoop sa (last ++ [c]) s
    else winLoop (sa ++ last ++ app (high c)) [] s

/-- `windows1252_to_utf8`, /repo/string.cc:1111-1137. -/
def windows1252 (s : Bytes) : Bytes := winLoop [] [] s

/-- The flags. -/
structure Flags where
  strip : Bool
  repl : Bool
  le : Bool

/-- The byte with the high bits and the other one. -/
def pair (le : Bool) (a b : Nat) : Nat × Nat := if le then (b, a) else (a, b)

/-- The loop of `utf16be_to_utf8`, /repo/string.cc:1150-1162, and of `utf16le_to_utf8`, /repo/string.cc:1177-1189. -/
def utf16Loop (le repl : Bool) : Nat → Bytes → Bytes → Bytes
  | n + 1, sa, a :: b :: s =>
    let p := pair le a b
    let c := p.1 * 256 + p.2
    if c < 0xD800 ∨ 0xE000 ≤ c then utf16Loop le repl n (sa ++ app c) s
    else
      match s with
      | x :: y :: t =>
        let q := pair le x y
        if c < 0xDC00 ∧ 0xDC ≤ q.1 ∧ q.1 < 0xE0 then
          utf16Loop le repl n (sa ++ app (0x10000 + (c - 0xD800) * 1024 + (q.1 % 4) * 256 + q.2)) t
        else utf16Loop le repl n (if c ≠ 0 ∧ repl then sa ++ app replacement else sa) s
      | _ => utf16Loop le repl n (if c ≠ 0 ∧ repl then sa ++ app replacement else sa) s
  | _, sa, _ => sa

/-- `utf16be_to_utf8`, /repo/string.cc:1139-1164, and `utf16le_to_utf8`, /repo/string.cc:1166-1191. -/
def utf16ToUtf8 (le : Bool) (f : Flags) (s : Bytes) : Bytes :=
  let s := if s.length % 2 = 1 then s.dropLast else s
  let s := match s with
    | a :: b :: t => if f.strip && (pair le a b).1 == 0xFE && (pair le a b).2 == 0xFF then t else a :: b :: t
    | s => s
  utf16Loop le f.repl s.length [] s

/-- `utf16_to_utf8`, /repo/string.cc:1193-1206. -/
def utf16 (f : Flags) : Bytes → Bytes
  | a :: b :: s =>
    let c := a * 256 + b
    if c = 0xFEFF ∨ (c ≠ 0xFFFE ∧ !f.le) then utf16ToUtf8 false f (a :: b :: s) else utf16ToUtf8 true f (a :: b :: s)
  | _ => []

/-- `skip_utf8_bom`, /repo/string.hh:834-841. -/
def skipBom : Bytes → Bytes
  | a :: b :: c :: s => if a = 0xEF ∧ b = 0xBB ∧ c = 0xBF then s else a :: b :: c :: s
  | s => s

/-- The loop of `utf8_to_utf8`, /repo/string.cc:1250-1270. -/
def utf8Loop (repl : Bool) : Nat → Bytes → Bytes → Bytes → Bytes
  | n + 1, sa, last, c :: s =>
    if 0 < c ∧ c < 0x7F then utf8Loop repl n sa (last ++ [c]) s
    else
      let k := skipChar (c :: s)
      if k ≠ 0 then utf8Loop repl n sa (last ++ (c :: s).take k) ((c :: s).drop k)
      else utf8Loop repl n (sa ++ last ++ if repl ∧ c ≠ 0 then app replacement else []) [] (s.dropWhile cont)
  | _, sa, last, _ => sa ++ last

/-- `utf8_to_utf8`, /repo/string.cc:1243-1271. -/
def utf8ToUtf8 (f : Flags) (s : Bytes) : Bytes :=
  let s := if f.strip then skipBom s else s
  utf8Loop f.repl s.length [] [] s

/-- The loop of `cesu8_to_utf8`, /repo/string.cc:1215-1240.  The replacement depends on what `parse_cesu8_char` returned. -/
def cesu8Loop (repl : Bool) : Nat → Bytes → Bytes → Bytes → Bytes
  | n + 1, sa, last, c :: s =>
    if 0 < c ∧ c < 0x7F then cesu8Loop repl n sa (last ++ [c]) s
    else
      let k := skipChar (c :: s)
      if k ≠ 0 then cesu8Loop repl n sa (last ++ (c :: s).take k) ((c :: s).drop k)
      else
        let c := parseCesu (c :: s)
        if c ≠ 0 then cesu8Loop repl n (sa ++ last ++ app c) [] (s.drop 5)
        else cesu8Loop repl n (sa ++ last ++ if repl ∧ c ≠ 0 then app replacement else []) [] (s.dropWhile cont)
  | _, sa, last, _ => sa ++ last

/-- `cesu8_to_utf8`, /repo/string.cc:1208-1241. -/
def cesu8ToUtf8 (f : Flags) (s : Bytes) : Bytes :=
  let s := if f.strip then skipBom s else s
  cesu8Loop f.repl s.length [] [] s

/-- The loop of `to_utf8` for Windows-1252, /repo/string.cc:1334-1350. -/
def toWinLoop (sa last : Bytes) : Bytes → Bytes
  | [] => sa ++ last
  | c :: s =>
    if 0 < c ∧ c < 128 then toWinLoop sa (last ++ [c]) s
    else toWinLoop (sa ++ last ++ if c ≠ 0 then app (high c) else []) [] s

/-- The first loop of `to_utf8`, /repo/string.cc:1297-1324, with the end, /repo/string.cc:1326-1332. -/
def toLoop : Nat → Bool → Bytes → Bytes → Bytes → Bytes
  | n + 1, long, sa, last, c :: s =>
    if 0 < c ∧ c < 128 then toLoop n long sa (last ++ [c]) s
    else
      let k := skipChar (c :: s)
      if k ≠ 0 then toLoop n true sa (last ++ (c :: s).take k) ((c :: s).drop k)
      else if parseCesu (c :: s) ≠ 0 then toLoop n true (sa ++ last ++ app (parseCesu (c :: s))) [] (s.drop 5)
      else if c = 0 then toLoop n long (sa ++ last) [] s
      else if !long then toWinLoop sa last (c :: s)
      else toLoop n long (sa ++ last ++ app (high c)) [] s
  | _, _, sa, last, _ => sa ++ last

/-- Little-endian UTF-16 is recognized by its start, /repo/string.cc:1283-1284. -/
def looksLe (a b : Nat) : Bool := (a == 0xFF && b == 0xFE) || (decide (0 < a) && decide (a < 0x80) && b == 0)

/-- Big-endian UTF-16, /repo/string.cc:1286-1287. -/
def looksBe (a b : Nat) : Bool := (a == 0xFE && b == 0xFF) || (a == 0 && decide (0 < b) && decide (b < 0x80))

/-- `to_utf8` after the recognition of UTF-16, /repo/string.cc:1291-1351. -/
def toUtf8Rest (f : Flags) (s : Bytes) : Bytes :=
  let s := if s.length > 3 ∧ f.strip then skipBom s else s
  toLoop s.length false [] [] s

/-- `to_utf8`, /repo/string.cc:1278-1351. -/
def toUtf8 (f : Flags) (s : Bytes) : Bytes :=
  match s with
  | a :: b :: c :: t =>
    if looksLe a b then utf16ToUtf8 true f (a :: b :: c :: t)
    else if looksBe a b then utf16ToUtf8 false f (a :: b :: c :: t)
    else toUtf8Rest f (a :: b :: c :: t)
  | s => toUtf8Rest f s

end Verif.Text
