/-!
# Building messages about options

`Clp_BuildString` and `Clp_vbsprintf`, /repo/clp.c:2020-2221.

Simplifications: memory is not exhausted and sizes do not overflow; the parser is not in UTF-8 mode; the conversions
`%C`, `%d`, `%O` and `%V` are left out (`bad`); the argument of `%c` is not negative; that of `%s` is not null.
-/
namespace Verif.Message

abbrev Bytes := List UInt8

/-- `ub`: a write outside the buffer; `bad`: an argument of the wrong type, or a conversion that is left out. -/
inductive Out (α : Type) where
  | ok (a : α)
  | bad
  | ub

def Out.bind {α β : Type} : Out α → (α → Out β) → Out β
  | .ok a, f => f a
  | .bad, _ => .bad
  | .ub, _ => .ub

/-- `end_data - data` and the bytes in `[data, pos)`. -/
structure B where
  cap : Nat
  data : Bytes

/-- `build_string_init`, /repo/clp.c:2024, 2030-2032, without the name of the program (2033-2034), which is appended. -/
def B.init : B := ⟨256, []⟩

/-- The loop of `build_string_grow`, /repo/clp.c:2046-2047; the first number bounds its rounds. -/
def double (want : Nat) : Nat → Nat → Nat
  | 0, n => n
  | k + 1, n => if n < want then double want k (n * 2) else n

/-- `ENSURE_BUILD_STRING`, /repo/clp.c:2063-2065, with `build_string_grow`, 2042-2061. -/
def B.ensure (b : B) (space : Nat) : B :=
  if b.cap - b.data.length ≥ space then b
  else { b with cap := double (b.data.length + space) (b.data.length + space) (b.cap * 2) }

/-- Writes `s` and then `extra` bytes that do not count, at `pos`. -/
def B.store (b : B) (s : Bytes) (extra : Nat) : Out B :=
  if b.data.length + s.length + extra ≤ b.cap then .ok { b with data := b.data ++ s } else .ub

/-- `append_build_string`, /repo/clp.c:2067-2076. -/
def B.append (b : B) (s : Bytes) : Out B := (b.ensure s.length).store s 0

/-- `build_string_text`, /repo/clp.c:2213-2221: the zero byte is written at `pos`. -/
def B.text (b : B) : Out Bytes := if b.data.length + 1 ≤ b.cap then .ok b.data else .ub

/-- The text for a character: /repo/clp.c:2122-2135 without UTF-8. -/
def charText (c : Nat) : Bytes :=
  if 32 ≤ c ∧ c ≤ 126 then [UInt8.ofNat c]
  else if c < 32 then [94, UInt8.ofNat (c + 64)]
  else if c ≤ 255 then [92, UInt8.ofNat (48 + c / 64), UInt8.ofNat (48 + c / 8 % 8), UInt8.ofNat (48 + c % 8)]
  else [92, 63]

/-- `char_c`, /repo/clp.c:2120-2137; `sprintf` also writes a zero byte. -/
def B.char (b : B) (c : Nat) : Out B :=
  (b.ensure 4).store (charText c) (if 127 ≤ c ∧ c ≤ 255 then 1 else 0)

inductive Arg where
  | s (x : Bytes)
  | c (x : Nat)

/-- One conversion, /repo/clp.c:2099-2205: the character behind the percent sign. -/
def B.item (b : B) (x : UInt8) (args : List Arg) : Out (B × List Arg) :=
  if x = 115 then
    match args with
    | .s t :: as => (b.append t).bind fun b => .ok (b, as)
    | _ => .bad
  else if x = 99 then
    match args with
    | .c n :: as => (b.char n).bind fun b => .ok (b, as)
    | _ => .bad
  else if x = 67 ∨ x = 100 ∨ x = 79 ∨ x = 86 then .bad
  else if x = 37 then ((b.ensure 1).store [37] 0).bind fun b => .ok (b, args)
  else if x = 60 ∨ x = 44 ∨ x = 62 then (b.append [39]).bind fun b => .ok (b, args)
  else ((b.ensure 2).store [37, x] 0).bind fun b => .ok (b, args)

/-- The loop of `Clp_vbsprintf`, /repo/clp.c:2097-2210: `pre` is what of `fmt` has been passed over.  At the end of the format
behind a percent sign `fmt` is where it was, /repo/clp.c:2194-2196. -/
def B.format (b : B) : Bytes → Bytes → List Arg → Out B
  | pre, [], _ => b.append pre
  | pre, [x], _ =>
    if x = 37 then (b.append pre).bind fun b => (b.append [37]).bind fun b => b.append (pre ++ [37])
    else b.append (pre ++ [x])
  | pre, x :: y :: r, args =>
    if x = 37 then (b.append pre).bind fun b => (b.item y args).bind fun z => z.1.format [] r z.2
    else b.format (pre ++ [x]) (y :: r) args
termination_by _ fmt => fmt.length

end Verif.Message
