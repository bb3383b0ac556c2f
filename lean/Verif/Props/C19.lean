import Verif.Msgpack.Parser

/-!
# C19: message encoding round-trips
-/
namespace Verif.Props.C19
open Verif.Msgpack Verif.Key

mutual
/-- A value up to the signedness tag of its integers, as `operator==` on `Json` compares them
(/repo/json.cc:546-563). -/
def value : Json → Json
  | .uint x => .int x
  | .arr l => .arr (values l)
  | .obj l => .obj (valueItems l)
  | .null => .null
  | .bool b => .bool b
  | .int x => .int x
  | .dbl d => .dbl d
  | .str s => .str s
def values : List Json → List Json
  | [] => []
  | j :: l => value j :: values l
def valueItems : List (Bytes × Json) → List (Bytes × Json)
  | [] => []
  | (k, j) :: l => (k, value j) :: valueItems l
end

mutual
/-- No integer in the value is marked unsigned. -/
def Signed : Json → Prop
  | .uint _ => False
  | .arr l => SignedList l
  | .obj l => SignedItems l
  | .null => True
  | .bool _ => True
  | .int _ => True
  | .dbl _ => True
  | .str _ => True
def SignedList : List Json → Prop
  | [] => True
  | j :: l => Signed j ∧ SignedList l
def SignedItems : List (Bytes × Json) → Prop
  | [] => True
  | (_, j) :: l => Signed j ∧ SignedItems l
end

mutual
theorem value_back : ∀ j : Json, value j.back = value j
  | .null => rfl
  | .bool _ => rfl
  | .int _ => rfl
  | .uint x => by
    show value (readUint x) = _
    unfold readUint
    split <;> rfl
  | .dbl _ => rfl
  | .str _ => rfl
  | .arr l => by
    show Json.arr (values (backs l)) = .arr (values l)
    rw [values_backs l]
  | .obj l => by
    show Json.obj (valueItems (backItems l)) = .obj (valueItems l)
    rw [valueItems_back l]
theorem values_backs : ∀ l : List Json, values (backs l) = values l
  | [] => rfl
  | j :: l => by
    show value j.back :: values (backs l) = value j :: values l
    rw [value_back j, values_backs l]
theorem valueItems_back : ∀ l : List (Bytes × Json), valueItems (backItems l) = valueItems l
  | [] => rfl
  | (k, j) :: l => by
    show (k, value j.back) :: valueItems (backItems l) = (k, value j) :: valueItems l
    rw [value_back j, valueItems_back l]
end

mutual
theorem back_signed : ∀ j : Json, Signed j → j.back = j
  | .null, _ => rfl
  | .bool _, _ => rfl
  | .int _, _ => rfl
  | .uint _, h => h.elim
  | .dbl _, _ => rfl
  | .str _, _ => rfl
  | .arr l, h => by
    show Json.arr (backs l) = .arr l
    rw [backs_signed l h]
  | .obj l, h => by
    show Json.obj (backItems l) = .obj l
    rw [backItems_signed l h]
theorem backs_signed : ∀ l : List Json, SignedList l → backs l = l
  | [], _ => rfl
  | j :: l, h => by
    show j.back :: backs l = j :: l
    rw [back_signed j h.1, backs_signed l h.2]
theorem backItems_signed : ∀ l : List (Bytes × Json), SignedItems l → backItems l = l
  | [], _ => rfl
  | (k, j) :: l, h => by
    show (k, j.back) :: backItems l = (k, j) :: l
    rw [back_signed j h.1, backItems_signed l h.2]
end

/-- Decoding an encoded value succeeds with an equal value and stops exactly at the end of the
encoding, whatever follows it.  Without unsigned integers, the value is the very same. -/
theorem round_trip (j : Json) (h : j.Fits) (rest : Bytes) :
    ∃ j', SP.init.consume (enc j ++ rest) = (⟨.final j', []⟩, rest) ∧ value j' = value j ∧ (Signed j → j' = j) :=
  ⟨j.back, consume_enc h rest, value_back j, back_signed j⟩

/-- The same through the loop of `conn::receive`, and so (C20) for any cutting into packets. -/
theorem round_trip_feed (j : Json) (h : j.Fits) (rest : Bytes) :
    ∃ j', SP.init.feed (enc j ++ rest) = (⟨.final j', []⟩, rest) ∧ value j' = value j := by
  have : SP.init.feed (enc j ++ rest) = SP.init.consume (enc j ++ rest) := feed_normal [] _
  exact ⟨j.back, by rw [this]; exact consume_enc h rest, value_back j⟩

/-- Encodings can be concatenated without ambiguity: no encoding is a prefix of another one, and
different values have different encodings. -/
theorem unambiguous (j j' : Json) (h : j.Fits) (h' : j'.Fits) (rest rest' : Bytes)
    (e : enc j ++ rest = enc j' ++ rest') : value j = value j' ∧ rest = rest' := by
  have h1 := consume_enc h rest
  have h2 := consume_enc h' rest'
  rw [e, h2, Prod.mk.injEq, SP.mk.injEq, Mode.final.injEq] at h1
  exact ⟨by rw [← value_back j, ← value_back j', h1.1.1], h1.2.symm⟩

/-- A sequence of messages sent one after the other is read back as that sequence. -/
def decodeMany : Nat → Bytes → Option (List Json × Bytes)
  | 0, bs => some ([], bs)
  | n + 1, bs =>
    match SP.init.consume bs with
    | (⟨.final j, _⟩, rest) => (decodeMany n rest).map fun (l, r) => (j :: l, r)
    | _ => none

theorem messages (l : List Json) (h : ∀ j ∈ l, j.Fits) (rest : Bytes) :
    ∃ l', decodeMany l.length (encs l ++ rest) = some (l', rest) ∧ values l' = values l := by
  induction l with
  | nil => exact ⟨[], rfl, rfl⟩
  | cons j l ih =>
    obtain ⟨l', h1, h2⟩ := ih (fun j' hj => h j' (by simp [hj]))
    refine ⟨j.back :: l', ?_, ?_⟩
    · have e : encs (j :: l) ++ rest = enc j ++ (encs l ++ rest) := by rw [← List.append_assoc]; rfl
      rw [List.length_cons, decodeMany, e, consume_enc (h j (by simp))]
      dsimp only
      rw [h1]; rfl
    · show value j.back :: values l' = value j :: values l
      rw [value_back, h2]

/-! ### The pointer parser -/

/-- Integers of all four C types that are written, over their full ranges. -/
theorem integers (rest : Bytes) :
    (∀ x : Int, -2 ^ 31 ≤ x → x < 2 ^ 31 → readInt (writeI32 x ++ rest) = some (x, rest)) ∧
    (∀ x : Nat, x < 2 ^ 32 → readInt (writeU32 x ++ rest) = some ((x : Int), rest)) ∧
    (∀ x : Int, -2 ^ 63 ≤ x → x < 2 ^ 63 → readInt (writeI64 x ++ rest) = some (x, rest)) ∧
    (∀ x : Nat, x < 2 ^ 64 → readInt (writeU64 x ++ rest) = some ((x : Int), rest)) :=
  ⟨fun x h h' => readInt_writeI32 (by omega) rest, fun x h => readInt_writeU32 (by omega) rest,
    fun x h h' => readInt_writeI64 (by omega) rest, fun x h => readInt_writeU64 (by omega) rest⟩

theorem strings (s rest : Bytes) (h : s.length < 2 ^ 31) : readStr (writeString s ++ rest) = some (s, rest) :=
  readStr_writeString (by omega) rest

theorem array_headers (n : Nat) (h : n < 2 ^ 32) (rest : Bytes) :
    readArrayHeader (writeArrayHeader n ++ rest) = some (n, rest) ∧
    skipArraySize (writeArrayHeader n ++ rest) = some rest :=
  ⟨readArrayHeader_write (by omega) rest, skipArraySize_write (by omega) rest⟩

/-- `skip_primitives` skips exactly the encodings of as many null values, booleans, 32-bit integers
and strings. -/
theorem skips (l : List Json) (h : ∀ j ∈ l, Skippable j) (rest : Bytes) :
    skipPrimitives l.length (encs l ++ rest) = some rest := skips_encs l h rest

/-- It does not skip a 64-bit integer or a double: it stays in front of it.  The server positions
itself in a put request this way (/repo/mtd.cc:978-979), so a client whose sequence number
needs 64 bits has its change set read from the wrong place. -/
theorem skip_wide_stays (x : Nat) (h : 2 ^ 32 ≤ x) (rest : Bytes) :
    skipPrimitive (enc (.uint x) ++ rest) = some (enc (.uint x) ++ rest) := by
  have e : enc (.uint x) = 0xCF :: be 8 x := if_neg (by omega)
  rw [e]; rfl

/-! ### Cases -/

/-- `[7, -33, 65535u, 2^63u, 1.5, true, null, "ab", {"k": [], "l": {"": -2^63}}]` -/
def demo : Json :=
  .arr [.int 7, .int (-33), .uint 65535, .uint 9223372036854775808, .dbl 0x3FF8000000000000, .bool true, .null,
    .str [97, 98], .obj [([107], .arr []), ([108], .obj [([], .int (-9223372036854775808))])]]

example : demo.Fits := by
  simp [demo, Json.Fits, FitsList, FitsItems]

example : Signed (.arr [.int (-1), .str [1, 2]]) := by simp [Signed, SignedList]
example : enc (.arr [.int (-1), .uint 200, .str [1, 2]]) = [0x93, 0xFF, 0xCC, 0xC8, 0xA2, 1, 2] := by decide +kernel
example : ∀ j ∈ [Json.int 5, .str [1], .uint 70000], Skippable j := by simp [Skippable]

end Verif.Props.C19
