import Verif.Json.Str

/-!
# C55: the parser takes exactly the strings that are UTF-8, and decodes escapes
-/
namespace Verif.Props.C55

open Verif.Json

/-- A string without quotes and backslashes is accepted if and only if it is the UTF-8 of characters from U+0020 on: no overlong forms, no
surrogates, nothing above U+10FFFF, nothing cut off.  `Char` and `String.utf8EncodeChar` are those of Lean. -/
theorem utf8_only {t : Bytes} (h1 : 34 ∉ t) (h2 : 92 ∉ t) : (∃ j, parse (34 :: (t ++ [34])) = .ok j) ↔
    ∃ cs : List Char, t = cs.flatMap (fun c => (String.utf8EncodeChar c).map UInt8.toNat) ∧ ∀ c ∈ cs, 32 ≤ c.toNat := parse_raw h1 h2

/-- Then its value is the string as it is. -/
theorem raw {t : Bytes} (h1 : 34 ∉ t) (h2 : 92 ∉ t) {j : J} (h : parse (34 :: (t ++ [34])) = .ok j) : j = .str t := parse_raw_value h1 h2 h

/-- Characters can be written as they are, with a backslash and a letter, with `\u` and four digits of either case, or with two of these for
those above U+FFFF, in any mixture; the value is the UTF-8 of the characters. -/
theorem spelling {xs : List (Char × Bytes)} (h : ∀ x ∈ xs, Spelled x.1 x.2) :
    parse (34 :: (xs.flatMap Prod.snd ++ [34])) = .ok (.str (utf8 (xs.map Prod.fst))) := parse_spelling h

/-- `\u` and the number of a character are decoded to that character, except for U+0000, U+0800 to U+7FFF, U+FFFE and U+FFFF. -/
theorem escape {c : Char} (hc : c.toNat < 0x10000) (u1 u2 u3 u4 : Bool) :
    parse (34 :: 92 :: 117 :: (hex4 c.toNat u1 u2 u3 u4 ++ [34])) = .ok (.str (chr c)) ↔
      c.toNat ≠ 0 ∧ ¬ (0x800 ≤ c.toNat ∧ c.toNat < 0x8000) ∧ c.toNat ≠ 0xFFFE ∧ c.toNat ≠ 0xFFFF := parse_escape hc u1 u2 u3 u4

/-- `"é\né😀"`. -/
example : parse (34 :: ([0xC3, 0xA9] ++ [92, 110] ++ [92, 117, 48, 48, 101, 57] ++ [92, 117, 68, 56, 51, 68, 92, 117, 68, 69, 48, 48] ++ [34])) =
    .ok (.str (utf8 ['é', '\n', 'é', '😀'])) := by
  have := spelling (xs := [('é', chr 'é'), ('\n', 92 :: chr 'n'), ('é', 92 :: 117 :: hex4 0xE9 true true false true),
    ('😀', 92 :: 117 :: (hex4 0xD83D true true true true ++ 92 :: 117 :: hex4 0xDE00 true true true true))]) ?_
  · exact this
  · intro x hx
    simp only [List.mem_cons, List.not_mem_nil, or_false] at hx
    rcases hx with rfl | rfl | rfl | rfl
    · exact .raw _ (by decide)
    · exact .short _ _ (by simp)
    · exact .unicode 'é' (by decide) (by unfold EscapeOk; decide) true true false true
    · exact .pair '😀' (by decide) true true true true

/-- Not accepted: an overlong form, a surrogate, a number above U+10FFFF, a character cut off. -/
example : parse [34, 0xC0, 0xAF, 34] = .fail ∧ parse [34, 0xED, 0xA0, 0x80, 34] = .fail ∧ parse [34, 0xF4, 0x90, 0x80, 0x80, 34] = .fail ∧
    parse [34, 0xE2, 0x88, 34] = .fail := ⟨rfl, rfl, rfl, rfl⟩

/-- U+2200, `∀`, as an escape: two bytes instead of three. -/
theorem two_bytes : parse (34 :: 92 :: 117 :: (hex4 0x2200 true true true true ++ [34])) = .ok (.str [0xC8, 0x80]) := rfl

/-- The second half of a pair is refused with small letters. -/
theorem small_letters : parse (34 :: 92 :: 117 :: (hex4 0xD83D false false false false ++ 92 :: 117 :: (hex4 0xDE00 false false false false ++ [34]))) =
    .fail := rfl

end Verif.Props.C55
