import Verif.Json.Round
import Verif.Json.Deep

/-!
# C53: printed Json is read back as the same value
-/
namespace Verif.Props.C53

open Verif.Json

/-- What `unparse` prints for a value, on one line or with any kind of indentation, `parse` reads back as that value.  `Fit 2048`: no
doubles, integers from -2^63 + 1 to 2^64 - 1, strings and keys the UTF-8 of characters other than U+0000, U+2028 and U+2029, distinct
keys, containers at most 2048 deep. -/
theorem round_trip {j : J} (hf : Fit 2048 j) (m : Man) : parse (unparse m j) = .ok j := parse_unparse hf m

/-- So different values are printed differently, whatever the manipulators. -/
theorem unparse_injective {i j : J} (hi : Fit 2048 i) (hj : Fit 2048 j) {m m' : Man} (h : unparse m i = unparse m' j) : i = j := by
  have h1 := parse_unparse hi m
  rw [h, parse_unparse hj m'] at h1
  exact (Res.ok.inj h1).symm

/-- The parser stops right after a printed value, so several can be read from one text.  `Stop`: a number must be followed by something
else than a digit, a point, or an `e`. -/
theorem stream {j : J} (hf : Fit 2048 j) (m : Man) {r : Bytes} (hr : Stop r) :
    P.consume {} (text m 0 j ++ r) true = ({ st := .final, res := j }, r) := by
  have hg : finish2 (feedAll {} (text m 0 j ++ r)) = ({ st := .final, res := j }, r) := by
    refine (fit_reads hf {} m 0 r rfl rfl (by simp) hr).trans ?_
    show finish2 (feedAll ({ st := .final, res := j } : P) _) = _
    rw [feedAll_over rfl]
    rfl
  rcases consume_out ok_start (text m 0 j ++ r) with ⟨_, h⟩ | h | ⟨_, h⟩
  · exact absurd (congrArg (fun x => x.1.st) hg) h
  · rw [h]; exact hg
  · exact absurd (congrArg (fun x => x.1.st) hg) h

/-! ## A case -/

/-- A text in which all characters are good. -/
theorem text_of (cs : List Char) (h : ∀ c ∈ cs, Good c) : Text (utf8 cs) := ⟨cs, rfl, h⟩

/-- `{"k∀":[1,-2,"a\n\"😀/",{}],"":[null,true]}`. -/
def sample : J := .obj [(utf8 ['k', '∀'], .arr [.num 1, .num (-2), .str (utf8 ['a', '\n', '"', '😀', '/']), .obj []]), (utf8 [], .arr [.null, .bool true])]

theorem sample_fit : Fit 2048 sample := by
  have g : ∀ cs : List Char, (∀ c ∈ cs, c ∈ ['k', '∀', 'a', '\n', '"', '😀', '/']) → Text (utf8 cs) := fun cs h =>
    text_of cs fun c hc => by
      have := h c hc
      simp only [List.mem_cons, List.not_mem_nil, or_false] at this
      rcases this with rfl | rfl | rfl | rfl | rfl | rfl | rfl <;> unfold Good <;> decide
  refine .obj _ _ (by decide) ?_ ?_
  · intro x hx
    simp only [List.mem_cons, List.not_mem_nil, or_false] at hx
    rcases hx with rfl | rfl
    · exact g _ (by simp)
    · exact g _ (by simp)
  · intro x hx
    simp only [List.mem_cons, List.not_mem_nil, or_false] at hx
    rcases hx with rfl | rfl
    · refine .arr _ _ fun x hx => ?_
      simp only [List.mem_cons, List.not_mem_nil, or_false] at hx
      rcases hx with rfl | rfl | rfl | rfl
      · exact .num _ _ (by decide)
      · exact .num _ _ (by decide)
      · exact .str _ _ (g _ (by simp))
      · exact .obj _ _ (by simp) (by simp) (by simp)
    · refine .arr _ _ fun x hx => ?_
      simp only [List.mem_cons, List.not_mem_nil, or_false] at hx
      rcases hx with rfl | rfl
      · exact .null _
      · exact .bool _ _

/-- Indented by two, with a newline at the end. -/
example : parse (unparse { tab := 2, nl := true, expanded := fun d _ => d < 2 } sample) = .ok sample := round_trip sample_fit _

/-- Two values in one text. -/
example : P.consume {} (text {} 0 sample ++ text {} 0 sample) true = ({ st := .final, res := sample }, text {} 0 sample) :=
  stream sample_fit _ (by intro b r h; rw [sample, text] at h; injection h with h1; subst h1; decide)

/-! ## The conditions are needed -/

/-- U+2028 is printed as an escape that the parser decodes to two bytes that are not UTF-8. -/
theorem line_separator : parse (unparse {} (.str (utf8 ['\u2028']))) = .ok (.str [0xC0, 0xA8]) := rfl

/-- U+0000 is printed as an escape that the parser refuses. -/
theorem zero_char : parse (unparse {} (.str [0])) = .fail := rfl

/-- A string that is not UTF-8 is printed as it is, which the parser refuses. -/
theorem not_utf8 : parse (unparse {} (.str [0xFF])) = .fail := rfl

/-- The value of a key that comes again is replaced, but if it is an array, the new value is appended to it. -/
theorem same_key : parse (utf8 "{\"a\":1,\"a\":2}".toList) = .ok (.obj [(utf8 ['a'], .num 2)]) ∧
    parse (utf8 "{\"a\":[1],\"a\":2}".toList) = .ok (.obj [(utf8 ['a'], .arr [.num 1, .num 2])]) := ⟨rfl, rfl⟩

/-- Integers that are too large are cut, and the smallest overflows. -/
theorem large : parse (utf8 "18446744073709551616".toList) = .ok (.num 0) ∧
    parse (utf8 "-18446744073709551615".toList) = .ok (.num 1) ∧ parse (utf8 "-9223372036854775808".toList) = .ub := ⟨rfl, rfl, rfl⟩

/-- One whitespace character may follow the value, not two. -/
theorem trailing : parse (utf8 "{}\n".toList) = .ok (.obj []) ∧ parse (utf8 "{}\r\n".toList) = .fail := ⟨rfl, rfl⟩

/-- Numbers without digits before the point or exponent are accepted after a minus sign. -/
theorem minus : parse (utf8 "-.5".toList) = .ok (.dbl (utf8 "-.5".toList)) ∧ parse (utf8 "-e5".toList) = .ok (.dbl (utf8 "-e5".toList)) ∧
    parse (utf8 ".5".toList) = .fail := ⟨rfl, rfl, rfl⟩

end Verif.Props.C53
