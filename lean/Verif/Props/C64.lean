import Verif.Text.Encode

/-!
# C64: encodings are undone by decoders, except for `printable`

Base 64 (/repo/string_base.hh:579-636) round-trips and the decoder accepts exactly the strings of digits whose number is not one more than
a multiple of four, after `=`s at the end are dropped.  `encode_uri_component` and `to_hex` are undone by percent- and hexadecimal
decoders.  What `hard_printable` writes with C escapes is undone by a reader of C escapes, but `printable` copies the string up to the
first byte that is not printable, with quotes and backslashes unescaped (/repo/string.cc:997-1006), so that different strings have the
same form.
-/
namespace Verif.Props.C64

open Verif.Text

/-! ## Base 64 -/

/-- Decoding undoes encoding, with or without padding. -/
theorem base64_round_trip (pad : Bool) {s : Bytes} (hs : ∀ c ∈ s, c < 256) : decodeBase64 (encodeBase64 pad s) = some s :=
  decode_encode pad hs

/-- The encoding has no characters but the 64 digits, and `=` at the end if it is padded. -/
theorem base64_alphabet (pad : Bool) {s : Bytes} (hs : ∀ c ∈ s, c < 256) :
    ∃ t k, encodeBase64 pad s = t ++ List.replicate k 61 ∧ (∀ c ∈ t, c ∈ encTable) ∧ k ≤ 2 ∧ (pad = false → k = 0) := by
  have h := (decode_encode_digits (le_refl _) hs).2
  cases pad with
  | false => exact ⟨_, 0, by simp, h, by omega, fun _ => rfl⟩
  | true =>
    obtain ⟨k, hk, e, -⟩ := encode_pad (le_refl s.length)
    exact ⟨_, k, e, h, hk, fun h => by cases h⟩

/-- A padded encoding has four characters for each three bytes begun. -/
theorem base64_padded_length (s : Bytes) : (encodeBase64 true s).length = (s.length + 2) / 3 * 4 := by
  obtain ⟨k, -, -, h⟩ := encode_pad (le_refl s.length)
  exact h

/-- The encoding fits in what is reserved, /repo/string_base.hh:581. -/
theorem base64_encode_fits (pad : Bool) (s : Bytes) : (encodeBase64 pad s).length ≤ (s.length + 2) * 4 / 3 := by
  obtain ⟨k, -, e, h⟩ := encode_pad (le_refl s.length)
  have : (encodeBase64 pad s).length ≤ (encodeBase64 true s).length := by
    cases pad with
    | true => exact le_refl _
    | false => rw [e, List.length_append]; omega
  omega

/-- The decoder accepts exactly strings of digits of a possible length, with any number of `=` after them. -/
theorem base64_accepts (s : Bytes) : (decodeBase64 s).isSome = true ↔
    ∃ t k, s = t ++ List.replicate k 61 ∧ (∀ c ∈ t, c ∈ encTable) ∧ t.length % 4 ≠ 1 := by
  unfold decodeBase64
  rw [decode_accepts_digits (le_refl _)]
  constructor
  · rintro ⟨h1, h2⟩
    refine ⟨_, (s.reverse.takeWhile (· == 61)).length, ?_, h1, h2⟩
    have e1 : List.replicate (s.reverse.takeWhile (· == 61)).length 61 = (s.reverse.takeWhile (· == 61)).reverse := by
      rw [eq_comm, List.eq_replicate_iff]
      refine ⟨by simp, fun b hb => ?_⟩
      rw [List.mem_reverse] at hb
      simpa using List.mem_takeWhile_imp hb
    rw [e1, ← List.reverse_append, List.takeWhile_append_dropWhile, List.reverse_reverse]
  · rintro ⟨t, k, rfl, h1, h2⟩
    have : 61 ∉ t := fun h => absurd (h1 _ h) (by decide)
    rw [strip_pad k this]
    exact ⟨h1, h2⟩

/-- What is decoded is bytes and fits in what is reserved, /repo/string_base.hh:608. -/
theorem base64_decode_fits {s r : Bytes} (h : decodeBase64 s = some r) : r.length ≤ s.length * 3 / 4 + 1 := by
  have h1 := decode_length (le_refl _) h
  have h2 : (s.reverse.dropWhile (· == 61)).reverse.length ≤ s.length := by
    rw [List.length_reverse, ← List.length_reverse (as := s)]
    exact List.length_dropWhile_le _ _
  rw [h1]
  have := Nat.div_le_div_right (c := 4) (Nat.mul_le_mul_right 3 h2)
  omega

/-- "Man" is "TWFu", "Ma" is "TWE=", "M" is "TQ==". -/
example : encodeBase64 true [77, 97, 110] = [84, 87, 70, 117] ∧ encodeBase64 true [77, 97] = [84, 87, 69, 61] ∧
    encodeBase64 true [77] = [84, 81, 61, 61] ∧ encodeBase64 false [77] = [84, 81] := by decide

example : decodeBase64 (encodeBase64 true [255, 0, 128, 7]) = some [255, 0, 128, 7] := base64_round_trip true (by decide)

/-- "TQ=" is accepted, "T" and "TQ=A" are not; bits that are left over are not looked at ("TR" is "M" too). -/
example : decodeBase64 [84, 81, 61] = some [77] ∧ decodeBase64 [84] = none ∧ decodeBase64 [84, 81, 61, 65] = none ∧
    decodeBase64 [84, 82] = some [77] := by decide

/-! ## Percent-encoding and hexadecimal digits -/

/-- Percent-decoding undoes `encode_uri_component`. -/
theorem uri_round_trip {s : Bytes} (hs : ∀ c ∈ s, c < 256) : unpercent (encodeUri s) = some s := by
  unfold encodeUri
  rw [uriLoop_eq]
  exact unpercent_uri hs

/-- Each byte is kept if it is a letter, a digit or one of `-_.~`, and otherwise is `%` and two digits. -/
theorem uri_bytewise (s : Bytes) : encodeUri s =
    s.flatMap fun c => if isDigit c || isAlpha c || c == 45 || c == 95 || c == 46 || c == 126 then [c] else [37, nibble (c / 16), nibble (c % 16)] := by
  unfold encodeUri
  rw [uriLoop_eq]
  rfl

/-- The encoding has unreserved characters and `%` alone. -/
theorem uri_alphabet {s : Bytes} (hs : ∀ c ∈ s, c < 256) : ∀ c ∈ encodeUri s, unreserved c = true ∨ c = 37 := by
  unfold encodeUri
  rw [uriLoop_eq]
  intro c hc
  simp only [List.nil_append, List.mem_flatMap] at hc
  obtain ⟨b, hb, hc⟩ := hc
  have := hs b hb
  have nib : ∀ {n}, n < 16 → unreserved (nibble n) = true := by
    intro n h
    have := nibble_alnum h
    unfold unreserved
    simp [this]
  unfold uriByte at hc
  split at hc
  · rename_i h
    rw [List.mem_singleton] at hc
    subst hc
    exact Or.inl h
  · simp only [List.mem_cons, List.not_mem_nil, or_false] at hc
    rcases hc with rfl | rfl | rfl
    · exact Or.inr rfl
    · exact Or.inl (nib (by omega))
    · exact Or.inl (nib (by omega))

/-- `to_hex` is undone by reading two hexadecimal digits for each byte. -/
theorem hex_round_trip {s : Bytes} (hs : ∀ c ∈ s, c < 256) : unhex (toHex s) = some s := toHex_spec hs

/-- "a b/" is "a%20b%2F"; the bytes 0, 171 are "00AB". -/
example : encodeUri [97, 32, 98, 47] = [97, 37, 50, 48, 98, 37, 50, 70] ∧ toHex [0, 171] = [48, 48, 65, 66] := by decide

example : unpercent (encodeUri [97, 32, 37, 255]) = some [97, 32, 37, 255] := uri_round_trip (by decide)

/-! ## Printable forms -/

/-- The result is printable, whatever the type. -/
theorem printable_printable (type : Nat) {s : Bytes} (hs : ∀ c ∈ s, c < 256) : ∀ c ∈ printable type s, 32 ≤ c ∧ c ≤ 126 := by
  intro c hc
  unfold printable at hc
  split at hc
  · rename_i i hi
    unfold hardPrintable at hc
    rcases List.mem_append.1 hc with h | h
    · rw [List.findIdx?_eq_some_iff_getElem] at hi
      obtain ⟨hl, -, hb⟩ := hi
      obtain ⟨j, hj, e⟩ := List.mem_iff_getElem.1 h
      rw [List.length_take] at hj
      have := hb j (by omega)
      rw [List.getElem_take] at e
      rw [e] at this
      simp only [Bool.or_eq_true, decide_eq_true_eq, not_or] at this
      omega
    · obtain ⟨b, hb, h⟩ := List.mem_flatMap.1 h
      exact escape_printable type (hs b ((List.drop_sublist _ _).subset hb)) c h
  · rename_i h
    rw [List.findIdx?_eq_none_iff] at h
    have := h c hc
    simp only [Bool.or_eq_false_iff, decide_eq_false_iff_not] at this
    omega

/-- C escapes from the start of the string: a reader of C escapes gives the string back. -/
theorem escaped_round_trip {s : Bytes} (hs : ∀ c ∈ s, c < 256) {n : Nat} (hn : s.length < n) : unescape n (hardPrintable s 0 2) = some s := by
  unfold hardPrintable
  simpa using unescape_all hs hn

/-- With C escapes the result is read back if there are no quotes and backslashes before the first byte that is not printable. -/
theorem printable_round_trip {s : Bytes} (hs : ∀ c ∈ s, c < 256) {u v : Bytes} {x : Nat} (e : s = u ++ x :: v)
    (hu : ∀ c ∈ u, 32 ≤ c ∧ c ≤ 126) (hx : x < 32 ∨ 126 < x) (hq : ∀ c ∈ u, c ≠ 92 ∧ c ≠ 34) {n : Nat} (hn : s.length < n) :
    unescape n (printable 2 s) = some s := by
  have hi : s.findIdx? (fun c => decide (c < 32) || decide (c > 126)) = some u.length := by
    rw [List.findIdx?_eq_some_iff_getElem]
    refine ⟨by rw [e]; simp, ?_, ?_⟩
    · subst e
      simpa using hx
    · intro j hj
      subst e
      rw [List.getElem_append_left hj]
      have := hu _ (List.getElem_mem hj)
      simp only [Bool.or_eq_true, decide_eq_true_eq, not_or]
      omega
  have ht : u.flatMap (escape 2) = u := by
    clear hi hn e
    induction u with
    | nil => rfl
    | cons c u ih =>
      have h1 := hu c List.mem_cons_self
      have h2 := hq c List.mem_cons_self
      rw [List.flatMap_cons, ih (fun c h => hu c (List.mem_cons_of_mem _ h)) (fun c h => hq c (List.mem_cons_of_mem _ h))]
      have : escape 2 c = [c] := by
        unfold escape
        rw [if_neg (by tauto), if_pos (by omega)]
      rw [this]; rfl
  have : printable 2 s = s.flatMap (escape 2) := by
    unfold printable
    rw [hi]
    simp only [hardPrintable]
    conv_rhs => rw [e, List.flatMap_append, ht]
    subst e
    simp
  rw [this]
  exact unescape_all hs hn

/-- A string of printable characters is returned as it is, with quotes and backslashes. -/
theorem printable_unchanged (type : Nat) {s : Bytes} (h : ∀ c ∈ s, 32 ≤ c ∧ c ≤ 126) : printable type s = s := by
  have : s.findIdx? (fun c => decide (c < 32) || decide (c > 126)) = none := by
    rw [List.findIdx?_eq_none_iff]
    intro c hc
    have := h c hc
    simp only [Bool.or_eq_false_iff, decide_eq_false_iff_not]
    omega
  unfold printable
  rw [this]

/-- Every string that is not printable as it stands has the same form as another string, for every type: its own form. -/
theorem printable_not_injective (type : Nat) {s : Bytes} (hs : ∀ c ∈ s, c < 256) (h : ∃ c ∈ s, c < 32 ∨ 126 < c) :
    printable type (printable type s) = printable type s ∧ printable type s ≠ s := by
  refine ⟨printable_unchanged type (printable_printable type hs), fun e => ?_⟩
  obtain ⟨c, hc, h⟩ := h
  have := printable_printable type hs c (by rw [e]; exact hc)
  omega

/-- A newline and the two characters backslash and `n` have the same form, and a quote is not escaped before a newline. -/
example : printable 2 [10] = [92, 110] ∧ printable 2 [92, 110] = [92, 110] ∧ printable 2 [34, 10, 34] = [34, 92, 110, 92, 34] := by decide

/-- Octal and control forms. -/
example : printable 0 [97, 1, 255] = [97, 94, 65, 92, 51, 55, 55] ∧ printable 1 [1] = [92, 48, 48, 49] := by decide

example : unescape 5 (printable 2 [97, 0, 34, 92]) = some [97, 0, 34, 92] :=
  printable_round_trip (u := [97]) (by decide) rfl (by decide) (by decide) (by decide) (by decide)

end Verif.Props.C64
