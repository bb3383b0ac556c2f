import Verif.Text.UtfSpec

/-!
# C66: conversions to UTF-8 read their input as they should, but write characters from U+0800 to U+7FFF wrongly

`utf8_to_utf8` and `cesu8_to_utf8` (/repo/string.cc:1208-1271) give well-formed UTF-8 for every input and leave well-formed text alone;
`cesu8_to_utf8` never writes the replacement character it is asked for.  The conversions from UTF-16 and Windows-1252 read their input
rightly, but write with `append_utf8`, which is wrong from U+0800 to U+7FFF; the table for Windows-1252 has two wrong entries
(/repo/string.cc:1104-1109).
-/
namespace Verif.Props.C66

open Verif.Text
open Verif.Json (Bytes cont chr utf8 chr_eq char_range char_of cont_iff)

/-! ## UTF-8 -/

/-- `skip_utf8_char` goes over exactly the characters other than zero. -/
theorem skips {s : Bytes} {k : Nat} (hk : k ≠ 0) : skipChar s = k ↔ ∃ c : Char, c.toNat ≠ 0 ∧ chr c <+: s ∧ (chr c).length = k := by
  constructor
  · rintro rfl
    obtain ⟨c, hc, e1, e2⟩ := skip_some hk
    refine ⟨c, hc, ⟨_, e1.symm⟩, ?_⟩
    have := skip_chr hc (s.drop (skipChar s))
    rw [← e1] at this
    exact this.symm
  · rintro ⟨c, hc, ⟨t, rfl⟩, rfl⟩
    exact skip_chr hc t

/-- `utf8_to_utf8` keeps the characters and drops or replaces bad bytes, each with the continuation bytes after it. -/
theorem utf8_pieces (f : Flags) (hf : f.strip = false) (s : Bytes) :
    ∃ ps, Reads false s ps ∧ utf8ToUtf8 f s = ps.flatMap (render f.repl) := by
  obtain ⟨ps, r, e⟩ := utf8Loop_spec f.repl s.length [] [] s (le_refl _)
  refine ⟨ps, r, ?_⟩
  unfold utf8ToUtf8
  simp only [hf, Bool.false_eq_true, if_false]
  simpa using e

/-- The pieces are unique, so that this determines the result. -/
theorem pieces_unique {cesu : Bool} {s : Bytes} {ps qs : List Piece} (h : Reads cesu s ps) (h' : Reads cesu s qs) : ps = qs :=
  reads_unique h h'

/-- A byte order mark at the start is dropped if that is asked for. -/
theorem utf8_bom (f : Flags) (hf : f.strip = true) (s : Bytes) : utf8ToUtf8 f (chr '\uFEFF' ++ s) = utf8ToUtf8 { f with strip := false } s := by
  have e : chr '\uFEFF' = [0xEF, 0xBB, 0xBF] := by decide
  unfold utf8ToUtf8
  simp only [e, hf, if_true, List.cons_append, List.nil_append, skipBom, and_self, Bool.false_eq_true, if_false]

theorem utf8_no_bom (f : Flags) {s : Bytes} (hs : ¬ chr '\uFEFF' <+: s) : utf8ToUtf8 f s = utf8ToUtf8 { f with strip := false } s := by
  have e : chr '\uFEFF' = [0xEF, 0xBB, 0xBF] := by decide
  have : skipBom s = s := by
    match s with
    | [] => rfl
    | [_] => rfl
    | [_, _] => rfl
    | a :: b :: c :: s =>
      show (if _ then _ else _) = _
      rw [if_neg]
      rintro ⟨rfl, rfl, rfl⟩
      exact hs ⟨s, by rw [e]; rfl⟩
  unfold utf8ToUtf8
  simp only [this, ite_self]

theorem rendered (repl : Bool) (ps : List Piece) {cesu : Bool} {s : Bytes} (h : Reads cesu s ps) :
    ∃ cs : List Char, ps.flatMap (render repl) = utf8 cs ∧ ∀ c ∈ cs, c.toNat ≠ 0 := by
  induction h with
  | nil => exact ⟨[], rfl, by simp⟩
  | @good c s ps hc _ ih =>
    obtain ⟨cs, e, h⟩ := ih
    refine ⟨c :: cs, by rw [List.flatMap_cons, e]; rfl, fun d hd => ?_⟩
    rcases List.mem_cons.1 hd with rfl | hd
    · exact hc
    · exact h d hd
  | @pair c s ps _ hc _ ih =>
    obtain ⟨cs, e, h⟩ := ih
    refine ⟨c :: cs, by rw [List.flatMap_cons, e]; rfl, fun d hd => ?_⟩
    rcases List.mem_cons.1 hd with rfl | hd
    · omega
    · exact h d hd
  | @bad b k s ps _ _ _ _ _ ih =>
    obtain ⟨cs, e, h⟩ := ih
    by_cases hr : repl = true ∧ b ≠ 0
    · refine ⟨'�' :: cs, by rw [List.flatMap_cons, e, render, if_pos hr]; rfl, fun d hd => ?_⟩
      rcases List.mem_cons.1 hd with rfl | hd
      · decide
      · exact h d hd
    · exact ⟨cs, by rw [List.flatMap_cons, e, render, if_neg hr]; rfl, h⟩

/-- The result is always well-formed and without zeros. -/
theorem utf8_valid (f : Flags) (s : Bytes) : ∃ cs : List Char, utf8ToUtf8 f s = utf8 cs ∧ ∀ c ∈ cs, c.toNat ≠ 0 := by
  have : ∀ s, ∃ cs : List Char, utf8ToUtf8 { f with strip := false } s = utf8 cs ∧ ∀ c ∈ cs, c.toNat ≠ 0 := by
    intro s
    obtain ⟨ps, r, e⟩ := utf8_pieces { f with strip := false } rfl s
    rw [e]
    exact rendered _ ps r
  by_cases hb : chr '\uFEFF' <+: s ∧ f.strip = true
  · obtain ⟨⟨t, rfl⟩, hf⟩ := hb
    rw [utf8_bom f hf]
    exact this t
  · by_cases hf : f.strip = true
    · rw [utf8_no_bom f (fun h => hb ⟨h, hf⟩)]
      exact this s
    · have e : f = { f with strip := false } := by
        cases f
        simpa using hf
      rw [e]
      exact this s

theorem good_reads {cesu : Bool} {cs : List Char} (h : ∀ c ∈ cs, c.toNat ≠ 0) : Reads cesu (utf8 cs) (cs.map .good) := by
  induction cs with
  | nil => exact .nil
  | cons c cs ih => exact .good (h c List.mem_cons_self) (ih fun c hc => h c (List.mem_cons_of_mem _ hc))

theorem good_rendered (repl : Bool) (cs : List Char) : (cs.map Piece.good).flatMap (render repl) = utf8 cs := by
  induction cs with
  | nil => rfl
  | cons c cs ih => rw [List.map_cons, List.flatMap_cons, ih]; rfl

/-- Well-formed text without zeros is not changed. -/
theorem utf8_identity (f : Flags) (hf : f.strip = false) {cs : List Char} (h : ∀ c ∈ cs, c.toNat ≠ 0) : utf8ToUtf8 f (utf8 cs) = utf8 cs := by
  obtain ⟨ps, r, e⟩ := utf8_pieces f hf (utf8 cs)
  rw [e, reads_unique r (good_reads h), good_rendered]

/-! ## CESU-8 -/

/-- `cesu8_to_utf8` keeps the characters, joins pairs of surrogates and drops bad bytes, also if it is asked to replace them. -/
theorem cesu8_pieces (f : Flags) (hf : f.strip = false) (s : Bytes) :
    ∃ ps, Reads true s ps ∧ cesu8ToUtf8 f s = ps.flatMap (render false) := by
  obtain ⟨ps, r, e⟩ := cesu8Loop_spec f.repl s.length [] [] s (le_refl _)
  refine ⟨ps, r, ?_⟩
  unfold cesu8ToUtf8
  simp only [hf, Bool.false_eq_true, if_false]
  simpa using e

theorem cesu8_valid (f : Flags) (hf : f.strip = false) (s : Bytes) : ∃ cs : List Char, cesu8ToUtf8 f s = utf8 cs ∧ ∀ c ∈ cs, c.toNat ≠ 0 := by
  obtain ⟨ps, r, e⟩ := cesu8_pieces f hf s
  rw [e]
  exact rendered _ ps r

/-- CESU-8 of characters: those from U+10000 on as pairs of surrogates. -/
def cesu8 (cs : List Char) : Bytes := cs.flatMap fun c => if 0x10000 ≤ c.toNat then cesuChr c else chr c

/-- CESU-8 becomes UTF-8. -/
theorem cesu8_converts (f : Flags) (hf : f.strip = false) {cs : List Char} (h : ∀ c ∈ cs, c.toNat ≠ 0) : cesu8ToUtf8 f (cesu8 cs) = utf8 cs := by
  obtain ⟨ps, r, e⟩ := cesu8_pieces f hf (cesu8 cs)
  have : ∃ qs, Reads true (cesu8 cs) qs ∧ qs.flatMap (render false) = utf8 cs := by
    clear r e
    induction cs with
    | nil => exact ⟨[], .nil, rfl⟩
    | cons c cs ih =>
      obtain ⟨qs, r, e⟩ := ih fun c hc => h c (List.mem_cons_of_mem _ hc)
      by_cases hc : 0x10000 ≤ c.toNat
      · refine ⟨.pair c :: qs, ?_, by rw [List.flatMap_cons, e]; rfl⟩
        have : cesu8 (c :: cs) = cesuChr c ++ cesu8 cs := by simp only [cesu8, List.flatMap_cons, if_pos hc]
        rw [this]; exact .pair rfl hc r
      · refine ⟨.good c :: qs, ?_, by rw [List.flatMap_cons, e]; rfl⟩
        have : cesu8 (c :: cs) = chr c ++ cesu8 cs := by simp only [cesu8, List.flatMap_cons, if_neg hc]
        rw [this]; exact .good (h c List.mem_cons_self) r
  obtain ⟨qs, r', e'⟩ := this
  rw [e, reads_unique r r', e']

/-- The replacement character is never written for a bad byte (/repo/string.cc:1221-1229: the byte was overwritten with zero). -/
theorem cesu8_never_replaces (s : Bytes) (strip repl le : Bool) (hf : strip = false) :
    cesu8ToUtf8 ⟨strip, repl, le⟩ s = cesu8ToUtf8 ⟨strip, false, le⟩ s := by
  obtain ⟨ps, r, e⟩ := cesu8_pieces ⟨strip, repl, le⟩ hf s
  obtain ⟨qs, r', e'⟩ := cesu8_pieces ⟨strip, false, le⟩ hf s
  rw [e, e', reads_unique r r']

/-- "a", a bad byte, "b": `utf8_to_utf8` replaces it, `cesu8_to_utf8` does not. -/
example : utf8ToUtf8 ⟨false, true, false⟩ [97, 0xFF, 0x80, 98] = [97, 0xEF, 0xBF, 0xBD, 98] ∧
    cesu8ToUtf8 ⟨false, true, false⟩ [97, 0xFF, 0x80, 98] = [97, 98] := by decide

/-- U+1F600 in CESU-8. -/
example : cesu8ToUtf8 ⟨false, false, false⟩ [0xED, 0xA0, 0xBD, 0xED, 0xB8, 0x80] = chr '😀' := by decide

example : utf8ToUtf8 ⟨false, true, false⟩ (utf8 ['a', 'é', '€', '😀']) = utf8 ['a', 'é', '€', '😀'] := utf8_identity _ rfl (by decide)

/-! ## UTF-16 -/

/-- The words of a character. -/
def words (c : Char) : List Nat :=
  if c.toNat < 0x10000 then [c.toNat] else [0xD800 + (c.toNat - 0x10000) / 1024, 0xDC00 + (c.toNat - 0x10000) % 1024]

/-- The bytes of a word. -/
def wordBytes (le : Bool) (w : Nat) : Bytes := if le then [w % 256, w / 256] else [w / 256, w % 256]

/-- How words are read: as characters and surrogates that are alone. -/
inductive Reads16 : List Nat → List (Char ⊕ Nat) → Prop where
  | nil : Reads16 [] []
  | chr {c : Char} {ws ps} : Reads16 ws ps → Reads16 (words c ++ ws) (.inl c :: ps)
  | lone {w : Nat} {ws ps} : 0xD800 ≤ w → w < 0xE000 → (w < 0xDC00 → ∀ x, ws.head? = some x → ¬ (0xDC00 ≤ x ∧ x < 0xE000)) →
      Reads16 ws ps → Reads16 (w :: ws) (.inr w :: ps)

/-- What is written for them; characters go through `append_utf8`. -/
def render16 (repl : Bool) : Char ⊕ Nat → Bytes
  | .inl c => app c.toNat
  | .inr _ => if repl then chr '�' else []

theorem word_pair (le : Bool) {w : Nat} : ∃ a b, wordBytes le w = [a, b] ∧ pair le a b = (w / 256, w % 256) := by
  cases le
  · exact ⟨_, _, rfl, rfl⟩
  · exact ⟨_, _, rfl, rfl⟩

theorem utf16Loop_spec (le repl : Bool) (n : Nat) : ∀ (sa : Bytes) (ws : List Nat), ws.length ≤ n → (∀ w ∈ ws, w < 65536) →
    ∃ ps, Reads16 ws ps ∧ utf16Loop le repl n sa (ws.flatMap (wordBytes le)) = sa ++ ps.flatMap (render16 repl) := by
  induction n with
  | zero =>
    intro sa ws h _
    rw [List.length_eq_zero_iff.1 (by omega : ws.length = 0)]
    exact ⟨[], .nil, by simp [utf16Loop]⟩
  | succ n ih =>
    intro sa ws h hw
    cases ws with
    | nil => exact ⟨[], .nil, by simp [utf16Loop]⟩
    | cons w ws =>
      have hl : ws.length ≤ n := by simpa using h
      have hw0 := hw w List.mem_cons_self
      have hw' : ∀ w ∈ ws, w < 65536 := fun x hx => hw x (List.mem_cons_of_mem _ hx)
      obtain ⟨a, b, e1, e2⟩ := word_pair le (w := w)
      rw [List.flatMap_cons, e1]
      simp only [List.cons_append, List.nil_append]
      have ec : (pair le a b).1 * 256 + (pair le a b).2 = w := by rw [e2]; simp only; omega
      by_cases h1 : w < 0xD800 ∨ 0xE000 ≤ w
      · unfold utf16Loop
        simp only [ec]
        rw [if_pos h1]
        obtain ⟨c, hc⟩ := char_of (n := w) (by omega)
        obtain ⟨ps, r, e⟩ := ih (sa ++ app w) ws hl hw'
        refine ⟨.inl c :: ps, ?_, by rw [e]; simp [render16, hc]⟩
        have : words c = [w] := by unfold words; rw [hc, if_pos hw0]
        exact (by rw [this]; rfl : words c ++ ws = w :: ws) ▸ Reads16.chr r
      · have lone : (w < 0xDC00 → ∀ x, ws.head? = some x → ¬ (0xDC00 ≤ x ∧ x < 0xE000)) →
            ∃ ps, Reads16 (w :: ws) ps ∧ utf16Loop le repl n (if w ≠ 0 ∧ repl then sa ++ app replacement else sa) (ws.flatMap (wordBytes le)) =
              sa ++ ps.flatMap (render16 repl) := by
          intro hn
          obtain ⟨ps, r, e⟩ := ih (if w ≠ 0 ∧ repl then sa ++ app replacement else sa) ws hl hw'
          refine ⟨.inr w :: ps, .lone (by omega) (by omega) hn r, ?_⟩
          rw [e, app_replacement, List.flatMap_cons, render16]
          cases repl
          · simp
          · rw [if_pos ⟨by omega, rfl⟩]; simp
        cases ws with
        | nil =>
          unfold utf16Loop
          simp only [List.flatMap_nil, ec]
          rw [if_neg h1]
          exact lone (fun _ x hx => by cases hx)
        | cons v ws =>
          obtain ⟨x, y, e3, e4⟩ := word_pair le (w := v)
          have hv := hw' v List.mem_cons_self
          rw [List.flatMap_cons, e3]
          simp only [List.cons_append, List.nil_append]
          rw [utf16Loop]
          simp only [ec, e4]
          rw [if_neg h1]
          by_cases h2 : w < 0xDC00 ∧ 0xDC ≤ v / 256 ∧ v / 256 < 0xE0
          · rw [if_pos h2]
            obtain ⟨c, hc⟩ := char_of (n := 0x10000 + (w - 0xD800) * 1024 + (v / 256 % 4) * 256 + v % 256) (by omega)
            have hl' : ws.length ≤ n := by simp only [List.length_cons] at hl; omega
            obtain ⟨ps, r, e⟩ := ih (sa ++ app c.toNat) ws hl' (fun x hx => hw' x (List.mem_cons_of_mem _ hx))
            refine ⟨.inl c :: ps, ?_, by rw [← hc, e]; simp [render16]⟩
            have : words c = [w, v] := by
              unfold words
              rw [hc, if_neg (by omega)]
              simp only [List.cons.injEq, and_true]
              omega
            exact (by rw [this]; rfl : words c ++ ws = w :: v :: ws) ▸ Reads16.chr r
          · rw [if_neg h2]
            have e5 : x :: y :: ws.flatMap (wordBytes le) = (v :: ws).flatMap (wordBytes le) := by
              rw [List.flatMap_cons, e3]; rfl
            rw [e5]
            refine lone (fun hw z hz => ?_)
            simp only [List.head?_cons, Option.some.injEq] at hz
            subst hz
            omega

theorem even_length (le : Bool) (ws : List Nat) : (ws.flatMap (wordBytes le)).length = 2 * ws.length := by
  induction ws with
  | nil => rfl
  | cons w ws ih =>
    obtain ⟨a, b, e, -⟩ := word_pair le (w := w)
    rw [List.flatMap_cons, List.length_append, ih, e, List.length_cons]
    simp only [List.length_cons, List.length_nil]
    omega

/-- The conversion from UTF-16 reads the words rightly, drops a byte that is left over, and drops or replaces lone surrogates. -/
theorem utf16_pieces (le : Bool) (f : Flags) (hf : f.strip = false) {ws : List Nat} (hw : ∀ w ∈ ws, w < 65536) {t : Bytes} (ht : t.length ≤ 1) :
    ∃ ps, Reads16 ws ps ∧ utf16ToUtf8 le f (ws.flatMap (wordBytes le) ++ t) = ps.flatMap (render16 f.repl) := by
  have hl := even_length le ws
  have e : (if (ws.flatMap (wordBytes le) ++ t).length % 2 = 1 then (ws.flatMap (wordBytes le) ++ t).dropLast
      else ws.flatMap (wordBytes le) ++ t) = ws.flatMap (wordBytes le) := by
    rw [List.length_append, hl]
    match t with
    | [] => rw [if_neg (by simp)]; simp
    | [x] => rw [if_pos (by simp only [List.length_cons, List.length_nil]; omega)]; simp
    | _ :: _ :: _ => simp at ht
  obtain ⟨ps, r, e'⟩ := utf16Loop_spec le f.repl (ws.flatMap (wordBytes le)).length [] ws (by omega) hw
  refine ⟨ps, r, ?_⟩
  unfold utf16ToUtf8
  simp only [e, hf, Bool.false_and, Bool.false_eq_true, if_false]
  rw [List.nil_append] at e'
  rw [← e']
  generalize ws.flatMap (wordBytes le) = l
  rcases l with _ | ⟨_, _ | ⟨_, _⟩⟩ <;> rfl

/-- The characters that `append_utf8` writes rightly. -/
def Right (c : Char) : Prop := c.toNat ≠ 0 ∧ ¬ (0x800 ≤ c.toNat ∧ c.toNat < 0x8000) ∧ c.toNat ≠ 0xFFFE ∧ c.toNat ≠ 0xFFFF

theorem words_lt (c : Char) : ∀ w ∈ words c, w < 65536 := by
  have := char_range c
  intro w hw
  unfold words at hw
  split at hw
  · simp only [List.mem_cons, List.not_mem_nil, or_false] at hw; omega
  · simp only [List.mem_cons, List.not_mem_nil, or_false] at hw; omega

theorem words_cases (c : Char) : (words c = [c.toNat] ∧ (c.toNat < 0xD800 ∨ 0xDFFF < c.toNat) ∧ c.toNat < 0x10000) ∨
    ∃ h l, words c = [h, l] ∧ 0xD800 ≤ h ∧ h < 0xDC00 ∧ 0xDC00 ≤ l ∧ l < 0xE000 ∧ c.toNat = 0x10000 + (h - 0xD800) * 1024 + (l - 0xDC00) := by
  have := char_range c
  unfold words
  by_cases h : c.toNat < 0x10000
  · rw [if_pos h]; exact Or.inl ⟨rfl, by omega, h⟩
  · rw [if_neg h]; exact Or.inr ⟨_, _, rfl, by omega, by omega, by omega, by omega, by omega⟩

/-- The reading of words is unique. -/
theorem reads16_unique {ws : List Nat} {ps : List (Char ⊕ Nat)} (h : Reads16 ws ps) : ∀ {qs}, Reads16 ws qs → ps = qs := by
  induction h with
  | nil =>
    intro qs h
    generalize hs : ([] : List Nat) = s at h
    cases h with
    | nil => rfl
    | @chr d => rcases words_cases d with ⟨e, -⟩ | ⟨h, l, e, -⟩ <;> rw [e] at hs <;> cases hs
    | lone => cases hs
  | @chr c ws ps _ ih =>
    intro qs h
    generalize hs : words c ++ ws = s at h
    cases h with
    | nil => rcases words_cases c with ⟨e, -⟩ | ⟨h, l, e, -⟩ <;> rw [e] at hs <;> cases hs
    | @chr d vs qs h' =>
      have : c = d ∧ ws = vs := by
        rcases words_cases c with ⟨e, h1, h2⟩ | ⟨h, l, e, h1, h2, h3, h4, h5⟩ <;>
          rcases words_cases d with ⟨e', g1, g2⟩ | ⟨h', l', e', g1, g2, g3, g4, g5⟩ <;>
          rw [e, e'] at hs <;> simp only [List.cons_append, List.nil_append, List.cons.injEq] at hs
        · exact ⟨Char.ext (UInt32.toNat_inj.1 hs.1), hs.2⟩
        · omega
        · omega
        · exact ⟨Char.ext (UInt32.toNat_inj.1 (by show c.toNat = d.toNat; omega)), hs.2.2⟩
      obtain ⟨rfl, rfl⟩ := this
      rw [ih h']
    | @lone w vs qs h1 h2 h3 h' =>
      exfalso
      rcases words_cases c with ⟨e, g1, g2⟩ | ⟨h, l, e, g1, g2, g3, g4, g5⟩ <;> rw [e] at hs <;>
        simp only [List.cons_append, List.nil_append, List.cons.injEq] at hs
      · omega
      · exact h3 (by omega) l (by rw [← hs.2]; rfl) ⟨g3, g4⟩
  | @lone w ws ps h1 h2 h3 _ ih =>
    intro qs h
    generalize hs : w :: ws = s at h
    cases h with
    | nil => cases hs
    | @chr c vs qs h' =>
      exfalso
      rcases words_cases c with ⟨e, g1, g2⟩ | ⟨h, l, e, g1, g2, g3, g4, g5⟩ <;> rw [e] at hs <;>
        simp only [List.cons_append, List.nil_append, List.cons.injEq] at hs
      · omega
      · exact h3 (by omega) l (by rw [hs.2]; rfl) ⟨g3, g4⟩
    | @lone v vs qs g1 g2 g3 h' =>
      obtain ⟨rfl, rfl⟩ := List.cons.inj hs
      rw [ih h']

theorem chars_reads (cs : List Char) : Reads16 (cs.flatMap words) (cs.map .inl) := by
  induction cs with
  | nil => exact .nil
  | cons c cs ih => rw [List.flatMap_cons]; exact .chr ih

/-- UTF-16 text of characters that `append_utf8` writes rightly becomes UTF-8, in both byte orders. -/
theorem utf16_converts (le : Bool) (f : Flags) (hf : f.strip = false) {cs : List Char} (h : ∀ c ∈ cs, Right c) :
    utf16ToUtf8 le f ((cs.flatMap words).flatMap (wordBytes le)) = utf8 cs := by
  have hw : ∀ w ∈ cs.flatMap words, w < 65536 := by
    intro w hw
    obtain ⟨c, -, hc⟩ := List.mem_flatMap.1 hw
    exact words_lt c w hc
  obtain ⟨ps, r, e⟩ := utf16_pieces le f hf hw (t := []) (by simp)
  rw [List.append_nil] at e
  rw [e, reads16_unique r (chars_reads cs)]
  clear e r hw
  induction cs with
  | nil => rfl
  | cons c cs ih =>
    have hc := h c List.mem_cons_self
    rw [List.map_cons, List.flatMap_cons, ih (fun c hc => h c (List.mem_cons_of_mem _ hc)), render16,
      app_chr hc.1 hc.2.1 hc.2.2.1 hc.2.2.2]
    rfl

/-- Every other character is converted wrongly. -/
theorem utf16_wrong (le : Bool) (f : Flags) (hf : f.strip = false) {c : Char} (h : ¬ Right c) :
    utf16ToUtf8 le f ((words c).flatMap (wordBytes le)) ≠ chr c := by
  obtain ⟨ps, r, e⟩ := utf16_pieces le f hf (words_lt c) (t := []) (by simp)
  rw [List.append_nil] at e
  have := chars_reads [c]
  rw [List.flatMap_cons, List.flatMap_nil, List.append_nil] at this
  rw [e, reads16_unique r this]
  simp only [List.map_cons, List.map_nil, List.flatMap_cons, List.flatMap_nil, List.append_nil, render16]
  intro h'
  unfold app at h'
  cases ha : Verif.Json.appendUtf8 c.toNat with
  | none =>
    rw [ha] at h'
    have := (chr_length c).1
    rw [← h'] at this
    cases this
  | some u =>
    rw [ha, Option.getD_some] at h'
    rw [h'] at ha
    exact h ((Verif.Json.append_iff c).1 ha)

/-- A byte order mark at the start is dropped if that is asked for. -/
theorem utf16_bom (le : Bool) (f : Flags) (hf : f.strip = true) (s : Bytes) :
    utf16ToUtf8 le f (wordBytes le 0xFEFF ++ s) = utf16ToUtf8 le { f with strip := false } s := by
  have key : ∀ a b : Nat, pair le a b = (0xFE, 0xFF) →
      utf16ToUtf8 le f (a :: b :: s) = utf16ToUtf8 le { f with strip := false } s := by
    intro a b e
    unfold utf16ToUtf8
    simp only [hf, Bool.true_and, Bool.false_and, Bool.false_eq_true, if_false]
    have el : (a :: b :: s).length % 2 = s.length % 2 := by simp only [List.length_cons]; omega
    rw [el]
    by_cases hs : s.length % 2 = 1
    · rw [if_pos hs, if_pos hs]
      have : (a :: b :: s).dropLast = a :: b :: s.dropLast := by
        cases s with
        | nil => simp at hs
        | cons x s => rfl
      rw [this]
      simp only [e, beq_self_eq_true, Bool.and_self, if_true]
      generalize s.dropLast = l
      rcases l with _ | ⟨_, _ | ⟨_, _⟩⟩ <;> rfl
    · rw [if_neg hs, if_neg hs]
      simp only [e, beq_self_eq_true, Bool.and_self, if_true]
      rcases s with _ | ⟨_, _ | ⟨_, _⟩⟩ <;> rfl
  cases le
  · exact key _ _ rfl
  · exact key _ _ rfl

/-- `utf16_to_utf8` takes the byte order from the mark, and otherwise from the flag. -/
theorem utf16_order (f : Flags) (s : Bytes) (le : Bool) : utf16 f (wordBytes le 0xFEFF ++ s) = utf16ToUtf8 le f (wordBytes le 0xFEFF ++ s) := by
  cases le
  · show utf16 f (0xFE :: 0xFF :: s) = _
    unfold utf16
    simp only [Nat.reduceMul, Nat.reduceAdd, true_or, if_true]
    rfl
  · show utf16 f (0xFF :: 0xFE :: s) = _
    unfold utf16
    simp only [Nat.reduceMul, Nat.reduceAdd, Nat.reduceEqDiff, ne_eq, not_true, false_and, or_false, if_false]
    rfl

/-- U+4E2D in UTF-16 gives the bytes F8 AD, which are no UTF-8; U+1F600 is right. -/
example : utf16ToUtf8 false ⟨false, false, false⟩ [0x4E, 0x2D] = [0xF8, 0xAD] ∧
    utf16ToUtf8 true ⟨false, false, false⟩ [0x3D, 0xD8, 0x00, 0xDE] = chr '😀' := by decide

example : utf16ToUtf8 true ⟨false, false, false⟩ (((['h', 'é', '😀'] : List Char).flatMap words).flatMap (wordBytes true)) = utf8 ['h', 'é', '😀'] :=
  utf16_converts true _ rfl (by unfold Right; decide)

example : utf16ToUtf8 false ⟨false, false, false⟩ ((words '中').flatMap (wordBytes false)) ≠ chr '中' :=
  utf16_wrong false _ rfl (by unfold Right; decide)

/-! ## Windows-1252 -/

/-- Windows-1252: the characters of the bytes 128 to 159; the five that are not assigned stay. -/
def cp1252 (b : Nat) : Nat :=
  if 128 ≤ b ∧ b < 160 then
    [0x20AC, 0x0081, 0x201A, 0x0192, 0x201E, 0x2026, 0x2020, 0x2021, 0x02C6, 0x2030, 0x0160, 0x2039, 0x0152, 0x008D, 0x017D, 0x008F,
     0x0090, 0x2018, 0x2019, 0x201C, 0x201D, 0x2022, 0x2013, 0x2014, 0x02DC, 0x2122, 0x0161, 0x203A, 0x0153, 0x009D, 0x017E, 0x0178].getD (b - 128) 0
  else b

/-- Two entries of the table are wrong: 0x88 and 0x98. -/
theorem table_wrong (b : Nat) (h1 : 128 ≤ b) (h2 : b < 256) : high b = cp1252 b ↔ b ≠ 0x88 ∧ b ≠ 0x98 := by
  have : ∀ b : Fin 256, 128 ≤ b.val → (high b.val = cp1252 b.val ↔ b.val ≠ 0x88 ∧ b.val ≠ 0x98) := by decide +kernel
  exact this ⟨b, h2⟩ h1

theorem winLoop_eq (s : Bytes) : ∀ sa last, winLoop sa last s =
    sa ++ last ++ s.flatMap fun c => if c = 0 then [] else if c < 128 then [c] else app (high c) := by
  induction s with
  | nil => intro sa last; simp [winLoop]
  | cons c s ih =>
    intro sa last
    rw [winLoop, List.flatMap_cons]
    split
    · rw [ih]; simp
    · split
      · rw [ih]; simp
      · rw [ih]; simp

/-- Each byte is converted by itself. -/
theorem windows_bytewise (s : Bytes) : windows1252 s = s.flatMap fun c => if c = 0 then [] else if c < 128 then [c] else app (high c) := by
  unfold windows1252
  rw [winLoop_eq]; simp

/-- The bytes that are converted wrongly: those whose characters are from U+0800 to U+7FFF, and 0x88 and 0x98. -/
def winWrong : Bytes := [0x80, 0x82, 0x84, 0x85, 0x86, 0x87, 0x88, 0x89, 0x8B, 0x91, 0x92, 0x93, 0x94, 0x95, 0x96, 0x97, 0x98, 0x99, 0x9B]

theorem windows_byte {b : Nat} (h0 : b ≠ 0) (h : b < 256) : windows1252 [b] = chr (Char.ofNat (cp1252 b)) ↔ b ∉ winWrong := by
  have : ∀ b : Fin 256, b.val ≠ 0 → (windows1252 [b.val] = chr (Char.ofNat (cp1252 b.val)) ↔ b.val ∉ winWrong) := by decide +kernel
  exact this ⟨b, h⟩ h0

/-- A string without these bytes and without zeros is converted rightly. -/
theorem windows_converts {s : Bytes} (h : ∀ b ∈ s, b ≠ 0 ∧ b < 256 ∧ b ∉ winWrong) :
    windows1252 s = utf8 (s.map fun b => Char.ofNat (cp1252 b)) := by
  induction s with
  | nil => rfl
  | cons b s ih =>
    obtain ⟨h0, h1, h2⟩ := h b List.mem_cons_self
    have e := (windows_byte h0 h1).2 h2
    have ih := ih fun b hb => h b (List.mem_cons_of_mem _ hb)
    rw [windows_bytewise] at e ih ⊢
    rw [List.flatMap_cons, List.flatMap_nil, List.append_nil] at e
    rw [List.flatMap_cons, e, ih]
    rfl

/-- The euro sign becomes C2 AC, the encoding of U+00AC. -/
example : windows1252 [0x80] = [0xC2, 0xAC] ∧ windows1252 [0x80] = chr '¬' ∧ windows1252 [0x63, 0xE9] = utf8 ['c', 'é'] := by decide

/-! ## `to_utf8` -/

theorem toLoop_good {n : Nat} : ∀ {cs : List Char} (long : Bool) (sa last : Bytes), (utf8 cs).length ≤ n →
    toLoop n long sa last (utf8 cs) = sa ++ last ++ utf8 (cs.filter fun c => c.toNat ≠ 0) := by
  induction n with
  | zero =>
    intro cs long sa last h
    cases cs with
    | nil => simp [toLoop, utf8]
    | cons c cs =>
      have := (chr_length c).1
      rw [Verif.Json.utf8_cons, List.length_append] at h
      omega
  | succ n ih =>
    intro cs long sa last h
    cases cs with
    | nil => simp [toLoop, utf8]
    | cons c cs =>
      have hl := (chr_length c).1
      rw [Verif.Json.utf8_cons, List.length_append] at h
      by_cases h0 : c.toNat = 0
      · have e : chr c = [0] := by
          rcases chr_eq c with ⟨h, e⟩ | ⟨h, h', e⟩ | ⟨h, h', e⟩ | ⟨h, e⟩ <;> first | omega | skip
          rw [e, h0]
        have z1 : ∀ s, skipChar (0 :: s) = 0 := fun s => rfl
        have z2 : ∀ s, parseCesu (0 :: s) = 0 := by
          intro s
          match s with
          | [] => rfl
          | [_] => rfl
          | [_, _] => rfl
          | [_, _, _] => rfl
          | [_, _, _, _] => rfl
          | _ :: _ :: _ :: _ :: _ :: _ => simp [parseCesu]
        rw [Verif.Json.utf8_cons, e, List.singleton_append, toLoop]
        simp only [z1, z2, ne_eq, not_true, if_false, if_true, Nat.lt_irrefl, false_and]
        rw [ih _ _ _ (by omega)]
        simp [h0]
      · have e : utf8 (c :: cs) = chr c ++ utf8 cs := rfl
        have hf : utf8 ((c :: cs).filter fun c => c.toNat ≠ 0) = chr c ++ utf8 (cs.filter fun c => c.toNat ≠ 0) := by
          rw [List.filter_cons_of_pos (by simpa using h0)]; rfl
        rw [hf, e]
        have hsk := skip_chr h0 (utf8 cs)
        have htd : (chr c ++ utf8 cs).take (chr c).length = chr c ∧ (chr c ++ utf8 cs).drop (chr c).length = utf8 cs := by simp
        by_cases ha : c.toNat < 128
        · have e1 : chr c = [c.toNat] := by
            rcases chr_eq c with ⟨h, e⟩ | ⟨h, h', e⟩ | ⟨h, h', e⟩ | ⟨h, e⟩ <;> first | omega | exact e
          rw [e1, List.singleton_append, toLoop, if_pos (by omega), ih _ _ _ (by rw [e1] at h; simp only [List.length_cons, List.length_nil] at h; omega)]
          simp
        · have hh : ∃ b t, chr c = b :: t ∧ ¬ (0 < b ∧ b < 128) := by
            rcases chr_eq c with ⟨h, e⟩ | ⟨h, h', e⟩ | ⟨h, h', e⟩ | ⟨h, e⟩
            · omega
            · exact ⟨_, _, e, by omega⟩
            · exact ⟨_, _, e, by omega⟩
            · exact ⟨_, _, e, by omega⟩
          obtain ⟨b, t, e1, hb⟩ := hh
          have e2 : chr c ++ utf8 cs = b :: (t ++ utf8 cs) := by rw [e1]; rfl
          rw [e2] at hsk htd
          rw [e2, toLoop, if_neg hb]
          simp only [hsk]
          rw [if_pos (by omega), htd.1, htd.2, ih _ _ _ (by omega)]
          simp

/-- Well-formed text: zeros are dropped and nothing else is changed, unless the text looks like UTF-16. -/
theorem to_utf8_text (f : Flags) (hf : f.strip = false) (cs : List Char)
    (h : ∀ a b c t, utf8 cs = a :: b :: c :: t → looksLe a b = false ∧ looksBe a b = false) :
    toUtf8 f (utf8 cs) = utf8 (cs.filter fun c => c.toNat ≠ 0) := by
  have key : toUtf8Rest f (utf8 cs) = utf8 (cs.filter fun c => c.toNat ≠ 0) := by
    unfold toUtf8Rest
    simp only [hf, Bool.false_eq_true, and_false, if_false]
    rw [toLoop_good _ _ _ (le_refl _)]; simp
  unfold toUtf8
  split
  · rename_i a b c t e
    obtain ⟨h1, h2⟩ := h a b c t e
    rw [h1, h2, ← e]
    exact key
  · exact key

theorem utf8_bytes {cs : List Char} (h : ∀ c ∈ cs, c.toNat ≠ 0) : ∀ b ∈ utf8 cs, 0 < b ∧ b < 0xF5 := by
  intro b hb
  obtain ⟨c, hc, hb⟩ := List.mem_flatMap.1 hb
  have h0 := h c hc
  have hr := char_range c
  rcases chr_eq c with ⟨h, e⟩ | ⟨h, h', e⟩ | ⟨h, h', e⟩ | ⟨h, e⟩ <;> rw [e] at hb <;>
    simp only [List.mem_cons, List.not_mem_nil, or_false] at hb <;> omega

/-- Well-formed text without zeros is not changed. -/
theorem to_utf8_identity (f : Flags) (hf : f.strip = false) {cs : List Char} (h : ∀ c ∈ cs, c.toNat ≠ 0) : toUtf8 f (utf8 cs) = utf8 cs := by
  rw [to_utf8_text f hf]
  · congr 1
    rw [List.filter_eq_self]
    intro c hc
    simpa using h c hc
  · intro a b c t e
    have ha := utf8_bytes h a (by rw [e]; simp)
    have hb := utf8_bytes h b (by rw [e]; simp)
    constructor
    · unfold looksLe
      simp only [Bool.or_eq_false_iff, Bool.and_eq_false_iff, beq_eq_false_iff_ne, decide_eq_false_iff_not]
      omega
    · unfold looksBe
      simp only [Bool.or_eq_false_iff, Bool.and_eq_false_iff, beq_eq_false_iff_ne, decide_eq_false_iff_not]
      omega

theorem toWinLoop_eq (s : Bytes) : ∀ sa last, toWinLoop sa last s = sa ++ last ++ windows1252 s := by
  induction s with
  | nil => intro sa last; simp [toWinLoop, windows1252, winLoop]
  | cons c s ih =>
    intro sa last
    rw [toWinLoop, windows_bytewise, List.flatMap_cons, ← windows_bytewise]
    by_cases h0 : c = 0
    · subst h0
      simp only [Nat.lt_irrefl, false_and, if_false, ne_eq, not_true, if_true]
      rw [ih]; simp
    · by_cases h1 : c < 128
      · rw [if_pos (by omega), ih, if_neg h0, if_pos h1]; simp
      · rw [if_neg (by omega), ih, if_pos h0, if_neg h0, if_neg h1]; simp

/-- ASCII and then a byte that begins no character: the whole is taken for Windows-1252, unless it looks like UTF-16. -/
theorem to_utf8_windows (f : Flags) (hf : f.strip = false) {u r : Bytes} {b : Nat} (hu : ∀ c ∈ u, 0 < c ∧ c < 128) (hb : 128 ≤ b)
    (h1 : ∀ c : Char, c.toNat ≠ 0 → ¬ chr c <+: b :: r) (h2 : ∀ c : Char, 0x10000 ≤ c.toNat → ¬ cesuChr c <+: b :: r) :
    toUtf8Rest f (u ++ b :: r) = windows1252 (u ++ b :: r) := by
  have hc : parseCesu (b :: r) = 0 := by
    by_contra h
    obtain ⟨c, hc, -, e⟩ := cesu_some h
    exact h2 c hc ⟨_, e.symm⟩
  have loop : ∀ n sa last, (u ++ b :: r).length ≤ n → toLoop n false sa last (u ++ b :: r) = sa ++ last ++ windows1252 (u ++ b :: r) := by
    clear hf
    induction u with
    | nil =>
      intro n sa last h
      obtain ⟨n, rfl⟩ := Nat.exists_eq_succ_of_ne_zero (by simp at h; omega : n ≠ 0)
      rw [List.nil_append, toLoop, if_neg (by omega)]
      simp only [skip_zero.2 h1, hc, ne_eq, not_true, if_false, Bool.not_false, if_true]
      rw [if_neg (by omega), toWinLoop_eq]
    | cons x u ih =>
      intro n sa last h
      obtain ⟨n, rfl⟩ := Nat.exists_eq_succ_of_ne_zero (by simp at h; omega : n ≠ 0)
      have hx := hu x List.mem_cons_self
      rw [List.cons_append, toLoop, if_pos hx, ih (fun c hc => hu c (List.mem_cons_of_mem _ hc)) n sa (last ++ [x]) (by simp at h ⊢; omega),
        windows_bytewise, windows_bytewise, List.flatMap_cons, if_neg (by omega), if_pos hx.2]
      simp
  unfold toUtf8Rest
  simp only [hf, Bool.false_eq_true, and_false, if_false]
  rw [loop _ _ _ (le_refl _)]; simp

/-- How `to_utf8` reads a string: like `Reads`, but every bad byte stands for itself. -/
inductive Mixed : Bytes → List Piece → Prop where
  | nil : Mixed [] []
  | good {c : Char} {s ps} : c.toNat ≠ 0 → Mixed s ps → Mixed (chr c ++ s) (.good c :: ps)
  | pair {c : Char} {s ps} : 0x10000 ≤ c.toNat → Mixed s ps → Mixed (cesuChr c ++ s) (.pair c :: ps)
  | bad {b : Nat} {s ps} : (∀ c : Char, c.toNat ≠ 0 → ¬ chr c <+: b :: s) → (∀ c : Char, 0x10000 ≤ c.toNat → ¬ cesuChr c <+: b :: s) →
      Mixed s ps → Mixed (b :: s) (.bad b [] :: ps)

/-- What becomes of the pieces: bad bytes are taken for Windows-1252. -/
def mixedText : Piece → Bytes
  | .good c => chr c
  | .pair c => chr c
  | .bad b _ => if b = 0 then [] else app (high b)

/-- ASCII or zero. -/
def plain : Piece → Bool
  | .good c => c.toNat < 128
  | .pair _ => false
  | .bad b _ => b == 0

/-- The first piece that is not plain is a bad byte. -/
def latin (ps : List Piece) : Bool :=
  match ps.dropWhile plain with
  | .bad _ _ :: _ => true
  | _ => false

theorem skip_small {c : Nat} {s : Bytes} (h : skipChar (c :: s) = 0) (hc : c < 128) : c = 0 := by
  by_contra h0
  rw [skip_ascii ⟨by omega, hc⟩] at h
  cases h

theorem toLoop_spec (n : Nat) : ∀ (long : Bool) (sa last s : Bytes), s.length ≤ n → ∃ ps, Mixed s ps ∧
    toLoop n long sa last s = sa ++ last ++ if !long && latin ps then windows1252 s else ps.flatMap mixedText := by
  induction n with
  | zero =>
    intro long sa last s h
    rw [List.length_eq_zero_iff.1 (by omega : s.length = 0)]
    exact ⟨[], .nil, by simp [toLoop, latin]⟩
  | succ n ih =>
    intro long sa last s h
    cases s with
    | nil => exact ⟨[], .nil, by simp [toLoop, latin]⟩
    | cons c s =>
      have hlen : s.length ≤ n := by simpa using h
      rw [toLoop]
      by_cases h1 : 0 < c ∧ c < 128
      · rw [if_pos h1]
        obtain ⟨x, hx, e1, e2⟩ := skip_some (s := c :: s) (by rw [skip_ascii h1]; decide)
        rw [skip_ascii h1] at e1 e2
        simp only [List.take_succ_cons, List.take_zero, List.drop_succ_cons, List.drop_zero] at e1 e2
        obtain ⟨ps, r, e⟩ := ih long sa (last ++ [c]) s hlen
        refine ⟨.good x :: ps, by rw [e1]; exact .good hx r, ?_⟩
        have hx' : x.toNat < 128 := by
          rcases chr_eq x with ⟨h, e⟩ | ⟨h, h', e⟩ | ⟨h, h', e⟩ | ⟨h, e⟩
          · omega
          all_goals rw [e] at e2; cases e2
        have hl : latin (.good x :: ps) = latin ps := by
          unfold latin
          rw [List.dropWhile_cons_of_pos (by simpa [plain] using hx')]
        rw [e, hl]
        by_cases hq : (!long && latin ps) = true
        · rw [if_pos hq, if_pos hq, windows_bytewise, windows_bytewise, List.flatMap_cons, if_neg (by omega), if_pos h1.2]
          simp
        · rw [if_neg hq, if_neg hq, List.flatMap_cons, mixedText, ← e2]
          simp
      · rw [if_neg h1]
        simp only
        by_cases h2 : skipChar (c :: s) = 0
        · rw [if_neg (by simpa using h2)]
          by_cases h3 : parseCesu (c :: s) = 0
          · rw [if_neg (by simpa using h3)]
            have hz := skip_zero.1 h2
            have hz' : ∀ x : Char, 0x10000 ≤ x.toNat → ¬ cesuChr x <+: c :: s := by
              rintro x hx ⟨t, ht⟩
              rw [← ht, cesu_chr hx] at h3
              omega
            by_cases h0 : c = 0
            · rw [if_pos h0]
              obtain ⟨ps, r, e⟩ := ih long (sa ++ last) [] s hlen
              refine ⟨.bad c [] :: ps, .bad hz hz' r, ?_⟩
              have hl : latin (.bad c [] :: ps) = latin ps := by
                unfold latin
                rw [List.dropWhile_cons_of_pos (by simpa [plain] using h0)]
              rw [e, hl, windows_bytewise, windows_bytewise, List.flatMap_cons, if_pos h0, List.flatMap_cons, mixedText, if_pos h0]
              simp
            · rw [if_neg h0]
              have hl : ∀ ps, latin (.bad c [] :: ps) = true := by
                intro ps
                unfold latin
                rw [List.dropWhile_cons_of_neg (by simpa [plain] using h0)]
              obtain ⟨ps, r, e⟩ := ih true (sa ++ last ++ app (high c)) [] s hlen
              refine ⟨.bad c [] :: ps, .bad hz hz' r, ?_⟩
              rw [hl]
              cases long
              · simp only [Bool.not_false, if_true, Bool.and_self]
                exact toWinLoop_eq _ _ _
              · simp only [Bool.not_true, Bool.false_eq_true, if_false, Bool.false_and]
                rw [e]
                simp [mixedText, h0]
          · rw [if_pos (by simpa using h3)]
            obtain ⟨x, hx, e0, e1⟩ := cesu_some h3
            have hd : (s.drop 5).length ≤ n := by rw [List.length_drop]; omega
            obtain ⟨ps, r, e⟩ := ih true (sa ++ last ++ app (parseCesu (c :: s))) [] (s.drop 5) hd
            refine ⟨.pair x :: ps, ?_, ?_⟩
            · rw [e1]; exact .pair hx r
            · have := char_range x
              have hl : latin (.pair x :: ps) = false := by
                unfold latin
                rw [List.dropWhile_cons_of_neg (by simp [plain])]
              rw [e, hl, e0, app_chr (by omega) (by omega) (by omega) (by omega)]
              simp [mixedText]
        · rw [if_pos (by simpa using h2)]
          obtain ⟨x, hx, e1, e2⟩ := skip_some h2
          have hd : ((c :: s).drop (skipChar (c :: s))).length ≤ n := by rw [List.length_drop]; omega
          obtain ⟨ps, r, e⟩ := ih true sa (last ++ (c :: s).take (skipChar (c :: s))) _ hd
          refine ⟨.good x :: ps, ?_, ?_⟩
          · rw [e1]
            exact .good hx (by simpa using r)
          · have hx' : ¬ x.toNat < 128 := by
              intro hx'
              rcases chr_eq x with ⟨h, e'⟩ | ⟨h, h', e'⟩ | ⟨h, h', e'⟩ | ⟨h, e'⟩ <;> first | omega | skip
              rw [e'] at e1
              have := (List.cons.inj e1).1
              omega
            have hl : latin (.good x :: ps) = false := by
              unfold latin
              rw [List.dropWhile_cons_of_neg (by simpa [plain] using hx')]
            rw [e, hl, e2]
            simp [mixedText]

/-- `to_utf8` for every string that does not look like UTF-16: if the first piece that is neither ASCII nor zero is a bad byte, then all of
it is taken for Windows-1252; otherwise the characters are kept, pairs of surrogates are joined, and bad bytes are taken for Windows-1252. -/
theorem to_utf8_mixed (f : Flags) (hf : f.strip = false) (s : Bytes) : ∃ ps, Mixed s ps ∧
    toUtf8Rest f s = if latin ps then windows1252 s else ps.flatMap mixedText := by
  obtain ⟨ps, r, e⟩ := toLoop_spec s.length false [] [] s (le_refl _)
  refine ⟨ps, r, ?_⟩
  unfold toUtf8Rest
  simp only [hf, Bool.false_eq_true, and_false, if_false]
  rw [e]; simp

/-- The pieces are unique. -/
theorem mixed_unique {s : Bytes} {ps : List Piece} (h : Mixed s ps) : ∀ {qs}, Mixed s qs → ps = qs := by
  induction h with
  | nil =>
    intro qs h
    generalize hs : ([] : Bytes) = s at h
    cases h with
    | nil => rfl
    | @good d =>
      have := (chr_length d).1
      rw [(List.append_eq_nil_iff.1 hs.symm).1] at this
      cases this
    | pair => simp [cesuChr] at hs
    | bad => cases hs
  | @good c s ps hc _ ih =>
    intro qs h
    generalize hs : chr c ++ s = u at h
    cases h with
    | nil =>
      have := (chr_length c).1
      rw [(List.append_eq_nil_iff.1 hs).1] at this
      cases this
    | @good d t qs hd h' =>
      have e : c = d := chr_prefix (s := chr c ++ s) hc hd (List.prefix_append _ _) ⟨t, hs.symm⟩
      subst e
      rw [List.append_cancel_left hs] at ih
      rw [ih h']
    | @pair d t qs hd h' =>
      have e := congrArg skipChar hs
      rw [skip_chr hc, skip_cesu hd] at e
      have := (chr_length c).1
      omega
    | bad hn => exact absurd ⟨s, hs⟩ (hn c hc)
  | @pair c s ps hc _ ih =>
    intro qs h
    generalize hs : cesuChr c ++ s = u at h
    cases h with
    | nil => simp [cesuChr] at hs
    | @good d t qs hd h' =>
      have e := congrArg skipChar hs
      rw [skip_chr hd, skip_cesu hc] at e
      have := (chr_length d).1
      omega
    | @pair d t qs hd h' =>
      have e := congrArg parseCesu hs
      rw [cesu_chr hc, cesu_chr hd] at e
      have e : c = d := Char.ext (UInt32.toNat_inj.1 e)
      subst e
      rw [List.append_cancel_left hs] at ih
      rw [ih h']
    | bad _ hn => exact absurd ⟨s, hs⟩ (hn c hc)
  | @bad b s ps hn hn' _ ih =>
    intro qs h
    generalize hs : b :: s = u at h
    cases h with
    | nil => cases hs
    | @good d t qs hd h' => exact absurd ⟨t, hs.symm⟩ (hn d hd)
    | @pair d t qs hd h' => exact absurd ⟨t, hs.symm⟩ (hn' d hd)
    | bad _ _ h' =>
      obtain ⟨rfl, rfl⟩ := List.cons.inj hs
      rw [ih h']

/-- "é", then a byte E9, then a pair of surrogates. -/
example : toUtf8 ⟨false, false, false⟩ (chr 'é' ++ [0xE9, 97] ++ cesuChr '😀') = utf8 ['é', 'é', 'a', '😀'] := by decide

/-- A byte order mark alone is not dropped by `to_utf8`, but by `utf8_to_utf8` (/repo/string.cc:1292). -/
theorem bom_alone : toUtf8 ⟨true, false, false⟩ (chr '\uFEFF') = chr '\uFEFF' ∧ utf8ToUtf8 ⟨true, false, false⟩ (chr '\uFEFF') = [] := by decide

/-- Text with a zero after the first letter is taken for UTF-16: "ab" with zeros after both letters is "ab", "a", zero, "bc" is something else. -/
example : toUtf8 ⟨false, false, false⟩ [97, 0, 98, 0] = [97, 98] ∧ toUtf8 ⟨false, false, false⟩ [97, 98, 0, 99] = [97, 98, 99] ∧
    toUtf8 ⟨false, false, false⟩ [97, 0, 98, 99] = [97, 205, 162] := by decide

example : toUtf8 ⟨false, false, false⟩ (utf8 ['é', '中']) = utf8 ['é', '中'] := to_utf8_identity _ rfl (by decide)

/-- "caf\xE9!" is taken for Windows-1252. -/
example : toUtf8 ⟨false, false, false⟩ [99, 97, 102, 0xE9, 33] = utf8 ['c', 'a', 'f', 'é', '!'] := by decide

end Verif.Props.C66
