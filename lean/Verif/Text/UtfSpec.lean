import Verif.Text.Utf
import Verif.Json.Escape
import Mathlib.Data.List.Basic
import Mathlib.Data.List.TakeWhile

/-!
# What conversions to UTF-8 compute
-/
namespace Verif.Text

open Verif.Json (Bytes appendUtf8 cont chr utf8 chr_eq char_range char_of cont_iff)

/-! ## Characters -/

theorem chr_length (c : Char) : 1 ≤ (chr c).length ∧ (chr c).length ≤ 4 := by
  rcases chr_eq c with ⟨-, e⟩ | ⟨-, -, e⟩ | ⟨-, -, e⟩ | ⟨-, e⟩ <;> rw [e] <;> simp

/-- `skip_utf8_char` goes over a character that is not zero. -/
theorem skip_chr {c : Char} (hc : c.toNat ≠ 0) (s : Bytes) : skipChar (chr c ++ s) = (chr c).length := by
  have hr := char_range c
  rcases chr_eq c with ⟨h, e⟩ | ⟨h, h', e⟩ | ⟨h, h', e⟩ | ⟨h, e⟩
  · rw [e, List.singleton_append]
    show (if 0 < c.toNat ∧ c.toNat < 0x80 then 1 else _) = _
    rw [if_pos (by omega)]; rfl
  · rw [e]
    simp only [List.cons_append, List.nil_append, skipChar, cont_iff]
    rw [if_neg (by omega), if_neg (by omega), if_pos (by omega), if_pos (by omega)]; rfl
  · rw [e]
    simp only [List.cons_append, List.nil_append, skipChar, cont_iff]
    rw [if_neg (by omega), if_neg (by omega), if_neg (by omega), if_pos (by omega), if_pos (by omega)]; rfl
  · rw [e]
    simp only [List.cons_append, List.nil_append, skipChar, cont_iff]
    rw [if_neg (by omega), if_neg (by omega), if_neg (by omega), if_neg (by omega), if_pos (by omega), if_pos (by omega)]; rfl

/-- Where it goes on, there is a character. -/
theorem skip_some {s : Bytes} (h : skipChar s ≠ 0) : ∃ c : Char, c.toNat ≠ 0 ∧ s = chr c ++ s.drop (skipChar s) ∧ s.take (skipChar s) = chr c := by
  suffices h' : ∃ c : Char, c.toNat ≠ 0 ∧ ∃ t, s = chr c ++ t by
    obtain ⟨c, hc, t, rfl⟩ := h'
    refine ⟨c, hc, ?_, ?_⟩
    · rw [skip_chr hc]; simp
    · rw [skip_chr hc]; simp
  cases s with
  | nil => exact absurd rfl h
  | cons a s =>
    change (if 0 < a ∧ a < 0x80 then 1 else _) ≠ 0 at h
    by_cases h1 : 0 < a ∧ a < 0x80
    · obtain ⟨c, hc⟩ := char_of (n := a) (by omega)
      refine ⟨c, by omega, s, ?_⟩
      rcases chr_eq c with ⟨h, e⟩ | ⟨h, h', e⟩ | ⟨h, h', e⟩ | ⟨h, e⟩ <;> first | omega | skip
      rw [e, hc]; rfl
    rw [if_neg h1] at h
    by_cases h2 : a < 0xC2
    · rw [if_pos h2] at h; exact absurd rfl h
    rw [if_neg h2] at h
    by_cases h3 : a < 0xE0
    · rw [if_pos h3] at h
      cases s with
      | nil => exact absurd rfl h
      | cons x s =>
        simp only at h
        split at h
        · rename_i hx
          rw [cont_iff] at hx
          obtain ⟨c, hc⟩ := char_of (n := (a - 192) * 64 + (x - 128)) (by omega)
          refine ⟨c, by omega, s, ?_⟩
          rcases chr_eq c with ⟨h, e⟩ | ⟨h, h', e⟩ | ⟨h, h', e⟩ | ⟨h, e⟩ <;> first | omega | skip
          rw [e, hc]
          simp only [List.cons_append, List.nil_append, List.cons.injEq, and_true]
          omega
        · exact absurd rfl h
    rw [if_neg h3] at h
    by_cases h4 : a < 0xF0
    · rw [if_pos h4] at h
      match s with
      | [] => exact absurd rfl h
      | [x] => exact absurd rfl h
      | x :: y :: s =>
        simp only at h
        split at h
        · rename_i hx
          rw [cont_iff, cont_iff] at hx
          obtain ⟨c, hc⟩ := char_of (n := (a - 224) * 4096 + (x - 128) * 64 + (y - 128)) (by omega)
          refine ⟨c, by omega, s, ?_⟩
          rcases chr_eq c with ⟨h, e⟩ | ⟨h, h', e⟩ | ⟨h, h', e⟩ | ⟨h, e⟩ <;> first | omega | skip
          rw [e, hc]
          simp only [List.cons_append, List.nil_append, List.cons.injEq, and_true]
          omega
        · exact absurd rfl h
    rw [if_neg h4] at h
    by_cases h5 : a < 0xF5
    · rw [if_pos h5] at h
      match s with
      | [] => exact absurd rfl h
      | [x] => exact absurd rfl h
      | [x, y] => exact absurd rfl h
      | x :: y :: z :: s =>
        simp only at h
        split at h
        · rename_i hx
          rw [cont_iff, cont_iff, cont_iff] at hx
          obtain ⟨c, hc⟩ := char_of (n := (a - 240) * 262144 + (x - 128) * 4096 + (y - 128) * 64 + (z - 128)) (by omega)
          refine ⟨c, by omega, s, ?_⟩
          rcases chr_eq c with ⟨h, e⟩ | ⟨h, h', e⟩ | ⟨h, h', e⟩ | ⟨h, e⟩ <;> first | omega | skip
          rw [e, hc]
          simp only [List.cons_append, List.nil_append, List.cons.injEq, and_true]
          omega
        · exact absurd rfl h
    rw [if_neg h5] at h
    exact absurd rfl h

/-- No character is at the start exactly if `skip_utf8_char` stays. -/
theorem skip_zero {s : Bytes} : skipChar s = 0 ↔ ∀ c : Char, c.toNat ≠ 0 → ¬ chr c <+: s := by
  constructor
  · rintro h c hc ⟨t, rfl⟩
    rw [skip_chr hc] at h
    have := (chr_length c).1
    omega
  · intro h
    by_contra h'
    obtain ⟨c, hc, e, -⟩ := skip_some h'
    exact h c hc ⟨_, e.symm⟩

theorem chr_inj {c d : Char} (h : chr c = chr d) : c = d := by
  have key : c.toNat = d.toNat := by
    have hr := char_range c
    have hr' := char_range d
    rcases chr_eq c with ⟨h1, e⟩ | ⟨h1, h1', e⟩ | ⟨h1, h1', e⟩ | ⟨h1, e⟩ <;>
      rcases chr_eq d with ⟨h2, e'⟩ | ⟨h2, h2', e'⟩ | ⟨h2, h2', e'⟩ | ⟨h2, e'⟩ <;>
      rw [e, e'] at h <;> simp only [List.cons.injEq, and_true, reduceCtorEq, and_false] at h <;> omega
  exact Char.ext (UInt32.toNat_inj.1 key)

/-- At most one character is at the start. -/
theorem chr_prefix {c d : Char} {s : Bytes} (hc : c.toNat ≠ 0) (hd : d.toNat ≠ 0) (h1 : chr c <+: s) (h2 : chr d <+: s) : c = d := by
  obtain ⟨t, rfl⟩ := h1
  obtain ⟨u, h2⟩ := h2
  have e := congrArg skipChar h2
  rw [skip_chr hc, skip_chr hd] at e
  exact chr_inj (List.append_inj_left h2 e).symm

/-- A pair of surrogates, each with three bytes, as CESU-8 writes characters from U+10000 on. -/
def cesuChr (c : Char) : Bytes :=
  let v := c.toNat - 0x10000
  let hi := 0xD800 + v / 1024
  let lo := 0xDC00 + v % 1024
  [224 + hi / 4096, 128 + hi / 64 % 64, 128 + hi % 64, 224 + lo / 4096, 128 + lo / 64 % 64, 128 + lo % 64]

theorem cesu_chr {c : Char} (hc : 0x10000 ≤ c.toNat) (s : Bytes) : parseCesu (cesuChr c ++ s) = c.toNat := by
  have hr := char_range c
  unfold cesuChr
  simp only [List.cons_append, List.nil_append, parseCesu]
  generalize c.toNat = v at *
  rw [if_pos (by omega)]
  omega

theorem cesu_some {s : Bytes} (h : parseCesu s ≠ 0) : ∃ c : Char, 0x10000 ≤ c.toNat ∧ parseCesu s = c.toNat ∧ s = cesuChr c ++ s.drop 6 := by
  match s with
  | [] => exact absurd rfl h
  | [_] => exact absurd rfl h
  | [_, _] => exact absurd rfl h
  | [_, _, _] => exact absurd rfl h
  | [_, _, _, _] => exact absurd rfl h
  | [_, _, _, _, _] => exact absurd rfl h
  | a :: b :: c :: d :: e :: f :: s =>
    simp only [parseCesu] at h ⊢
    split at h
    · rename_i hb
      obtain ⟨x, hx⟩ := char_of (n := 0x10000 + ((b % 16) * 65536) + ((c % 64) * 1024) + ((e % 16) * 64) + f % 64) (by omega)
      refine ⟨x, by omega, by rw [if_pos hb, hx], ?_⟩
      unfold cesuChr
      rw [hx]
      simp only [List.cons_append, List.nil_append, List.drop_succ_cons, List.drop_zero, List.cons.injEq, and_true]
      omega
    · exact absurd rfl h

theorem skip_cesu {c : Char} (hc : 0x10000 ≤ c.toNat) (s : Bytes) : skipChar (cesuChr c ++ s) = 0 := by
  have hr := char_range c
  unfold cesuChr
  simp only [List.cons_append, List.nil_append, skipChar, cont_iff]
  generalize c.toNat = v at *
  rw [if_neg (by omega), if_neg (by omega), if_neg (by omega), if_pos (by omega), if_neg (by omega)]

theorem app_chr {c : Char} (h0 : c.toNat ≠ 0) (h1 : ¬ (0x800 ≤ c.toNat ∧ c.toNat < 0x8000)) (h2 : c.toNat ≠ 0xFFFE) (h3 : c.toNat ≠ 0xFFFF) :
    app c.toNat = chr c := by
  unfold app
  rw [(Verif.Json.append_iff c).2 ⟨h0, h1, h2, h3⟩]; rfl

/-! ## Reading -/

/-- What a string is read as: characters, pairs of surrogates as CESU-8 writes them, and bad bytes with the continuation bytes after them. -/
inductive Piece where
  | good (c : Char)
  | pair (c : Char)
  | bad (b : Nat) (k : Bytes)

/-- The pieces of a string; `cesu`: whether pairs are known. -/
inductive Reads (cesu : Bool) : Bytes → List Piece → Prop where
  | nil : Reads cesu [] []
  | good {c : Char} {s ps} : c.toNat ≠ 0 → Reads cesu s ps → Reads cesu (chr c ++ s) (.good c :: ps)
  | pair {c : Char} {s ps} : cesu = true → 0x10000 ≤ c.toNat → Reads cesu s ps → Reads cesu (cesuChr c ++ s) (.pair c :: ps)
  | bad {b : Nat} {k s : Bytes} {ps} : (∀ c : Char, c.toNat ≠ 0 → ¬ chr c <+: b :: (k ++ s)) →
      (cesu = true → ∀ c : Char, 0x10000 ≤ c.toNat → ¬ cesuChr c <+: b :: (k ++ s)) →
      (∀ x ∈ k, 0x80 ≤ x ∧ x < 0xC0) → (∀ x, s.head? = some x → ¬ (0x80 ≤ x ∧ x < 0xC0)) → Reads cesu s ps →
      Reads cesu (b :: (k ++ s)) (.bad b k :: ps)

/-- What pieces become. -/
def render (repl : Bool) : Piece → Bytes
  | .good c => chr c
  | .pair c => chr c
  | .bad b _ => if repl = true ∧ b ≠ 0 then chr '�' else []

theorem cont_split (s : Bytes) : ∃ k, s = k ++ s.dropWhile cont ∧ (∀ x ∈ k, 0x80 ≤ x ∧ x < 0xC0) ∧
    ∀ x, (s.dropWhile cont).head? = some x → ¬ (0x80 ≤ x ∧ x < 0xC0) := by
  refine ⟨s.takeWhile cont, List.takeWhile_append_dropWhile.symm, fun x hx => cont_iff.1 (List.mem_takeWhile_imp hx), fun x hx => ?_⟩
  rw [← cont_iff]
  induction s with
  | nil => cases hx
  | cons y s ih =>
    rw [List.dropWhile_cons] at hx
    split at hx
    · exact ih hx
    · rename_i h
      simp only [List.head?_cons, Option.some.injEq] at hx
      rwa [← hx]

theorem skip_ascii {c : Nat} {s : Bytes} (h : 0 < c ∧ c < 0x80) : skipChar (c :: s) = 1 := by
  show (if 0 < c ∧ c < 0x80 then 1 else _) = _
  rw [if_pos h]

theorem app_replacement : app replacement = chr '�' := by decide

theorem utf8Loop_spec (repl : Bool) (n : Nat) : ∀ sa last s : Bytes, s.length ≤ n →
    ∃ ps, Reads false s ps ∧ utf8Loop repl n sa last s = sa ++ last ++ ps.flatMap (render repl) := by
  induction n with
  | zero =>
    intro sa last s h
    rw [List.length_eq_zero_iff.1 (by omega : s.length = 0)]
    exact ⟨[], .nil, by simp [utf8Loop]⟩
  | succ n ih =>
    intro sa last s h
    cases s with
    | nil => exact ⟨[], .nil, by simp [utf8Loop]⟩
    | cons c s =>
      have step : ∀ k, skipChar (c :: s) = k → k ≠ 0 → ∃ ps, Reads false (c :: s) ps ∧
          utf8Loop repl n sa (last ++ (c :: s).take k) ((c :: s).drop k) = sa ++ last ++ ps.flatMap (render repl) := by
        intro k hk h0
        obtain ⟨x, hx, e1, e2⟩ := skip_some (hk ▸ h0)
        rw [hk] at e1 e2
        have hl : ((c :: s).drop k).length ≤ n := by rw [List.length_drop]; omega
        obtain ⟨ps, r, e⟩ := ih sa (last ++ (c :: s).take k) _ hl
        refine ⟨.good x :: ps, ?_, ?_⟩
        · rw [e1]; exact .good hx r
        · rw [e, e2]; simp [render]
      rw [utf8Loop]
      split
      · rename_i h1
        obtain ⟨ps, r, e⟩ := step 1 (skip_ascii (by omega)) (by omega)
        exact ⟨ps, r, e⟩
      · simp only
        split
        · rename_i h2
          exact step _ rfl h2
        · rename_i h2
          have h2 : skipChar (c :: s) = 0 := by simpa using h2
          obtain ⟨k, e1, e2, e3⟩ := cont_split s
          have hl : (s.dropWhile cont).length ≤ n := by
            have := List.length_dropWhile_le cont s
            simp only [List.length_cons] at h
            omega
          obtain ⟨ps, r, e⟩ := ih (sa ++ last ++ if repl ∧ c ≠ 0 then app replacement else []) [] _ hl
          refine ⟨.bad c k :: ps, ?_, ?_⟩
          · rw [e1]
            exact .bad (by rw [← e1]; exact skip_zero.1 h2) (fun h => by cases h) e2 e3 r
          · rw [e, app_replacement, List.flatMap_cons, render]
            simp

theorem cesu8Loop_spec (repl : Bool) (n : Nat) : ∀ sa last s : Bytes, s.length ≤ n →
    ∃ ps, Reads true s ps ∧ cesu8Loop repl n sa last s = sa ++ last ++ ps.flatMap (render false) := by
  induction n with
  | zero =>
    intro sa last s h
    rw [List.length_eq_zero_iff.1 (by omega : s.length = 0)]
    exact ⟨[], .nil, by simp [cesu8Loop]⟩
  | succ n ih =>
    intro sa last s h
    cases s with
    | nil => exact ⟨[], .nil, by simp [cesu8Loop]⟩
    | cons c s =>
      have step : ∀ k, skipChar (c :: s) = k → k ≠ 0 → ∃ ps, Reads true (c :: s) ps ∧
          cesu8Loop repl n sa (last ++ (c :: s).take k) ((c :: s).drop k) = sa ++ last ++ ps.flatMap (render false) := by
        intro k hk h0
        obtain ⟨x, hx, e1, e2⟩ := skip_some (hk ▸ h0)
        rw [hk] at e1 e2
        have hl : ((c :: s).drop k).length ≤ n := by rw [List.length_drop]; omega
        obtain ⟨ps, r, e⟩ := ih sa (last ++ (c :: s).take k) _ hl
        refine ⟨.good x :: ps, ?_, ?_⟩
        · rw [e1]; exact .good hx r
        · rw [e, e2]; simp [render]
      rw [cesu8Loop]
      split
      · rename_i h1
        obtain ⟨ps, r, e⟩ := step 1 (skip_ascii (by omega)) (by omega)
        exact ⟨ps, r, e⟩
      · simp only
        split
        · rename_i h2
          exact step _ rfl h2
        · rename_i h2
          have h2 : skipChar (c :: s) = 0 := by simpa using h2
          split
          · rename_i h3
            obtain ⟨x, hx, e0, e1⟩ := cesu_some h3
            have hl : (s.drop 5).length ≤ n := by
              rw [List.length_drop]
              simp only [List.length_cons] at h
              omega
            obtain ⟨ps, r, e⟩ := ih (sa ++ last ++ app (parseCesu (c :: s))) [] (s.drop 5) hl
            refine ⟨.pair x :: ps, ?_, ?_⟩
            · rw [e1]; exact .pair rfl hx r
            · have := char_range x
              rw [e, e0, app_chr (by omega) (by omega) (by omega) (by omega)]; simp [render]
          · rename_i h3
            have h3 : parseCesu (c :: s) = 0 := by simpa using h3
            obtain ⟨k, e1, e2, e3⟩ := cont_split s
            have hl : (s.dropWhile cont).length ≤ n := by
              have := List.length_dropWhile_le cont s
              simp only [List.length_cons] at h
              omega
            obtain ⟨ps, r, e⟩ := ih (sa ++ last ++ if repl ∧ parseCesu (c :: s) ≠ 0 then app replacement else []) [] _ hl
            refine ⟨.bad c k :: ps, ?_, ?_⟩
            · have hz := skip_zero.1 h2
              rw [e1] at hz h3 ⊢
              refine .bad hz (fun _ x hx h => ?_) e2 e3 r
              obtain ⟨t, ht⟩ := h
              rw [← ht, cesu_chr hx] at h3
              omega
            · rw [e, if_neg (by rw [h3]; simp), List.flatMap_cons, render]
              simp

/-- The pieces are determined by the string. -/
theorem reads_unique {cesu : Bool} {s : Bytes} {ps : List Piece} (h : Reads cesu s ps) : ∀ {qs}, Reads cesu s qs → ps = qs := by
  induction h with
  | nil =>
    intro qs h
    generalize hs : ([] : Bytes) = s at h
    cases h with
    | nil => rfl
    | @good d t qs hd h' =>
      rw [eq_comm, List.append_eq_nil_iff] at hs
      have := (chr_length d).1
      rw [hs.1] at this
      cases this
    | pair _ hc _ =>
      have := congrArg List.length hs
      simp [cesuChr] at this
    | bad => simp at hs
  | @good c s ps hc _ ih =>
    intro qs h
    generalize hs : chr c ++ s = u at h
    cases h with
    | nil =>
      rw [List.append_eq_nil_iff] at hs
      have := (chr_length c).1
      rw [hs.1] at this
      cases this
    | @good d t qs hd h' =>
      have e : c = d := chr_prefix (s := chr c ++ s) hc hd (List.prefix_append _ _) ⟨t, hs.symm⟩
      subst e
      rw [List.append_cancel_left hs] at ih
      rw [ih h']
    | @pair d t qs hb hd h' =>
      have e := congrArg skipChar hs
      rw [skip_chr hc, skip_cesu hd] at e
      have := (chr_length c).1
      omega
    | bad hn => exact absurd ⟨s, hs⟩ (hn c hc)
  | @pair c s ps hb hc _ ih =>
    intro qs h
    generalize hs : cesuChr c ++ s = u at h
    cases h with
    | nil =>
      have := congrArg List.length hs
      simp [cesuChr] at this
    | @good d t qs hd h' =>
      have e := congrArg skipChar hs
      rw [skip_chr hd, skip_cesu hc] at e
      have := (chr_length d).1
      omega
    | @pair d t qs hb' hd h' =>
      have e := congrArg parseCesu hs
      rw [cesu_chr hc, cesu_chr hd] at e
      have e : c = d := Char.ext (UInt32.toNat_inj.1 e)
      subst e
      rw [List.append_cancel_left hs] at ih
      rw [ih h']
    | bad _ hn => exact absurd ⟨s, hs⟩ (hn hb c hc)
  | @bad b k s ps hn hn' hk hh _ ih =>
    intro qs h
    generalize hs : b :: (k ++ s) = u at h
    cases h with
    | nil => simp at hs
    | @good d t qs hd h' => exact absurd ⟨t, hs.symm⟩ (hn d hd)
    | @pair d t qs hb hd h' => exact absurd ⟨t, hs.symm⟩ (hn' hb d hd)
    | @bad b' k' s' qs gn gn' gk gh h' =>
      obtain ⟨e1, e2⟩ := List.cons.inj hs
      subst e1
      have key : ∀ {k s k' s' : Bytes}, (∀ x ∈ k, 0x80 ≤ x ∧ x < 0xC0) → (∀ x, s.head? = some x → ¬ (0x80 ≤ x ∧ x < 0xC0)) →
          (∀ x ∈ k', 0x80 ≤ x ∧ x < 0xC0) → (∀ x, s'.head? = some x → ¬ (0x80 ≤ x ∧ x < 0xC0)) → k ++ s = k' ++ s' → k = k' ∧ s = s' := by
        intro k
        induction k with
        | nil =>
          intro s k' s' _ hh hk' _ e
          cases k' with
          | nil => exact ⟨rfl, e⟩
          | cons x k' =>
            rw [List.nil_append] at e
            exact absurd (hk' x List.mem_cons_self) (hh x (by rw [e]; rfl))
        | cons y k ih =>
          intro s k' s' hk hh hk' hh' e
          cases k' with
          | nil =>
            rw [List.nil_append] at e
            exact absurd (hk y List.mem_cons_self) (hh' y (by rw [← e]; rfl))
          | cons x k' =>
            obtain ⟨e1, e2⟩ := List.cons.inj e
            obtain ⟨e3, e4⟩ := ih (fun x h => hk x (List.mem_cons_of_mem _ h)) hh (fun x h => hk' x (List.mem_cons_of_mem _ h)) hh' e2
            exact ⟨by rw [e1, e3], e4⟩
      obtain ⟨e3, e4⟩ := key hk hh gk gh e2
      subst e3 e4
      rw [ih h']

end Verif.Text
