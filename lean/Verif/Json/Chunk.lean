import Verif.Json.Feed

/-!
# `consume` follows the machine
-/
namespace Verif.Json

/-- What is unfinished makes sense. -/
def P.Ok (p : P) : Prop := (∀ n, p.part = .prim n → words.getD n 0 ≠ 0) ∧ ∀ n, p.part = .num n → n ≠ 0

/-- The text ends with one of the lead bytes after which not all continuations are allowed. -/
def Lead (bs : Bytes) : Prop := ∃ b, bs.getLast? = some b ∧ (b = 0xE0 ∨ b = 0xED ∨ b = 0xF0 ∨ b = 0xF4)

theorem suf_cons {a b : Bytes} {x : Nat} (h : a <:+ b) : a <:+ x :: b := h.trans (List.suffix_cons _ _)

theorem Lead.suffix {a b : Bytes} (h : Lead a) (hs : a <:+ b) : Lead b := by
  obtain ⟨x, h1, h2⟩ := h
  obtain ⟨t, rfl⟩ := hs
  refine ⟨x, ?_, h2⟩
  rw [List.getLast?_append, h1]
  rfl

/-- Going on from `x` gives the same as reading `bs` from `p`. -/
def Ref (p : P) (bs : Bytes) (x : P × Bytes) : Prop :=
  (x.1.st = .ub ∧ Lead bs ∧ (finish (feedAll p bs).1).st ≠ .final) ∨
  (feedAll p bs = feedAll x.1 x.2 ∧ x.2 <:+ bs ∧ (x.2 ≠ [] → x.1.part = .no) ∧ x.1.Ok) ∨
  (x.1.st = .error ∧ Bad (feedAll p bs).1)

/-- `p` with a string of which `sa` has been read. -/
def P.S (p : P) (sa : Bytes) (n : Nat) : P := { p with part := .str n, str := sa }

/-- `p` with a number of which `sa` has been read. -/
def P.N (p : P) (sa : Bytes) (n : Nat) : P := { p with part := .num n, str := sa }

theorem ref_fail {p q : P} {bs r r' : Bytes} (h : feedAll p bs = (q.fail, r)) : Ref p bs (q.fail, r') :=
  Or.inr (Or.inr ⟨rfl, by rw [h]; exact bad_fail q⟩)

theorem ref_bad {p q : P} {bs r' : Bytes} (h : Bad (feedAll p bs).1) : Ref p bs (q.fail, r') := Or.inr (Or.inr ⟨rfl, h⟩)

theorem ref_ub {p q : P} {bs r : Bytes} (hl : Lead bs) (h : (finish (feedAll p bs).1).st ≠ .final) : Ref p bs (q.undef, r) :=
  Or.inl ⟨rfl, hl, h⟩

theorem ref_trans {p q : P} {bs cs : Bytes} {x : P × Bytes} (h : feedAll p bs = feedAll q cs) (hl : cs <:+ bs)
    (hx : Ref q cs x) : Ref p bs x := by
  rcases hx with hx | ⟨h1, h2, h3, h4⟩ | ⟨h1, h2⟩
  · exact Or.inl ⟨hx.1, hx.2.1.suffix hl, by rw [h]; exact hx.2.2⟩
  · exact Or.inr (Or.inl ⟨h.trans h1, h2.trans hl, h3, h4⟩)
  · exact Or.inr (Or.inr ⟨h1, by rw [h]; exact h2⟩)

theorem ok_no {p : P} (h : p.part = .no) : p.Ok := ⟨fun n hn => (by rw [h] at hn; cases hn), fun n hn => (by rw [h] at hn; cases hn)⟩

theorem value_part (p : P) (j : J) : (p.value j).part = .no := by unfold P.value; split <;> rfl

theorem key_part (p : P) (k : Bytes) : (p.key k).part = .no := by unfold P.key; split <;> rfl

theorem leave_part (p : P) : p.leave.part = .no := by
  unfold P.leave; split
  · rfl
  · exact value_part _ _

theorem endNumber_part (p : P) (s : Bytes) (n : Nat) : (p.endNumber s n).part = .no := by
  unfold P.endNumber; split
  · rfl
  · split
    · exact value_part _ _
    · rfl

/-! ## Strings -/

variable {p : P} (hp : p.st.over = false)

theorem feed_S (p : P) (sa : Bytes) (n b : Nat) : feed (p.S sa n) b =
    match strStep sa n b with
    | .more s n => (p.S s n, true)
    | .done s => (if p.st = .objColon then p.key s else p.value (.str s), true)
    | .err => (p.fail, true) := rfl

include hp

theorem feedAll_S (sa : Bytes) (n b : Nat) (r : Bytes) : feedAll (p.S sa n) (b :: r) =
    match strStep sa n b with
    | .more s n => feedAll (p.S s n) r
    | .done s => feedAll (if p.st = .objColon then p.key s else p.value (.str s)) r
    | .err => (p.fail, r) := by
  have hover : (p.S sa n).st.over = false := hp
  simp only [feedAll, hover, feed_S, Bool.false_eq_true, if_false]
  cases strStep sa n b with
  | more s n => rfl
  | done s => rfl
  | err => exact feedAll_over rfl r

omit hp in
/-- A round with the escape or character `tag :: pre` at the end. -/
theorem partStep_eq (sa : Bytes) (tag : Nat) (pre : Bytes) (n b : Nat) (hn : n = pre.length + 1) :
    partStep (sa ++ tag :: pre) n b =
    if partBad tag n b then none
    else if partFull tag n then
      match plain (n + 1) sa (tag :: (pre ++ [b])) with
      | .more s n => some (s, n)
      | _ => none
    else some (sa ++ tag :: (pre ++ [b]), n + 1) := by
  subst hn
  have hi : (sa ++ tag :: pre).length - (pre.length + 1) = sa.length := by simp
  have hg : (sa ++ tag :: pre).getD sa.length 0 = tag := by simp
  unfold partStep
  simp only [hi, hg, List.take_left', List.drop_left', List.cons_append, List.append_assoc]
  rfl

theorem bad_S {sa : Bytes} {n : Nat} (h : ∀ b, strStep sa n b = .err ∨ ∃ s m, strStep sa n b = .more s m ∧ Bad (p.S s m)) :
    Bad (p.S sa n) := by
  refine bad_step ?_ fun b => ?_
  · intro h'; have : p.st = .final := h'; rw [this] at hp; cases hp
  · rw [feed_S]
    rcases h b with h | ⟨s, m, h, hb⟩
    · rw [h]; exact bad_fail p
    · rw [h]; exact hb

/-! ### Escapes -/

omit hp in
theorem plain_esc (fuel : Nat) (sa r : Bytes) : plain (fuel + 1) sa (92 :: r) = match backslash r with
    | .part => .more (sa ++ 92 :: r) (r.length + 1)
    | .err => .err
    | .ok u r => plain fuel (sa ++ u) r := by
  show (if 32 ≤ 92 ∧ 92 < 128 ∧ 92 ≠ 92 ∧ 92 ≠ 34 then _ else _) = _
  rw [if_neg (by omega), if_pos rfl]
  rfl

omit hp in
theorem strStep_esc (sa pre : Bytes) (b : Nat) : strStep (sa ++ 92 :: pre) (pre.length + 1) b =
    if partBad 92 (pre.length + 1) b then .err
    else if pre.length = 0 ∨ pre.length = 4 ∨ pre.length = 10 then
      match backslash (pre ++ [b]) with
      | .part => .more (sa ++ 92 :: (pre ++ [b])) (pre.length + 2)
      | .err => .err
      | .ok u r => match plain (pre.length + 1) (sa ++ u) r with
        | .more s n => .more s n
        | _ => .err
    else .more (sa ++ 92 :: (pre ++ [b])) (pre.length + 2) := by
  rw [strStep, partStep_eq sa 92 pre _ b rfl]
  by_cases h1 : partBad 92 (pre.length + 1) b = true
  · rw [if_pos h1, if_pos h1]
  · rw [if_neg h1, if_neg h1]
    by_cases h2 : pre.length = 0 ∨ pre.length = 4 ∨ pre.length = 10
    · have h2' : partFull 92 (pre.length + 1) = true := by
        rcases h2 with h | h | h <;> simp [partFull, h]
      rw [if_pos h2, if_pos h2']
      have : plain (pre.length + 1 + 1) sa (92 :: (pre ++ [b])) = match backslash (pre ++ [b]) with
          | .part => .more (sa ++ 92 :: (pre ++ [b])) ((pre ++ [b]).length + 1)
          | .err => .err
          | .ok u r => plain (pre.length + 1) (sa ++ u) r := by
        exact plain_esc _ _ _
      rw [this]
      cases backslash (pre ++ [b]) with
      | part => simp
      | err => rfl
      | ok u r => dsimp only; cases plain (pre.length + 1) (sa ++ u) r <;> rfl
    · have h2' : ¬ partFull 92 (pre.length + 1) = true := by
        simp only [not_or] at h2
        simp only [partFull, ne_eq, not_true_eq_false, decide_false, Bool.false_and, decide_true, Bool.true_and, Bool.false_or,
          Bool.or_eq_true, decide_eq_true_eq]
        omega
      rw [if_neg h2, if_neg h2']

/-- `r` after `pre` of an escape. -/
def EscP (p : P) (sa pre r : Bytes) : Prop :=
  match backslash (pre ++ r) with
  | .part => feedAll (p.S (sa ++ 92 :: pre) (pre.length + 1)) r = (p.S (sa ++ 92 :: (pre ++ r)) ((pre ++ r).length + 1), [])
  | .err => Bad (feedAll (p.S (sa ++ 92 :: pre) (pre.length + 1)) r).1
  | .ok u r' => feedAll (p.S (sa ++ 92 :: pre) (pre.length + 1)) r = feedAll (p.S (sa ++ u) 0) r' ∧ r' <:+ r

omit hp in
theorem escP_nil {sa pre : Bytes} (h : backslash pre = .part) : EscP p sa pre [] := by
  unfold EscP; rw [List.append_nil, h]; rfl

theorem escP_push {sa pre : Bytes} {c : Nat} {r : Bytes} (hb : partBad 92 (pre.length + 1) c = false)
    (hf : (pre.length = 0 ∨ pre.length = 4 ∨ pre.length = 10) → backslash (pre ++ [c]) = .part)
    (h : EscP p sa (pre ++ [c]) r) : EscP p sa pre (c :: r) := by
  have hs : strStep (sa ++ 92 :: pre) (pre.length + 1) c = .more (sa ++ 92 :: (pre ++ [c])) (pre.length + 2) := by
    rw [strStep_esc, if_neg (by simp [hb])]
    by_cases h2 : pre.length = 0 ∨ pre.length = 4 ∨ pre.length = 10
    · rw [if_pos h2, hf h2]
    · rw [if_neg h2]
  have hl : (pre ++ [c]).length + 1 = pre.length + 2 := by simp
  have he : pre ++ c :: r = pre ++ [c] ++ r := by simp
  unfold EscP at h ⊢
  rw [feedAll_S hp, hs, he]
  rw [hl] at h
  cases hk : backslash (pre ++ [c] ++ r) with
  | part => rw [hk] at h; exact h
  | err => rw [hk] at h; exact h
  | ok u r' => rw [hk] at h; exact ⟨h.1, suf_cons h.2⟩

theorem escP_done {sa pre : Bytes} {c : Nat} {r u : Bytes} (hb : partBad 92 (pre.length + 1) c = false)
    (hf : pre.length = 0 ∨ pre.length = 4 ∨ pre.length = 10) (h1 : backslash (pre ++ [c]) = .ok u [])
    (h : backslash (pre ++ c :: r) = .ok u r) : EscP p sa pre (c :: r) := by
  unfold EscP
  rw [h]
  refine ⟨?_, by simp⟩
  rw [feedAll_S hp, strStep_esc, if_neg (by simp [hb]), if_pos hf, h1]
  simp only [plain]

theorem escP_err {sa pre : Bytes} {c : Nat} {r : Bytes} (hb : partBad 92 (pre.length + 1) c = true ∨
    ((pre.length = 0 ∨ pre.length = 4 ∨ pre.length = 10) ∧ backslash (pre ++ [c]) = .err))
    (h : backslash (pre ++ c :: r) = .err) : EscP p sa pre (c :: r) := by
  unfold EscP
  rw [h]
  rw [feedAll_S hp, strStep_esc]
  rcases hb with hb | ⟨h1, h2⟩
  · rw [if_pos hb]; exact bad_fail p
  · by_cases hb : partBad 92 (pre.length + 1) c = true
    · rw [if_pos hb]; exact bad_fail p
    · rw [if_neg hb, if_pos h1, h2]; exact bad_fail p

/-- No way to complete it. -/
theorem bad_esc (sa : Bytes) : ∀ (j : Nat) (pre : Bytes), pre.length + j = 11 → 1 ≤ j → j ≤ 6 →
    (∀ ext : Bytes, ext.length = j → backslash (pre ++ ext) = .err) → Bad (p.S (sa ++ 92 :: pre) (pre.length + 1)) := by
  intro j
  induction j with
  | zero => intro pre _ h1; omega
  | succ j ih =>
    intro pre hl _ h6 he
    refine bad_S hp fun b => ?_
    rw [strStep_esc]
    by_cases hb : partBad 92 (pre.length + 1) b = true
    · left; rw [if_pos hb]
    · rw [if_neg hb]
      by_cases hj : j = 0
      · subst hj
        left
        rw [if_pos (by omega), he [b] rfl]
      · right
        rw [if_neg (by omega)]
        refine ⟨_, _, rfl, ?_⟩
        have := ih (pre ++ [b]) (by simp; omega) (by omega) (by omega) fun ext hx => by
          rw [List.append_assoc]; exact he ([b] ++ ext) (by simp [hx])
        rw [List.length_append] at this
        exact this

omit hp in
theorem hexs_err (f : Nat → Option Nat) : ∀ (n ch : Nat) (l ext : Bytes), hexs f n ch l = .err → hexs f n ch (l ++ ext) = .err := by
  intro n
  induction n with
  | zero => intro ch l ext h; simp [hexs] at h
  | succ n ih =>
    intro ch l ext h
    cases l with
    | nil => simp [hexs] at h
    | cons b l =>
      simp only [hexs, List.cons_append] at h ⊢
      cases hb : f b with
      | none => rfl
      | some d => rw [hb] at h; exact ih _ _ _ h

theorem escP_bad {sa pre : Bytes} {c : Nat} {r : Bytes} {j : Nat} (hb : partBad 92 (pre.length + 1) c = false)
    (hl : pre.length + 1 + j = 11) (h1 : 1 ≤ j) (h6 : j ≤ 4) (he : ∀ ext : Bytes, backslash (pre ++ c :: ext) = .err) :
    EscP p sa pre (c :: r) := by
  unfold EscP
  rw [he r]
  rw [feedAll_S hp, strStep_esc, if_neg (by simp [hb]), if_neg (by omega)]
  refine Bad.feedAll ?_ r
  have := bad_esc hp sa j (pre ++ [c]) (by simp; omega) h1 (by omega) fun ext _ => by
    rw [List.append_assoc]; exact he ext
  rw [List.length_append] at this
  exact this

omit hp in
theorem hexUp_hex {b d : Nat} (h : hexUp b = some d) : hex b = some d := by
  unfold hexUp at h; unfold hex
  split at h
  · rename_i h1; rw [if_pos h1]; exact h
  · rename_i h1
    rw [if_neg h1]
    split at h
    · rename_i h2; rw [if_pos h2]; exact h
    · cases h

omit hp in
theorem partBad_hex {k c : Nat} (h1 : k ≠ 1) (h6 : k ≠ 6) (h7 : k ≠ 7) : partBad 92 k c = !isxdigit c := by
  simp [partBad, h1, h6, h7]

/-- What follows the digits of the second half of a pair. -/
def post2 (ch : Nat) : Rd Nat → Rd Bytes
  | .part => .part
  | .err => .err
  | .ok ch2 r => if 0xDC00 ≤ ch2 ∧ ch2 < 0xE000 then fin (0x10000 + (ch - 0xD800) * 0x400 + (ch2 - 0xDC00)) r else .err

omit hp in
theorem fin_cases (ch : Nat) : (∃ u, ∀ r, fin ch r = .ok u r) ∨ ∀ r, fin ch r = .err := by
  unfold fin
  cases appendUtf8 ch with
  | none => exact Or.inr fun r => rfl
  | some u => exact Or.inl ⟨u, fun r => rfl⟩

omit hp in
theorem post2_cases (ch ch2 : Nat) : (∃ u, ∀ r, post2 ch (.ok ch2 r) = .ok u r) ∨ ∀ r, post2 ch (.ok ch2 r) = .err := by
  unfold post2
  by_cases h : 0xDC00 ≤ ch2 ∧ ch2 < 0xE000
  · simp only [h, and_self, if_true]; exact fin_cases _
  · simp only [h, if_false]; exact Or.inr fun r => trivial

theorem esc_low (sa : Bytes) (ch : Nat) : ∀ (n : Nat) (pre : Bytes) (ch2 : Nat) (r : Bytes), pre.length + n = 11 → 1 ≤ n → n ≤ 4 →
    (∀ l, backslash (pre ++ l) = post2 ch (hexs hexUp n ch2 l)) → EscP p sa pre r := by
  intro n
  induction n with
  | zero => intro pre ch2 r _ h1; omega
  | succ m ih =>
    intro pre ch2 r hl _ h4 hb
    cases r with
    | nil => exact escP_nil (by have := hb []; rw [List.append_nil] at this; rw [this]; rfl)
    | cons c r =>
      have hk : partBad 92 (pre.length + 1) c = !isxdigit c := partBad_hex (by omega) (by omega) (by omega)
      cases hu : hexUp c with
      | none =>
        have he : ∀ ext, backslash (pre ++ c :: ext) = .err := by
          intro ext; rw [hb]; simp [hexs, hu, post2]
        by_cases hx : isxdigit c = true
        · by_cases hm : m = 0
          · exact escP_err hp (Or.inr ⟨by omega, he []⟩) (he r)
          · exact escP_bad hp (j := m) (by rw [hk, hx]; rfl) (by omega) (by omega) (by omega) he
        · exact escP_err hp (Or.inl (by rw [hk]; simp [hx])) (he r)
      | some d =>
        have hx : isxdigit c = true := by simp [isxdigit, hexUp_hex hu]
        have hk' : partBad 92 (pre.length + 1) c = false := by rw [hk, hx]; rfl
        have he : ∀ l, backslash (pre ++ c :: l) = post2 ch (hexs hexUp m (16 * ch2 + d) l) := by
          intro l; rw [hb]; simp [hexs, hu]
        by_cases hm : m = 0
        · subst hm
          simp only [hexs] at he
          rcases post2_cases ch (16 * ch2 + d) with ⟨u, h⟩ | h
          · exact escP_done hp hk' (by omega) (by rw [he, h]) (by rw [he, h])
          · exact escP_err hp (Or.inr ⟨by omega, by rw [he, h]⟩) (by rw [he, h])
        · refine escP_push hp hk' (fun h => by omega) ?_
          exact ih (pre ++ [c]) _ r (by simp; omega) (by omega) (by omega) fun l => by
            rw [List.append_assoc]; exact he l

/-- What follows the four digits. -/
def post1 : Rd Nat → Rd Bytes
  | .part => .part
  | .err => .err
  | .ok ch r =>
    if 0xD800 ≤ ch ∧ ch < 0xE000 then
      if 0xDC00 ≤ ch then .err
      else
        match r with
        | [] => .part
        | c1 :: r =>
          if c1 ≠ 92 then .err
          else
            match r with
            | [] => .part
            | c2 :: r => if c2 ≠ 117 then .err else post2 ch (hexs hexUp 4 0 r)
    else fin ch r

omit hp in
theorem backslash_u (r : Bytes) : backslash (117 :: r) = post1 (hexs hex 4 0 r) := by
  unfold backslash
  dsimp only
  rw [if_neg (by omega), if_neg (by omega), if_neg (by omega), if_neg (by omega), if_neg (by omega), if_neg (by omega), if_pos rfl]
  cases hexs hex 4 0 r with
  | part => rfl
  | err => rfl
  | ok ch r =>
    unfold post1
    dsimp only
    by_cases h1 : 0xD800 ≤ ch ∧ ch < 0xE000
    · rw [if_pos h1, if_pos h1]
      by_cases h2 : 0xDC00 ≤ ch
      · rw [if_pos h2, if_pos h2]
      · rw [if_neg h2, if_neg h2]
        cases r with
        | nil => rfl
        | cons c1 r =>
          dsimp only
          by_cases h3 : c1 ≠ 92
          · rw [if_pos h3, if_pos h3]
          · rw [if_neg h3, if_neg h3]
            cases r with
            | nil => rfl
            | cons c2 r =>
              dsimp only
              by_cases h4 : c2 ≠ 117
              · rw [if_pos h4, if_pos h4]
              · rw [if_neg h4, if_neg h4]
                cases hexs hexUp 4 0 r <;> rfl
    · rw [if_neg h1, if_neg h1]

theorem esc_high (sa : Bytes) (ch : Nat) (h1 : 0xD800 ≤ ch) (h2 : ch < 0xDC00) (pre r : Bytes) (hl : pre.length = 5)
    (hb : ∀ l, backslash (pre ++ l) = post1 (.ok ch l)) : EscP p sa pre r := by
  have hb' : ∀ l, backslash (pre ++ l) = match l with
        | [] => .part
        | c1 :: r =>
          if c1 ≠ 92 then .err
          else
            match r with
            | [] => .part
            | c2 :: r => if c2 ≠ 117 then .err else post2 ch (hexs hexUp 4 0 r) := by
    intro l; rw [hb]; unfold post1; dsimp only; rw [if_pos (by omega), if_neg (by omega)]
  cases r with
  | nil => exact escP_nil (by have := hb' []; rw [List.append_nil] at this; exact this)
  | cons c r =>
    by_cases hc : c = 92
    · subst hc
      refine escP_push hp (by rw [hl]; rfl) (fun h => by omega) ?_
      have hb2 : ∀ l, backslash (pre ++ [92] ++ l) = match l with
            | [] => .part
            | c2 :: r => if c2 ≠ 117 then .err else post2 ch (hexs hexUp 4 0 r) := by
        intro l; rw [List.append_assoc, hb']; rfl
      cases r with
      | nil => exact escP_nil (by have := hb2 []; rw [List.append_nil] at this; exact this)
      | cons c r =>
        by_cases hc : c = 117
        · subst hc
          refine escP_push hp (by simp [hl, partBad]) (fun h => by simp [hl] at h) ?_
          refine esc_low hp sa ch 4 _ 0 r (by simp [hl]) (by omega) (by omega) fun l => ?_
          rw [List.append_assoc, hb2]; rfl
        · refine escP_err hp (Or.inl (by simp [hl, partBad, hc])) ?_
          rw [hb2]; dsimp only; rw [if_pos hc]
    · refine escP_err hp (Or.inl (by simp [hl, partBad, hc])) ?_
      rw [hb']; dsimp only; rw [if_pos hc]

theorem esc_first (sa : Bytes) : ∀ (n : Nat) (pre : Bytes) (ch : Nat) (r : Bytes), pre.length + n = 5 → 1 ≤ n → n ≤ 4 →
    (∀ l, backslash (pre ++ l) = post1 (hexs hex n ch l)) → EscP p sa pre r := by
  intro n
  induction n with
  | zero => intro pre ch2 r _ h1; omega
  | succ m ih =>
    intro pre ch r hl _ h4 hb
    cases r with
    | nil => exact escP_nil (by have := hb []; rw [List.append_nil] at this; rw [this]; rfl)
    | cons c r =>
      have hk : partBad 92 (pre.length + 1) c = !isxdigit c := partBad_hex (by omega) (by omega) (by omega)
      cases hu : hex c with
      | none =>
        refine escP_err hp (Or.inl (by rw [hk]; simp [isxdigit, hu])) ?_
        rw [hb]; simp [hexs, hu, post1]
      | some d =>
        have hk' : partBad 92 (pre.length + 1) c = false := by rw [hk]; simp [isxdigit, hu]
        have he : ∀ l, backslash (pre ++ c :: l) = post1 (hexs hex m (16 * ch + d) l) := by
          intro l; rw [hb]; simp [hexs, hu]
        by_cases hm : m = 0
        · subst hm
          simp only [hexs] at he
          by_cases hs : 0xD800 ≤ 16 * ch + d ∧ 16 * ch + d < 0xE000
          · by_cases hs2 : 0xDC00 ≤ 16 * ch + d
            · have he' : ∀ l, backslash (pre ++ c :: l) = .err := by
                intro l; rw [he]; unfold post1; dsimp only; rw [if_pos hs, if_pos hs2]
              exact escP_err hp (Or.inr ⟨by omega, he' []⟩) (he' r)
            · refine escP_push hp hk' (fun _ => ?_) ?_
              · rw [he]; unfold post1; dsimp only; rw [if_pos hs, if_neg hs2]
              · exact esc_high hp sa _ hs.1 (by omega) _ r (by simp; omega) fun l => by rw [List.append_assoc]; exact he l
          · have he' : ∀ l, backslash (pre ++ c :: l) = fin (16 * ch + d) l := by
              intro l; rw [he]; unfold post1; dsimp only; rw [if_neg hs]
            rcases fin_cases (16 * ch + d) with ⟨u, h⟩ | h
            · exact escP_done hp hk' (by omega) (by rw [he', h]) (by rw [he', h])
            · exact escP_err hp (Or.inr ⟨by omega, by rw [he', h]⟩) (by rw [he', h])
        · refine escP_push hp hk' (fun h => by omega) ?_
          exact ih (pre ++ [c]) _ r (by simp; omega) (by omega) (by omega) fun l => by
            rw [List.append_assoc]; exact he l

omit hp in
theorem backslash_simple {c : Nat} (hc : c ≠ 117) : (∃ u, ∀ r, backslash (c :: r) = .ok u r) ∨ ∀ r, backslash (c :: r) = .err := by
  unfold backslash
  simp only [hc, if_false]
  split
  · exact fin_cases _
  · split
    · exact fin_cases _
    · split
      · exact fin_cases _
      · split
        · exact fin_cases _
        · split
          · exact fin_cases _
          · split
            · exact fin_cases _
            · exact Or.inr fun _ => rfl

theorem esc_all (sa r : Bytes) : EscP p sa [] r := by
  cases r with
  | nil => exact escP_nil rfl
  | cons c r =>
    by_cases hc : c = 117
    · subst hc
      refine escP_push hp (by simp [partBad]) (fun _ => rfl) ?_
      exact esc_first hp sa 4 _ 0 r rfl (by omega) (by omega) fun l => backslash_u l
    · have hb : partBad 92 (([] : Bytes).length + 1) c = false := by simp [partBad]
      rcases backslash_simple hc with ⟨u, h⟩ | h
      · exact escP_done hp hb (Or.inl rfl) (h []) (h r)
      · exact escP_err hp (Or.inr ⟨Or.inl rfl, h []⟩) (h r)

end Verif.Json
