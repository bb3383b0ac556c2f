import Verif.Json.Run
import Verif.Json.Escape
import Verif.Json.Number

/-!
# What was printed is read
-/
namespace Verif.Json

/-- Bytes of characters other than NUL, U+2028 and U+2029. -/
def Text (s : Bytes) : Prop := ∃ cs : List Char, s = utf8 cs ∧ ∀ c ∈ cs, Good c

/-- Values with at most `h` containers inside each other, integers that are neither too large nor too small, strings of characters, no
doubles, and no key twice. -/
inductive Fit : Nat → J → Prop where
  | null (h : Nat) : Fit h .null
  | bool (h : Nat) (b : Bool) : Fit h (.bool b)
  | num (h : Nat) (n : Int) (hn : -2 ^ 63 < n ∧ n < 2 ^ 64) : Fit h (.num n)
  | str (h : Nat) (s : Bytes) (hs : Text s) : Fit h (.str s)
  | arr (h : Nat) (xs : List J) (hx : ∀ x ∈ xs, Fit h x) : Fit (h + 1) (.arr xs)
  | obj (h : Nat) (xs : List (Bytes × J)) (hd : (xs.map Prod.fst).Nodup) (hk : ∀ x ∈ xs, Text x.1) (hx : ∀ x ∈ xs, Fit h x.2) :
      Fit (h + 1) (.obj xs)

/-- The machine on a text, up to its end. -/
def G (p : P) (bs : Bytes) : P × Bytes := finish2 (feedAll p bs)

theorem round_step {p q : P} {b : Nat} {r r' : Bytes} (hp : p.st.over = false) (hn : p.part = .no) (h : p.round false b r = (q, r'))
    (hu : q.st ≠ .ub) (he : q.st ≠ .error) : feedAll p (b :: r) = feedAll q r' := by
  have := round_ref hp hn b r
  rw [h] at this
  rcases this with h | h | h
  · exact absurd h.1 hu
  · exact h.1
  · exact absurd h.1 he

theorem value_st (p : P) (j : J) : (p.value j).st ≠ .ub ∧ (p.value j).st ≠ .error := by
  unfold P.value
  split
  · exact ⟨nofun, nofun⟩
  · rename_i o os _; cases o <;> exact ⟨nofun, nofun⟩

theorem val_over {s : St} (h : s.val = true) : s.over = false := by cases s <;> first | rfl | cases h

/-- A byte between tokens. -/
def Ws (ws : Bytes) : Prop := ∀ b ∈ ws, b = 32 ∨ b = 10 ∨ b = 13 ∨ b = 9

theorem G_ws {p : P} (hp : p.st.over = false) (hn : p.part = .no) {ws : Bytes} (hw : Ws ws) (r : Bytes) : G p (ws ++ r) = G p r := by
  induction ws with
  | nil => rfl
  | cons b ws ih =>
    have e : p.round false b (ws ++ r) = (p, ws ++ r) := by unfold P.round; rw [if_pos (hw b (by simp))]
    have : feedAll p (b :: (ws ++ r)) = feedAll p (ws ++ r) :=
      round_step hp hn e (fun h => by rw [h] at hp; cases hp) (fun h => by rw [h] at hp; cases hp)
    rw [List.cons_append, G, this]
    exact ih fun b hb => hw b (by simp [hb])

theorem ws_indent (m : Man) (d : Nat) : Ws (indent m d) := by
  intro b hb
  unfold indent at hb
  simp only [List.mem_cons, List.mem_append, List.mem_replicate] at hb
  omega

theorem ws_if (m : Man) (d : Nat) (e : Bool) : Ws (if e then indent m d else []) := by
  split
  · exact ws_indent m d
  · intro b hb; simp at hb

theorem value_congr {p q : P} (h1 : p.open_ = q.open_) (h2 : p.res = q.res) (j : J) : p.value j = q.value j := by
  unfold P.value
  rw [← h1]
  cases h : p.open_ with
  | nil => rfl
  | cons o os => dsimp only; rw [h2]

theorem stop_cons {b : Nat} (h : isDigit b = false ∧ b ≠ 46 ∧ b ≠ 101 ∧ b ≠ 69) (r : Bytes) : Stop (b :: r) := by
  intro b' r' e; cases e; exact h

theorem stop_ws {ws : Bytes} (hw : Ws ws) {r : Bytes} (hr : Stop r) : Stop (ws ++ r) := by
  cases ws with
  | nil => exact hr
  | cons b ws =>
    refine stop_cons ?_ _
    rcases hw b (by simp) with rfl | rfl | rfl | rfl <;> decide

/-- A string that is a value. -/
theorem read_str {p : P} (hv : p.st.val = true) (hn : p.part = .no) {s : Bytes} (hs : Text s) (r : Bytes) :
    G p (34 :: (encode s ++ [34]) ++ r) = G (p.value (.str s)) r := by
  obtain ⟨cs, rfl, hc⟩ := hs
  have e : p.round false 34 (encode (utf8 cs) ++ 34 :: r) = (p.value (.str (utf8 cs)), r) := by
    unfold P.round
    rw [if_neg (by omega), if_neg (by omega), if_neg (by omega), if_neg (by omega), if_neg (by omega), if_neg (by omega),
      if_neg (by omega), if_pos rfl, if_pos hv, read_encode hc]
    dsimp only [P.afterString]
    rw [if_neg (by intro h; rw [h] at hv; cases hv)]
  have := round_step (val_over hv) hn e (value_st _ _).1 (value_st _ _).2
  simp only [G, List.cons_append, List.append_assoc, List.nil_append]
  rw [this]

/-- A key. -/
theorem read_key {p : P} {ys : List (Bytes × J)} {k0 : Bytes} {os : List Open} (hst : p.st = .objInit ∨ p.st = .objKey) (hn : p.part = .no)
    (ho : p.open_ = .obj ys k0 :: os) {k : Bytes} (hk : Text k) (r : Bytes) :
    G p (34 :: (encode k ++ 34 :: r)) = G { st := .objColon, part := .no, str := [], open_ := .obj ys k :: os, res := p.res } r := by
  obtain ⟨cs, rfl, hc⟩ := hk
  have hp : p.st.over = false := by rcases hst with h | h <;> rw [h] <;> rfl
  have e : p.round false 34 (encode (utf8 cs) ++ 34 :: r) =
      ({ st := .objColon, part := .no, str := [], open_ := .obj ys (utf8 cs) :: os, res := p.res }, r) := by
    unfold P.round
    rw [if_neg (by omega), if_neg (by omega), if_neg (by omega), if_neg (by omega), if_neg (by omega), if_neg (by omega),
      if_neg (by omega), if_pos rfl, if_neg (by rcases hst with h | h <;> rw [h] <;> exact nofun), if_pos hst, read_encode hc]
    dsimp only [P.afterString]
    rw [if_pos rfl]
    unfold P.key
    rw [ho]
  have := round_step hp hn e nofun nofun
  rw [G, this]
  rfl

theorem read_word {p : P} (hv : p.st.val = true) (hn : p.part = .no) {b : Nat} (hb : b = 110 ∨ b = 102 ∨ b = 116) {w : Bytes} {j : J}
    (r : Bytes) (h : primitive (wordStart b) (w ++ r) = .done j r) : G p (b :: w ++ r) = G (p.value j) r := by
  have e : p.round false b (w ++ r) = (p.value j, r) := by
    unfold P.round
    rw [if_neg (by omega), if_neg (by omega), if_neg (by omega), if_neg (by omega), if_neg (by omega), if_neg (by omega),
      if_neg (by omega), if_neg (by omega), if_pos hb, if_pos hv, h]
    rfl
  have := round_step (val_over hv) hn e (value_st _ _).1 (value_st _ _).2
  rw [List.cons_append, G, this]
  rfl

theorem read_num {p : P} (hv : p.st.val = true) (hn : p.part = .no) {n : Int} (h : -2 ^ 63 < n ∧ n < 2 ^ 64) {r : Bytes} (hr : Stop r) :
    G p (decimal n ++ r) = G (p.value (.num n)) r := by
  obtain ⟨b, t, h1, hb, h2⟩ := scan_decimal h
  obtain ⟨pos, e1, e2, e3⟩ := h2 r hr
  have hb' : b = 45 ∨ (48 ≤ b ∧ b ≤ 57) := by simpa [isDigit] using hb
  have hend : ∀ q : P, q.endNumber (decimal n) pos = q.value (.num n) := by
    intro q
    unfold P.endNumber
    rw [if_neg (by omega), e3]
  have e : p.round false b (t ++ r) = (if r ≠ [] then (p.value (.num n), r) else (p.N (decimal n) pos, [])) := by
    unfold P.round
    rw [if_neg (by omega), if_neg (by omega), if_neg (by omega), if_neg (by omega), if_neg (by omega), if_neg (by omega),
      if_neg (by omega), if_neg (by omega), if_neg (by omega), if_pos hb, if_pos hv]
    unfold P.number
    rw [show b :: (t ++ r) = decimal n ++ r by rw [h1]; rfl, e1]
    dsimp only
    rw [List.nil_append, hend]
    by_cases hr0 : r = []
    · rw [if_neg (by simp [hr0]), if_neg (by simp [hr0])]; rfl
    · rw [if_pos (Or.inl hr0), if_pos hr0]
  rw [show decimal n ++ r = b :: (t ++ r) by rw [h1]; rfl]
  by_cases hr0 : r = []
  · rw [if_neg (by simp [hr0])] at e
    have hs : p.st ≠ .ub ∧ p.st ≠ .error := by constructor <;> intro h <;> rw [h] at hv <;> cases hv
    have := round_step (val_over hv) hn e hs.1 hs.2
    rw [G, this, hr0]
    show finish2 (p.N (decimal n) pos, []) = finish2 (p.value (.num n), [])
    unfold finish2
    have f1 : finish (p.N (decimal n) pos) = p.value (.num n) := by
      show (if p.st.over then _ else (p.N (decimal n) pos).endNumber (decimal n) pos) = _
      rw [if_neg (by simp [val_over hv]), endNumber_N, hend]
    have f2 : finish (p.value (.num n)) = p.value (.num n) := finish_part fun m h => by rw [value_part] at h; cases h
    dsimp only
    rw [f1, f2]
  · rw [if_pos hr0] at e
    have := round_step (val_over hv) hn e (value_st _ _).1 (value_st _ _).2
    rw [G, this]
    rfl

/-- The parser in an array. -/
def inArr (p : P) (s : St) (ys : List J) : P := { st := s, part := .no, str := [], open_ := .arr ys :: p.open_, res := p.res }

/-- The parser in an object. -/
def inObj (p : P) (s : St) (ys : List (Bytes × J)) (k : Bytes) : P :=
  { st := s, part := .no, str := [], open_ := .obj ys k :: p.open_, res := p.res }

theorem close_arr (p : P) {s : St} (hs : s = .arrInit ∨ s = .arrDelim) (ys : List J) (r : Bytes) :
    G (inArr p s ys) (93 :: r) = G (p.value (.arr ys)) r := by
  have e : (inArr p s ys).round false 93 r = (p.value (.arr ys), r) := by
    unfold P.round
    rw [if_neg (by omega), if_neg (by omega), if_neg (by omega), if_neg (by omega), if_neg (by omega), if_neg (by omega),
      if_pos rfl]
    rw [if_pos (show (inArr p s ys).st = .arrInit ∨ (inArr p s ys).st = .arrDelim from hs)]
    show (P.value _ (.arr ys), r) = _
    exact congrArg (·, r) (value_congr (q := p) rfl rfl _)
  have := round_step (by rcases hs with rfl | rfl <;> rfl) rfl e (value_st _ _).1 (value_st _ _).2
  rw [G, this]
  rfl

theorem close_obj (p : P) {s : St} (hs : s = .objInit ∨ s = .objDelim) (ys : List (Bytes × J)) (k r : Bytes) :
    G (inObj p s ys k) (125 :: r) = G (p.value (.obj ys)) r := by
  have e : (inObj p s ys k).round false 125 r = (p.value (.obj ys), r) := by
    unfold P.round
    rw [if_neg (by omega), if_neg (by omega), if_neg (by omega), if_neg (by omega), if_pos rfl]
    rw [if_pos (show (inObj p s ys k).st = .objInit ∨ (inObj p s ys k).st = .objDelim from hs)]
    show (P.value _ (.obj ys), r) = _
    exact congrArg (·, r) (value_congr (q := p) rfl rfl _)
  have := round_step (by rcases hs with rfl | rfl <;> rfl) rfl e (value_st _ _).1 (value_st _ _).2
  rw [G, this]
  rfl

/-- The bytes before an element. -/
theorem comma_arr (p : P) (m : Man) (e : Bool) (ys : List J) (r : Bytes) :
    G (inArr p .arrDelim ys) (comma m e ++ r) = G (inArr p .arrVal ys) r := by
  have h : ∀ r, G (inArr p .arrDelim ys) (44 :: r) = G (inArr p .arrVal ys) r := by
    intro r
    have : feedAll (inArr p .arrDelim ys) (44 :: r) = feedAll (inArr p .arrVal ys) r := round_step rfl rfl (r' := r) rfl nofun nofun
    rw [G, this]; rfl
  unfold comma
  split
  · show G _ (44 :: ([32] ++ r)) = _
    rw [h]
    exact G_ws rfl rfl (by intro b hb; simp at hb; omega) r
  · exact h r

theorem comma_obj (p : P) (m : Man) (e : Bool) (ys : List (Bytes × J)) (k r : Bytes) :
    G (inObj p .objDelim ys k) (comma m e ++ r) = G (inObj p .objKey ys k) r := by
  have h : ∀ r, G (inObj p .objDelim ys k) (44 :: r) = G (inObj p .objKey ys k) r := by
    intro r
    have : feedAll (inObj p .objDelim ys k) (44 :: r) = feedAll (inObj p .objKey ys k) r := round_step rfl rfl (r' := r) rfl nofun nofun
    rw [G, this]; rfl
  unfold comma
  split
  · show G _ (44 :: ([32] ++ r)) = _
    rw [h]
    exact G_ws rfl rfl (by intro b hb; simp at hb; omega) r
  · exact h r

theorem colon_obj (p : P) (m : Man) (e : Bool) (ys : List (Bytes × J)) (k r : Bytes) :
    G (inObj p .objColon ys k) (colon m e ++ r) = G (inObj p .objVal ys k) r := by
  have h : ∀ r, G (inObj p .objColon ys k) (58 :: r) = G (inObj p .objVal ys k) r := by
    intro r
    have : feedAll (inObj p .objColon ys k) (58 :: r) = feedAll (inObj p .objVal ys k) r := round_step rfl rfl (r' := r) rfl nofun nofun
    rw [G, this]; rfl
  unfold colon
  split
  · show G _ (58 :: ([32] ++ r)) = _
    rw [h]
    exact G_ws rfl rfl (by intro b hb; simp at hb; omega) r
  · exact h r

theorem put_new {k : Bytes} {j : J} : ∀ {ys : List (Bytes × J)}, k ∉ ys.map Prod.fst → put k j ys = ys ++ [(k, j)] := by
  intro ys
  induction ys with
  | nil => intro _; rfl
  | cons y ys ih =>
    intro h
    obtain ⟨k', v⟩ := y
    simp only [List.map_cons, List.mem_cons, not_or] at h
    unfold put
    rw [if_neg (fun e => h.1 e.symm), ih h.2]
    rfl

/-- A value of height `h` is read, whatever the parser is in. -/
def Reads (h : Nat) (j : J) : Prop := ∀ (p : P) (m : Man) (d : Nat) (r : Bytes), p.st.val = true → p.part = .no → p.open_.length + h ≤ 2048 →
  Stop r → G p (text m d j ++ r) = G (p.value j) r

theorem comma_stop (m : Man) (e : Bool) (r : Bytes) : Stop (comma m e ++ r) := by
  unfold comma; split <;> exact stop_cons (by decide) _

theorem elems_stop (m : Man) (d : Nat) (e : Bool) (xs : List J) {r : Bytes} (hr : Stop r) : Stop (elems m d e true xs ++ r) := by
  cases xs with
  | nil => rw [elems]; exact hr
  | cons x xs => rw [elems, if_pos rfl, List.append_assoc]; exact comma_stop _ _ _

theorem members_stop (m : Man) (d : Nat) (e : Bool) (xs : List (Bytes × J)) {r : Bytes} (hr : Stop r) : Stop (members m d e true xs ++ r) := by
  cases xs with
  | nil => rw [members]; exact hr
  | cons x xs => obtain ⟨k, x⟩ := x; rw [members, if_pos rfl, List.append_assoc]; exact comma_stop _ _ _

theorem elems_read {h : Nat} (p : P) (m : Man) (d : Nat) (e : Bool) (hl : p.open_.length + 1 + h ≤ 2048) :
    ∀ (xs : List J), (∀ x ∈ xs, Reads h x) → ∀ (ys : List J) (rest : Bool) (r : Bytes),
    G (inArr p (if rest then .arrDelim else .arrInit) ys) (elems m d e rest xs ++ ((if e then indent m d else []) ++ 93 :: r)) =
      G (p.value (.arr (ys ++ xs))) r := by
  intro xs
  induction xs with
  | nil =>
    intro _ ys rest r
    rw [elems, List.nil_append, List.append_nil, G_ws (by cases rest <;> rfl) rfl (ws_if m d e)]
    exact close_arr p (by cases rest <;> simp) ys r
  | cons x xs ih =>
    intro hx ys rest r
    have hstop : Stop (elems m d e true xs ++ ((if e then indent m d else []) ++ 93 :: r)) :=
      elems_stop m d e xs (stop_ws (ws_if m d e) (stop_cons (by decide) _))
    have go : ∀ s : St, s.val = true →
        G (inArr p s ys) ((if e then indent m (d + 1) else []) ++ (text m (d + 1) x ++ (elems m d e true xs ++
          ((if e then indent m d else []) ++ 93 :: r)))) = G (p.value (.arr (ys ++ x :: xs))) r := by
      intro s hs
      rw [G_ws (val_over hs) rfl (ws_if m (d + 1) e), hx x (by simp) (inArr p s ys) m (d + 1) _ hs rfl
        (by show p.open_.length + 1 + h ≤ 2048; exact hl) hstop]
      have := ih (fun x hx' => hx x (by simp [hx'])) (ys ++ [x]) true r
      rw [List.append_assoc] at this
      exact this
    rw [elems]
    simp only [List.append_assoc]
    cases rest with
    | false => exact go .arrInit rfl
    | true =>
      show G (inArr p .arrDelim ys) (comma m e ++ _) = _
      rw [comma_arr]
      exact go .arrVal rfl

theorem members_read {h : Nat} (p : P) (m : Man) (d : Nat) (e : Bool) (hl : p.open_.length + 1 + h ≤ 2048) :
    ∀ (xs : List (Bytes × J)), (∀ x ∈ xs, Text x.1) → (∀ x ∈ xs, Reads h x.2) → ∀ (ys : List (Bytes × J)) (k0 : Bytes) (rest : Bool)
      (r : Bytes), ((ys ++ xs).map Prod.fst).Nodup →
    G (inObj p (if rest then .objDelim else .objInit) ys k0) (members m d e rest xs ++ ((if e then indent m d else []) ++ 125 :: r)) =
      G (p.value (.obj (ys ++ xs))) r := by
  intro xs
  induction xs with
  | nil =>
    intro _ _ ys k0 rest r _
    rw [members, List.nil_append, List.append_nil, G_ws (by cases rest <;> rfl) rfl (ws_if m d e)]
    exact close_obj p (by cases rest <;> simp) ys k0 r
  | cons x xs ih =>
    intro hk hx ys k0 rest r hnd
    obtain ⟨k, x⟩ := x
    have hstop : Stop (members m d e true xs ++ ((if e then indent m d else []) ++ 125 :: r)) :=
      members_stop m d e xs (stop_ws (ws_if m d e) (stop_cons (by decide) _))
    have hnew : k ∉ ys.map Prod.fst := by
      rw [List.map_append, List.nodup_append] at hnd
      intro hm
      exact hnd.2.2 k hm k (by simp) rfl
    have go : ∀ s : St, s = .objInit ∨ s = .objKey →
        G (inObj p s ys k0) ((if e then indent m (d + 1) else []) ++ (34 :: (encode k ++ 34 :: (colon m e ++ (text m (d + 1) x ++
          (members m d e true xs ++ ((if e then indent m d else []) ++ 125 :: r))))))) =
        G (p.value (.obj (ys ++ (k, x) :: xs))) r := by
      intro s hs
      rw [G_ws (by rcases hs with rfl | rfl <;> rfl) rfl (ws_if m (d + 1) e), read_key (p := inObj p s ys k0) hs rfl rfl (hk (k, x) (by simp))]
      show G (inObj p .objColon ys k) _ = _
      rw [colon_obj, hx (k, x) (by simp) (inObj p .objVal ys k) m (d + 1) _ rfl rfl
        (by show p.open_.length + 1 + h ≤ 2048; exact hl) hstop]
      have := ih (fun x hx' => hk x (by simp [hx'])) (fun x hx' => hx x (by simp [hx'])) (ys ++ [(k, x)]) k true r (by simpa using hnd)
      rw [List.append_assoc] at this
      rw [← put_new hnew] at this
      exact this
    rw [members]
    simp only [List.append_assoc, List.cons_append]
    cases rest with
    | false => exact go .objInit (Or.inl rfl)
    | true =>
      show G (inObj p .objDelim ys k0) (comma m e ++ _) = _
      rw [comma_obj]
      exact go .objKey (Or.inr rfl)

theorem size_lt {p : P} {h : Nat} (hl : p.open_.length + (h + 1) ≤ 2048) : p.size ≠ 2048 := by
  unfold P.size; split <;> omega

theorem fit_reads {h : Nat} {j : J} (hf : Fit h j) : Reads h j := by
  induction hf with
  | null h =>
    intro p m d r hv hn _ _
    exact read_word hv hn (Or.inl rfl) (w := [117, 108, 108]) r (by cases r <;> rfl)
  | bool h b =>
    intro p m d r hv hn _ _
    cases b with
    | true => exact read_word hv hn (Or.inr (Or.inr rfl)) (w := [114, 117, 101]) r (by cases r <;> rfl)
    | false => exact read_word hv hn (Or.inr (Or.inl rfl)) (w := [97, 108, 115, 101]) r (by cases r <;> rfl)
  | num h n hn' =>
    intro p m d r hv hn _ hr
    exact read_num hv hn hn' hr
  | str h s hs =>
    intro p m d r hv hn _ _
    exact read_str hv hn hs r
  | arr h xs hx ih =>
    intro p m d r hv hn hl _
    have e1 : ∀ r, feedAll p (91 :: r) = feedAll (inArr p .arrInit []) r := by
      intro r
      refine round_step (val_over hv) hn (r' := r) ?_ nofun nofun
      unfold P.round
      rw [if_neg (by omega), if_neg (by omega), if_neg (by omega), if_neg (by omega), if_neg (by omega), if_pos rfl, if_pos ⟨hv, size_lt hl⟩]
      rfl
    have e2 := elems_read p m d (m.expanded d (.arr xs)) (by omega) xs ih [] false r
    rw [text]
    simp only [List.cons_append, List.append_assoc, List.nil_append]
    rw [G, e1]
    exact e2
  | obj h xs hd hk hx ih =>
    intro p m d r hv hn hl _
    have e1 : ∀ r, feedAll p (123 :: r) = feedAll (inObj p .objInit [] []) r := by
      intro r
      refine round_step (val_over hv) hn (r' := r) ?_ nofun nofun
      unfold P.round
      rw [if_neg (by omega), if_neg (by omega), if_neg (by omega), if_pos rfl, if_pos ⟨hv, size_lt hl⟩]
      rfl
    have e2 := members_read p m d (m.expanded d (.obj xs)) (by omega) xs hk ih [] [] false r (by simpa using hd)
    rw [text]
    simp only [List.cons_append, List.append_assoc, List.nil_append]
    rw [G, e1]
    exact e2

theorem G_unparse {j : J} (hf : Fit 2048 j) (m : Man) :
    G {} (unparse m j) = ({ st := .final, res := j }, if m.nl then [10] else []) := by
  have hs : Stop (if m.nl then [10] else []) := by
    split
    · exact stop_cons (by decide) _
    · intro b r e; cases e
  rw [unparse, fit_reads hf {} m 0 _ rfl rfl (by simp) hs]
  show finish2 (feedAll ({ st := .final, res := j } : P) _) = _
  rw [feedAll_over rfl]
  rfl

/-- What was printed is read. -/
theorem parse_unparse {j : J} (hf : Fit 2048 j) (m : Man) : parse (unparse m j) = .ok j := by
  have hg := G_unparse hf m
  have hc : P.consume {} (unparse m j) true = ({ st := .final, res := j }, if m.nl then [10] else []) := by
    rcases consume_out ok_start (unparse m j) with ⟨_, h⟩ | h | ⟨_, h⟩
    · exact absurd (congrArg (fun x => x.1.st) hg) h
    · rw [h]; exact hg
    · exact absurd (congrArg (fun x => x.1.st) hg) h
  unfold parse
  rw [hc]
  cases m.nl <;> rfl

/-- What was printed is read, in chunks. -/
theorem run_unparse {j : J} (hf : Fit 2048 j) (m : Man) {cs : List Bytes} (hc : cs.flatten = unparse m j) (hl : ∀ c ∈ cs, ¬ Lead c) :
    P.run {} cs = ({ st := .final, res := j }, if m.nl then [10] else []) := by
  have hg := G_unparse hf m
  rw [← hc] at hg
  rcases run_lead cs {} ok_start hl with h | ⟨_, h⟩
  · rw [h]; exact hg
  · exact absurd (congrArg (fun x => x.1.st) hg) h

end Verif.Json
