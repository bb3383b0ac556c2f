import Mathlib.Tactic.ByContra
import Verif.Json.Round

/-!
# Containers inside containers
-/
namespace Verif.Json

/-- `j` inside `n` arrays. -/
def within : Nat → J → J
  | 0, j => j
  | n + 1, j => .arr [within n j]

theorem open_arr {p : P} (hv : p.st.val = true) (hn : p.part = .no) (hs : p.size ≠ 2048) (r : Bytes) :
    G p (91 :: r) = G (inArr p .arrInit []) r := by
  have : feedAll p (91 :: r) = feedAll (inArr p .arrInit []) r := by
    refine round_step (val_over hv) hn (r' := r) ?_ nofun nofun
    unfold P.round
    rw [if_neg (by omega), if_neg (by omega), if_neg (by omega), if_neg (by omega), if_neg (by omega), if_pos rfl, if_pos ⟨hv, hs⟩]
    rfl
  rw [G, this]
  rfl

theorem open_obj {p : P} (hv : p.st.val = true) (hn : p.part = .no) (hs : p.size ≠ 2048) (r : Bytes) :
    G p (123 :: r) = G (inObj p .objInit [] []) r := by
  have : feedAll p (123 :: r) = feedAll (inObj p .objInit [] []) r := by
    refine round_step (val_over hv) hn (r' := r) ?_ nofun nofun
    unfold P.round
    rw [if_neg (by omega), if_neg (by omega), if_neg (by omega), if_pos rfl, if_pos ⟨hv, hs⟩]
    rfl
  rw [G, this]
  rfl

/-- `n` arrays around a text. -/
def around (n : Nat) (bs : Bytes) : Bytes := List.replicate n 91 ++ (bs ++ List.replicate n 93)

theorem around_succ (n : Nat) (bs r : Bytes) : around (n + 1) bs ++ r = 91 :: (around n bs ++ 93 :: r) := by
  unfold around
  rw [List.replicate_succ', List.replicate_succ]
  have : List.replicate n 91 ++ [91] = 91 :: List.replicate n 91 := by
    rw [← List.replicate_succ', List.replicate_succ]
  rw [this]
  have h2 : 93 :: List.replicate n 93 = List.replicate n 93 ++ [93] := by
    rw [← List.replicate_succ', List.replicate_succ]
  rw [h2]
  simp

/-- If the parser takes `bs` for `j` under `n` arrays, it takes it for the arrays. -/
theorem G_around {bs : Bytes} {j : J} : ∀ (n : Nat) (p : P), p.st.val = true → p.part = .no →
    p.size ≠ 2048 → (∀ k, 0 < k → k < n → p.open_.length + k ≠ 2049) →
    (∀ (q : P) (r : Bytes), q.st.val = true → q.part = .no → q.open_.length = p.open_.length + n → (q.st = p.st ∨ q.st = .arrInit) →
      G q (bs ++ r) = G (q.value j) r) →
    ∀ r, G p (around n bs ++ r) = G (p.value (within n j)) r := by
  intro n
  induction n with
  | zero =>
    intro p hv hn _ _ h r
    have := h p r hv hn rfl (Or.inl rfl)
    simpa [around, within] using this
  | succ n ih =>
    intro p hv hn hs hk h r
    rw [around_succ, open_arr hv hn hs]
    refine Eq.trans ?_ (close_arr p (Or.inr rfl) [within n j] r)
    by_cases h0 : n = 0
    · subst h0
      have := h (inArr p .arrInit []) (93 :: r) rfl rfl rfl (Or.inr rfl)
      have e : around 0 bs ++ 93 :: r = bs ++ 93 :: r := by simp [around]
      rw [e]
      exact this
    refine ih (inArr p .arrInit []) rfl rfl ?_
      (fun k h0 hk' => by have := hk (k + 1) (by omega) (by omega); show p.open_.length + 1 + k ≠ 2049; omega)
      (fun q r h1 h2 h3 h4 => h q r h1 h2 (by rw [h3]; show p.open_.length + 1 + n = _; omega) (Or.inr (h4.elim id id))) _
    have := hk 1 (by omega) (by omega)
    show p.open_.length + 1 - 1 + 0 ≠ 2048
    omega

theorem parse_of {bs : Bytes} {j : J} (h : G {} bs = ({ st := .final, res := j }, [])) : parse bs = .ok j := by
  have hc : P.consume {} bs true = ({ st := .final, res := j }, []) := by
    rcases consume_out ok_start bs with ⟨_, h'⟩ | h' | ⟨_, h'⟩
    · exact absurd (congrArg (fun x => x.1.st) h) h'
    · rw [h']; exact h
    · exact absurd (congrArg (fun x => x.1.st) h) h'
  unfold parse
  rw [hc]
  rfl

theorem parse_not {bs : Bytes} (h : (G {} bs).1.st ≠ .final) (j : J) : parse bs ≠ .ok j := by
  have hc : (P.consume {} bs true).1.st ≠ .final := by
    rcases consume_out ok_start bs with ⟨h', _⟩ | h' | ⟨h', _⟩
    · rw [h']; exact nofun
    · rw [h']; exact h
    · rw [h']; exact nofun
  intro hp
  unfold parse at hp
  dsimp only at hp
  cases hs : (P.consume {} bs true).1.st <;> rw [hs] at hp <;> first | exact hc hs | cases hp

/-- The text of `{"a":x}`. -/
def member (bs : Bytes) : Bytes := [123, 34, 97, 34, 58] ++ (bs ++ [125])

theorem G_member {bs : Bytes} {j : J} {p : P} (hv : p.st.val = true) (hn : p.part = .no) (hs : p.size ≠ 2048)
    (h : ∀ r, G (inObj p .objVal [] [97]) (bs ++ r) = G (P.value (inObj p .objVal [] [97]) j) r) (r : Bytes) :
    G p (member bs ++ r) = G (p.value (.obj [([97], j)])) r := by
  have e : member bs ++ r = 123 :: 34 :: (encode [97] ++ 34 :: 58 :: (bs ++ 125 :: r)) := by
    unfold member; simp [encode, esc]
  have hk : Text [97] := ⟨['a'], rfl, by intro c hc; simp at hc; subst hc; unfold Good; decide⟩
  rw [e, open_obj hv hn hs, read_key (p := inObj p .objInit [] []) (Or.inl rfl) rfl rfl hk]
  have := colon_obj p {} false [] [97] (bs ++ 125 :: r)
  rw [show colon {} false = [58] from rfl] at this
  refine Eq.trans this ?_
  rw [h]
  exact close_obj p (Or.inr rfl) [([97], j)] [97] r

/-- The limit does not hold for what is in an object in 2048 arrays. -/
theorem parse_deep (n : Nat) : parse (around 2048 (member (around n [110, 117, 108, 108]))) =
    .ok (within 2048 (.obj [([97], within n .null)])) := by
  refine parse_of ?_
  have := G_around (bs := member (around n [110, 117, 108, 108])) (j := .obj [([97], within n .null)]) 2048 {} rfl rfl
    (by decide) (fun k _ hk => by show 0 + k ≠ 2049; omega) (fun q r hv hn hl ht => ?_) []
  · rw [List.append_nil] at this
    rw [this]
    rfl
  have hl : q.open_.length = 2048 := by rw [hl]; rfl
  have hq : q.st ≠ .objVal := by rcases ht with ht | ht <;> rw [ht] <;> exact nofun
  refine G_member hv hn (by unfold P.size; rw [if_neg hq]; omega) (fun r => ?_) r
  refine G_around n _ rfl rfl ?_ (fun k _ _ => ?_) (fun q r hv hn _ _ => ?_) r
  · show q.open_.length + 1 - 1 + 1 ≠ 2048
    omega
  · show q.open_.length + 1 + k ≠ 2049
    omega
  · exact read_word hv hn (Or.inl rfl) (w := [117, 108, 108]) r (by cases r <;> rfl)

/-- After `k` more `[` the parser is in `k` more arrays. -/
theorem G_opens : ∀ (k : Nat) (p : P), p.st.val = true → p.st ≠ .objVal → p.part = .no → p.open_.length + k ≤ 2049 →
    ∀ r, ∃ q : P, q.st.val = true ∧ q.st ≠ .objVal ∧ q.part = .no ∧ q.open_.length = p.open_.length + k ∧
      G p (List.replicate k 91 ++ r) = G q r := by
  intro k
  induction k with
  | zero => intro p h1 h2 h3 _ r; exact ⟨p, h1, h2, h3, rfl, rfl⟩
  | succ k ih =>
    intro p h1 h2 h3 hk r
    obtain ⟨q, g1, g2, g3, g4, g5⟩ := ih (inArr p .arrInit []) rfl nofun rfl (by show p.open_.length + 1 + k ≤ _; omega) r
    refine ⟨q, g1, g2, g3, by rw [g4]; show p.open_.length + 1 + k = _; omega, ?_⟩
    rw [List.replicate_succ, List.cons_append, open_arr h1 h3 (by unfold P.size; rw [if_neg h2]; omega), g5]

/-- More than 2049 `[` in a row at the start are refused. -/
theorem parse_arrays {n : Nat} (hn : 2049 < n) (r : Bytes) (j : J) : parse (List.replicate n 91 ++ r) ≠ .ok j := by
  refine parse_not ?_ j
  obtain ⟨m, rfl⟩ : ∃ m, n = 2049 + (m + 1) := ⟨n - 2050, by omega⟩
  obtain ⟨q, g1, g2, g3, g4, g5⟩ := G_opens 2049 {} rfl nofun rfl (by show 0 + 2049 ≤ _; omega) (91 :: (List.replicate m 91 ++ r))
  have : List.replicate (2049 + (m + 1)) 91 ++ r = List.replicate 2049 91 ++ 91 :: (List.replicate m 91 ++ r) := by
    rw [List.replicate_add, List.replicate_succ (n := m), List.append_assoc, List.cons_append]
  rw [this, g5]
  generalize List.replicate m 91 ++ r = r
  have hs : q.size = 2048 := by
    have : q.open_.length = 2049 := g4
    unfold P.size
    rw [if_neg g2]
    omega
  have hr : q.round false 91 r = (q.fail, []) := by
    unfold P.round
    rw [if_neg (by omega), if_neg (by omega), if_neg (by omega), if_neg (by omega), if_neg (by omega), if_pos rfl, if_neg (fun h => h.2 hs)]
  have := round_ref (val_over g1) g3 91 r
  rw [hr] at this
  rcases this with h | h | h
  · exact h.2.2
  · unfold G
    rw [h.1]
    exact bad_finish (bad_fail q)
  · exact bad_finish h.2

/-- Arrays in arrays are accepted up to 2049 of them. -/
theorem parse_nested (n : Nat) : parse (around n [110, 117, 108, 108]) = .ok (within n .null) ↔ n ≤ 2049 := by
  constructor
  · intro h
    by_contra hn
    exact parse_arrays (n := n) (by omega) _ _ h
  · intro h
    refine parse_of ?_
    have := G_around (bs := [110, 117, 108, 108]) (j := .null) n {} rfl rfl (by decide)
      (fun k _ hk => by show 0 + k ≠ 2049; omega)
      (fun q r hv hn _ _ => read_word hv hn (Or.inl rfl) (w := [117, 108, 108]) r (by cases r <;> rfl)) []
    rw [List.append_nil] at this
    rw [this]
    rfl

end Verif.Json
