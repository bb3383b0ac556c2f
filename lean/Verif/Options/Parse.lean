import Verif.Options.Find
import Verif.Options.Types

/-! What whole command lines mean. -/
namespace Verif.Options

variable {V : Type}

/-! ## Progress -/

/-- How much is left to read. -/
def State.size (s : State) : Nat :=
  (s.rest.map fun t => t.length + 1).sum + if s.isShort then (s.xtext.getD []).length else 0

/-- What one step gives: the end, or something and less to read. -/
structure Step (s : State) (w : Nat) (x : State × Bool × Option Str) : Prop where
  less : (x.1.size < s.size ∧ (x.2.1 = true ∨ x.2.2 ≠ none)) ∨
    (x.2 = (false, none) ∧ s.rest = [] ∧ x.1.rest = [] ∧ x.1.isShort = false)
  processing : x.1.processing = s.processing
  ok : x.1.isShort = true → x.1.xtext.getD [] ≠ []
  arg : 1 < w → x.2.1 = false

theorem nextWord_step (s : State) (w : Nat) : Step s w (nextWord s w) := by
  unfold nextWord
  rcases hr : s.rest with _ | ⟨t, rest⟩
  · exact ⟨Or.inr ⟨rfl, hr, rfl, rfl⟩, rfl, by simp, by simp⟩
  · simp only
    split
    · exact ⟨Or.inl ⟨by simp [State.size, hr]; omega, by simp⟩, rfl, by simp, by simp⟩
    · rename_i hw
      split
      · exact ⟨Or.inl ⟨by simp [State.size, hr]; omega, by simp⟩, rfl, by simp, fun h => absurd h hw⟩
      · exact ⟨Or.inl ⟨by simp [State.size, hr]; omega, by simp⟩, rfl, by simp, fun h => absurd h hw⟩
      · exact ⟨Or.inl ⟨by simp [State.size, hr]; omega, by simp⟩, rfl, by simp, by simp⟩

theorem nextArgument_step (s : State) (w : Nat) (hx : s.isShort = true → s.xtext.getD [] ≠ []) :
    Step s w (nextArgument s w) := by
  unfold nextArgument
  split
  · rename_i hs
    have hlen := List.length_pos_iff.2 (hx hs)
    split
    · exact nextWord_step s w
    · rename_i c t hd
      have hl : t.length + 2 ≤ (s.xtext.getD []).length := by
        have := congrArg List.length hd
        simp at this; omega
      split
      · exact ⟨Or.inl ⟨by simp [State.size, hs]; omega, by simp⟩, rfl, by simp, by simp⟩
      · exact ⟨Or.inl ⟨by simp [State.size, hs]; omega, by simp⟩, rfl, by simp, by intro h; omega⟩
  · exact nextWord_step s w

theorem Step.le {s : State} {w : Nat} {x : State × Bool × Option Str} (h : Step s w x) : x.1.size ≤ s.size := by
  rcases h.less with h | ⟨-, -, h1, h2⟩
  · exact h.1.le
  · simp [State.size, h1, h2]

/-- The state between calls: in a word of short options, the one being read is there. -/
def State.Ok (s : State) : Prop := s.isShort = true → s.xtext.getD [] ≠ []

theorem parseValue_state {i : Nat} {neg : Bool} {vt : ValType V} {c : Bool} {save s : State} {v : Option Str} :
    ((parseValue i neg vt c save s v).2 = s ∨ (parseValue i neg vt c save s v).2 = save) ∧
      (parseValue i neg vt c save s v).1 ≠ .abort ∧ (parseValue i neg vt c save s v).1 ≠ .done := by
  unfold parseValue
  split
  · simp
  · split
    · simp
    · split <;> simp

theorem withOption_state (p : Parser V) (s : State) (e : Entry) (i : Nat) (neg : Bool) (v : Option Str) (hs : s.Ok) :
    (withOption p s e i neg v).2.size ≤ s.size ∧ (withOption p s e i neg v).2.Ok ∧ (withOption p s e i neg v).1 ≠ .abort ∧
      (withOption p s e i neg v).1 ≠ .done := by
  have le : ∀ w, (nextArgument s w).1.size ≤ s.size := fun w => (nextArgument_step s w hs).le
  have ok : ∀ w, (nextArgument s w).1.Ok := fun w => (nextArgument_step s w hs).ok
  have pv : ∀ {i neg} {vt : ValType V} {c s' v}, s'.size ≤ s.size → s'.Ok →
      (parseValue i neg vt c s s' v).2.size ≤ s.size ∧ (parseValue i neg vt c s s' v).2.Ok ∧
        (parseValue i neg vt c s s' v).1 ≠ .abort ∧ (parseValue i neg vt c s s' v).1 ≠ .done := by
    intro i neg vt c s' v h1 h2
    obtain ⟨h | h, ha⟩ := parseValue_state (i := i) (neg := neg) (vt := vt) (c := c) (save := s) (s := s') (v := v)
    · rw [h]; exact ⟨h1, h2, ha⟩
    · rw [h]; exact ⟨Nat.le_refl _, hs, ha⟩
  unfold withOption
  split
  · split <;> simp [hs]
  · split
    · simp [hs]
    · split
      · simp [hs]
      · rename_i vt _
        simp only
        split
        · split
          · simp [hs]
          · rename_i s' b w heq
            have h1 := le (if vt.disallow then 1 else 2)
            have h2 := ok (if vt.disallow then 1 else 2)
            rw [heq] at h1 h2
            exact pv h1 h2
        · split
          · exact pv (le 1) (ok 1)
          · exact pv (Nat.le_refl _) hs

theorem plain_state (s : State) (v : Option Str) : (plain (V := V) s v).2 = s ∧ (plain (V := V) s v).1 ≠ .abort ∧
    ((plain (V := V) s v).1 = .done ↔ v = none) := by
  unfold plain; split <;> simp

theorem unknown_state (s : State) (hs : s.Ok) : (unknown (V := V) s).2.size ≤ s.size ∧ (unknown (V := V) s).2.Ok ∧
    (unknown (V := V) s).1 ≠ .abort ∧
    ((unknown (V := V) s).1 = .done → (unknown (V := V) s).2.rest = [] ∧ (unknown (V := V) s).2.isShort = false) := by
  unfold unknown
  split
  · have hs' : State.Ok { s with processing := false } := hs
    have hz : State.size { s with processing := false } = s.size := rfl
    have h := nextArgument_step { s with processing := false } 2 hs'
    have hle := h.le
    rw [hz] at hle
    generalize nextArgument { s with processing := false } 2 = x at h hle
    obtain ⟨s', b, v⟩ := x
    obtain ⟨p1, p2, p3⟩ := plain_state (V := V) s' v
    simp only [p1]
    refine ⟨hle, h.ok, p2, ?_⟩
    intro hd
    have hv := p3.1 hd
    rcases h.less with ⟨-, h1 | h1⟩ | ⟨-, -, h1, h2⟩
    · have := h.arg (by omega); simp_all
    · exact absurd hv h1
    · exact ⟨h1, h2⟩
  · simp [hs]

/-- What is looked for when there is an option. -/
def lookup (es : List Entry) (s : State) : Long :=
  if s.isShort then
    match (s.xtext.getD []).head? with
    | none => .none
    | some c => match findShort es c with | some (i, neg) => .found i neg none | none => .none
  else findLong es (s.xtext.getD [])

theorem lookup_spec {os : List Opt} (hg : Good os) (s : State) :
    lookup (setOptions os) s = .none ∨ ∃ i neg v e, lookup (setOptions os) s = .found i neg v ∧ (setOptions os)[i]? = some e := by
  unfold lookup
  split
  · split
    · exact Or.inl rfl
    · rename_i c _
      unfold findShort
      rcases hf : (setOptions os).findIdx? fun e => e.io.ishort && e.o.short == some c with _ | i
      · exact Or.inl (by simp [hf])
      · obtain ⟨hi, -⟩ := List.findIdx?_eq_some_iff_getElem.1 hf
        refine Or.inr ⟨i, !(((setOptions os)[i]?).map (·.io.ipos)).getD true, none, _, ?_, List.getElem?_eq_getElem hi⟩
        simp only [hf]
  · rcases findLong_spec hg (s.xtext.getD []) with h | ⟨k, i, v, h, o, a, ho, -⟩
    · exact Or.inl h
    · have hi : i < (setOptions os).length := by
        have := (List.getElem?_eq_some_iff.1 ho).1
        simpa [setOptions, calculateLmm] using this
      exact Or.inr ⟨i, _, v, _, h, List.getElem?_eq_getElem hi⟩

theorem next_eq (p : Parser V) (s : State) : next p s =
    match nextArgument s (if s.processing then 0 else 2) with
    | (s, false, v) => plain s v
    | (s, true, _) =>
      match lookup p.es s with
      | .abort => (.abort, s)
      | .none => unknown s
      | .found i neg v =>
        match p.es[i]? with
        | none => (.abort, s)
        | some e => if neg && !e.io.ineg then unknown s else withOption p s e i neg v := rfl

/-- Each call gets on, or is the last; no assertion fails. -/
theorem next_step {os : List Opt} (hg : Good os) (ts : Types V) (s : State) (hs : s.Ok) :
    let x := next ⟨setOptions os, ts⟩ s
    x.1 ≠ .abort ∧ x.2.Ok ∧ (x.2.size < s.size ∨ x.1 = .done) ∧ (x.1 = .done → x.2.rest = [] ∧ x.2.isShort = false) := by
  intro x
  have hx : x = next ⟨setOptions os, ts⟩ s := rfl
  rw [next_eq] at hx
  have h := nextArgument_step s (if s.processing then 0 else 2) hs
  generalize nextArgument s (if s.processing then 0 else 2) = y at h hx
  obtain ⟨s', b, v⟩ := y
  cases b with
  | false =>
    simp only at hx
    obtain ⟨p1, p2, p3⟩ := plain_state (V := V) s' v
    rw [hx, p1]
    refine ⟨p2, h.ok, ?_, ?_⟩
    · rcases h.less with h1 | h1
      · exact Or.inl h1.1
      · exact Or.inr (p3.2 (by simpa using h1.1))
    · intro hd
      have hv := p3.1 hd
      rcases h.less with ⟨-, h1 | h1⟩ | h1
      · simp at h1
      · exact absurd hv h1
      · exact ⟨h1.2.2.1, h1.2.2.2⟩
  | true =>
    simp only at hx
    have hlt : s'.size < s.size := by
      rcases h.less with h1 | h1
      · exact h1.1
      · simp at h1
    have hok : s'.Ok := h.ok
    obtain ⟨u1, u2, u3, u4⟩ := unknown_state (V := V) s' hok
    have hu : x = unknown s' → x.1 ≠ .abort ∧ x.2.Ok ∧ (x.2.size < s.size ∨ x.1 = .done) ∧
        (x.1 = .done → x.2.rest = [] ∧ x.2.isShort = false) := by
      intro he; rw [he]; exact ⟨u3, u2, Or.inl (by omega), u4⟩
    rcases lookup_spec hg s' with hl | ⟨i, neg, w, e, hl, he⟩
    · simp only [hl] at hx; exact hu hx
    · simp only [hl, he] at hx
      split at hx
      · exact hu hx
      · obtain ⟨w1, w2, w3, w4⟩ := withOption_state ⟨setOptions os, ts⟩ s' e i neg w hok
        rw [hx]
        exact ⟨w3, w2, Or.inl (by omega), fun hd => absurd hd w4⟩

theorem results_done {os : List Opt} (hg : Good os) (ts : Types V) (n : Nat) (s : State) (hs : s.Ok) (hn : s.size < n) :
    ∃ k ≤ s.size, (next ⟨setOptions os, ts⟩ (after ⟨setOptions os, ts⟩ k s)).1 = .done := by
  induction n generalizing s with
  | zero => omega
  | succ n ih =>
    obtain ⟨-, h2, h3, -⟩ := next_step hg ts s hs
    rcases h3 with h3 | h3
    · obtain ⟨k, hk, hd⟩ := ih (next ⟨setOptions os, ts⟩ s).2 h2 (by omega)
      exact ⟨k + 1, by omega, hd⟩
    · exact ⟨0, by omega, h3⟩

/-! ## Command lines -/

/-- The word would be read as an option. -/
def LooksOption (t : Str) : Prop := ∃ c u, t = '-' :: c :: u

/-- The option needs a value. -/
def Opt.Needs (o : Opt) : Prop := o.valType ≠ 0 ∧ (o.optional = false ∨ o.mandatory = true)

instance (o : Opt) : Decidable o.Needs := by unfold Opt.Needs; infer_instance

/-- The option can only be negated. -/
def Opt.onlyNo (o : Opt) : Bool := decide (noDash <+: o.long.getD []) || o.onlyNegated

/-- The first option in the table with this short name. -/
def FirstShort (os : List Opt) (c : Char) (i : Nat) (o : Opt) : Prop :=
  os[i]? = some o ∧ o.short = some c ∧ ∀ j o', j < i → os[j]? = some o' → o'.short ≠ some c

instance (os : List Opt) (c : Char) (i : Nat) (o : Opt) : Decidable (FirstShort os c i o) :=
  decidable_of_iff (os[i]? = some o ∧ o.short = some c ∧ ∀ o' ∈ os.take i, o'.short ≠ some c) (by
    refine and_congr_right fun hi => and_congr_right fun _ => ⟨fun h j o' hj ho' => h o' ?_, fun h o' ho' => ?_⟩
    · exact List.mem_of_getElem? (i := j) (by rw [List.getElem?_take, if_pos hj]; exact ho')
    · obtain ⟨j, hj⟩ := List.getElem?_of_mem ho'
      rw [List.getElem?_take] at hj
      split at hj
      · exact h j o' (by assumption) hj
      · simp at hj)

/-- The word is a value for the option. -/
def Value (ts : Types V) (o : Opt) (w : Str) (y : V) : Prop :=
  o.valType ≠ 0 ∧ ∃ vt, ts.find o.valType = some vt ∧ vt.func w = some y

/-- The next word can be taken as the value: the option needs one, and if the type does not allow words that look like options,
the word is not one. -/
def NextValue (ts : Types V) (o : Opt) (w : Str) (y : V) : Prop :=
  o.Needs ∧ ∃ vt, ts.find o.valType = some vt ∧ vt.func w = some y ∧ (vt.disallow = true → ¬ LooksOption w)

/-- What the letters after `-` and the words after them say. -/
inductive Cluster (os : List Opt) (ts : Types V) : Str → List Str → List (Res V) → Prop
  | flag {c i o} : FirstShort os c i o → o.valType = 0 ∨ o.onlyNo = true → Cluster os ts [c] [] [.opt i o.onlyNo none]
  | more {c i o cs as rs} : FirstShort os c i o → o.valType = 0 ∨ o.onlyNo = true → cs ≠ [] → Cluster os ts cs as rs →
      Cluster os ts (c :: cs) as (.opt i o.onlyNo none :: rs)
  | attached {c i o d w y} : FirstShort os c i o → o.onlyNo = false → d ≠ '=' → Value ts o (d :: w) y →
      Cluster os ts (c :: d :: w) [] [.opt i false (some (d :: w, y))]
  | equals {c i o w y} : FirstShort os c i o → o.onlyNo = false → Value ts o w y →
      Cluster os ts (c :: '=' :: w) [] [.opt i false (some (w, y))]
  | next {c i o w y} : FirstShort os c i o → o.onlyNo = false → NextValue ts o w y →
      Cluster os ts [c] [w] [.opt i false (some (w, y))]
  | bare {c i o vt} : FirstShort os c i o → o.onlyNo = false → o.valType ≠ 0 → ¬ o.Needs → ts.find o.valType = some vt →
      Cluster os ts [c] [] [.opt i false none]
  | refused {c i o vt d w as rs} : FirstShort os c i o → o.onlyNo = false → o.valType ≠ 0 → ¬ o.Needs →
      ts.find o.valType = some vt → vt.func (if d = '=' then w else d :: w) = none → Cluster os ts (d :: w) as rs →
      Cluster os ts (c :: d :: w) as (.opt i false none :: rs)

/-- What some words say. -/
inductive Says (os : List Opt) (ts : Types V) : List Str → List (Res V) → Prop
  | flag {k i o} : First os false k i o → '=' ∉ k → o.valType = 0 → Says os ts ['-' :: '-' :: k] [.opt i false none]
  | bare {k i o vt} : First os false k i o → '=' ∉ k → o.valType ≠ 0 → ¬ o.Needs → ts.find o.valType = some vt →
      Says os ts ['-' :: '-' :: k] [.opt i false none]
  | equals {k i o w y} : First os false k i o → '=' ∉ k → Value ts o w y →
      Says os ts ['-' :: '-' :: (k ++ '=' :: w)] [.opt i false (some (w, y))]
  | wrong {k i o w vt} : First os false k i o → '=' ∉ k → o.valType ≠ 0 → ts.find o.valType = some vt → vt.func w = none →
      Says os ts ['-' :: '-' :: (k ++ '=' :: w)] [.bad]
  | next {k i o w y} : First os false k i o → '=' ∉ k → NextValue ts o w y →
      Says os ts ['-' :: '-' :: k, w] [.opt i false (some (w, y))]
  | no {k i o} : First os true k i o → '=' ∉ k → Unlike os false (noDash ++ k) →
      Says os ts ['-' :: '-' :: (noDash ++ k)] [.opt i true none]
  | letters {c cs as rs} : c ≠ '-' → Cluster os ts (c :: cs) as rs → Says os ts (('-' :: c :: cs) :: as) rs
  | word {t} : ¬ LooksOption t → Says os ts [t] [.notOption t]

/-- The parser is about to read these words. -/
structure At (ws : List Str) (s : State) : Prop where
  rest : s.rest = ws
  processing : s.processing = true
  short : s.isShort = true → (s.xtext.getD []).drop 1 = []

theorem At.arg {ws : List Str} {s : State} (h : At ws s) (w : Nat) : nextArgument s w = nextWord s w := by
  unfold nextArgument
  split
  · rename_i hs; rw [h.short hs]
  · rfl

theorem mk_flags (o : Opt) : (mk o).io.imandatory = decide o.Needs ∧
    (mk o).io.ioptional = decide (o.valType ≠ 0 ∧ o.optional = true) ∧ (mk o).io.ipos = !o.onlyNo ∧
    (o.onlyNo = true → (mk o).io.ineg = true) ∧ (mk o).io.ishort = o.short.isSome ∧ (mk o).o = o := by
  have := massage_no o
  unfold mk massage Opt.Needs Opt.onlyNo
  refine ⟨?_, ?_, ?_, ?_, rfl, rfl⟩ <;> simp only <;> grind

theorem flags {os : List Opt} {i : Nat} {o : Opt} (h : os[i]? = some o) :
    ∃ e, (setOptions os)[i]? = some e ∧ e.o = o ∧ e.io.imandatory = decide o.Needs ∧
      e.io.ioptional = decide (o.valType ≠ 0 ∧ o.optional = true) ∧ e.io.ipos = !o.onlyNo ∧
      (o.onlyNo = true → e.io.ineg = true) ∧ (∀ neg, o.Takes neg → e.usable neg = true) := by
  have hi : i < (setOptions os).length := by
    have := (List.getElem?_eq_some_iff.1 h).1
    simpa [setOptions, calculateLmm] using this
  obtain ⟨o', ho', -, hm⟩ := entry os i _ (List.getElem?_eq_getElem hi)
  obtain rfl : o = o' := Option.some.inj (h.symm.trans ho')
  obtain ⟨h1, h2, h3, h4, -, h6⟩ := mk_flags o
  refine ⟨_, List.getElem?_eq_getElem hi, hm.alike.o.trans h6, hm.alike.imandatory.trans h1, hm.alike.ioptional.trans h2,
    hm.alike.ipos.trans h3, fun h => hm.alike.ineg.trans (h4 h), fun neg ht => (hm.usable neg).2 ht⟩

theorem findShort_first {os : List Opt} {c : Char} {i : Nat} {o : Opt} (h : FirstShort os c i o) :
    findShort (setOptions os) c = some (i, o.onlyNo) := by
  obtain ⟨ho, hc, hfirst⟩ := h
  obtain ⟨e, he, -, -, -, hpos, -⟩ := flags ho
  obtain ⟨o', ho', -, hm⟩ := entry os i e he
  obtain rfl : o = o' := Option.some.inj (ho.symm.trans ho')
  have hidx : (setOptions os).findIdx? (fun e => e.io.ishort && e.o.short == some c) = some i := by
    rw [List.findIdx?_eq_some_iff_getElem]
    obtain ⟨hi, hei⟩ := List.getElem?_eq_some_iff.1 he
    refine ⟨hi, ?_, ?_⟩
    · rw [hei, hm.alike.o, hm.alike.ishort]
      rw [(mk_flags o).2.2.2.2.1, (mk_flags o).2.2.2.2.2]
      simp [hc]
    · intro j hj
      obtain ⟨o'', ho'', -, hm'⟩ := entry os j _ (List.getElem?_eq_getElem (hj.trans hi))
      have := hfirst j o'' hj ho''
      rw [hm'.alike.o, (mk_flags o'').2.2.2.2.2]
      simp [this]
  unfold findShort
  rw [hidx]
  simp [he, hpos]

theorem nextWord_long {s : State} {t : Str} {ws : List Str} {w : Nat} (h : s.rest = ('-' :: '-' :: t) :: ws) (hw : ¬ w > 1) :
    nextWord s w = ({ s with cur := '-' :: '-' :: t, rest := ws, xtext := some t, isShort := false }, true, none) := by
  unfold nextWord; rw [h]; simp [hw]

theorem nextWord_short {s : State} {c : Char} {t : Str} {ws : List Str} {w : Nat} (h : s.rest = ('-' :: c :: t) :: ws)
    (hc : c ≠ '-') (hw : ¬ w > 1) :
    nextWord s w = ({ s with cur := '-' :: c :: t, rest := ws, xtext := some (c :: t), isShort := true }, true, none) := by
  unfold nextWord; rw [h]; simp [hw]

theorem nextWord_all {s : State} {t : Str} {ws : List Str} {w : Nat} (h : s.rest = t :: ws) (hw : w > 1) :
    nextWord s w = ({ s with cur := t, rest := ws, xtext := none, isShort := false }, false, some t) := by
  unfold nextWord; rw [h]; simp [hw]

theorem nextWord_word {s : State} {t : Str} {ws : List Str} {w : Nat} (h : s.rest = t :: ws) (ht : ¬ LooksOption t) :
    nextWord s w = ({ s with cur := t, rest := ws, xtext := none, isShort := false }, false, some t) := by
  unfold nextWord; rw [h]; simp only
  split
  · rfl
  · split
    · exact absurd ⟨_, _, rfl⟩ ht
    · exact absurd ⟨_, _, rfl⟩ ht
    · rfl

/-- What is done with an option. -/
def handle (p : Parser V) (s : State) : Res V × State :=
  match lookup p.es s with
  | .abort => (.abort, s)
  | .none => unknown s
  | .found i neg v =>
    match p.es[i]? with
    | none => (.abort, s)
    | some e => if neg && !e.io.ineg then unknown s else withOption p s e i neg v

theorem next_handle {p : Parser V} {s s' : State} {v : Option Str} (hp : s.processing = true)
    (h : nextArgument s 0 = (s', true, v)) : next p s = handle p s' := by
  rw [next_eq, hp, if_pos rfl, h]; rfl

theorem handle_found {p : Parser V} {s : State} {i : Nat} {neg : Bool} {v : Option Str} {e : Entry}
    (hl : lookup p.es s = .found i neg v) (he : p.es[i]? = some e) (hn : neg = true → e.io.ineg = true) :
    handle p s = withOption p s e i neg v := by
  unfold handle
  simp only [hl, he]
  apply if_neg
  cases neg
  · exact fun h => by simp at h
  · rw [hn rfl]; exact fun h => by simp at h

/-- A long option. -/
theorem next_long {os : List Opt} {ts : Types V} {s : State} {t : Str} {ws : List Str} {i : Nat} {neg : Bool} {v : Option Str}
    {e : Entry} (h : At (('-' :: '-' :: t) :: ws) s) (hf : findLong (setOptions os) t = .found i neg v)
    (he : (setOptions os)[i]? = some e) (hn : neg = true → e.io.ineg = true) :
    next ⟨setOptions os, ts⟩ s = withOption ⟨setOptions os, ts⟩
      { s with cur := '-' :: '-' :: t, rest := ws, xtext := some t, isShort := false } e i neg v := by
  rw [next_handle h.processing ((h.arg 0).trans (nextWord_long h.rest (by omega)))]
  exact handle_found (by simp [lookup, hf]) he hn

theorem withOption_flag {p : Parser V} {s : State} {e : Entry} {i : Nat} {neg : Bool}
    (h : neg = true ∨ (e.io.imandatory = false ∧ e.io.ioptional = false)) :
    withOption p s e i neg none = (.opt i neg none, s) := by
  unfold withOption
  rw [if_pos (by rcases h with h | h <;> simp [h])]
  simp

theorem withOption_value {p : Parser V} {s : State} {e : Entry} {i : Nat} {w : Str} {y : V} {vt : ValType V}
    (h : e.io.imandatory = true ∨ e.io.ioptional = true) (h0 : e.o.valType ≠ 0) (hf : p.types.find e.o.valType = some vt)
    (hy : vt.func w = some y) :
    withOption p s e i false (some w) = (.opt i false (some (w, y)), s) := by
  unfold withOption
  rw [if_neg (by rcases h with h | h <;> simp [h]), if_neg h0]
  simp [hf, parseValue, hy]

theorem withOption_next {p : Parser V} {s s' : State} {e : Entry} {i : Nat} {b : Bool} {w : Str} {y : V} {vt : ValType V}
    (h : e.io.imandatory = true) (h0 : e.o.valType ≠ 0) (hf : p.types.find e.o.valType = some vt)
    (hy : vt.func w = some y) (ha : nextArgument s (if vt.disallow then 1 else 2) = (s', b, some w)) :
    withOption p s e i false none = (.opt i false (some (w, y)), s') := by
  unfold withOption
  rw [if_neg (by simp [h]), if_neg h0]
  simp [hf, parseValue, hy, h, ha]

theorem withOption_bare {p : Parser V} {s : State} {e : Entry} {i : Nat} {vt : ValType V}
    (h : e.io.imandatory = false) (ho : e.io.ioptional = true) (h0 : e.o.valType ≠ 0) (hf : p.types.find e.o.valType = some vt)
    (hs : s.isShort = false) : withOption p s e i false none = (.opt i false none, s) := by
  unfold withOption
  rw [if_neg (by simp [ho]), if_neg h0]
  simp [hf, parseValue, h, hs]

theorem withOption_wrong {p : Parser V} {s : State} {e : Entry} {i : Nat} {w : Str} {vt : ValType V}
    (h : e.io.imandatory = true ∨ e.io.ioptional = true) (h0 : e.o.valType ≠ 0) (hf : p.types.find e.o.valType = some vt)
    (hy : vt.func w = none) : withOption p s e i false (some w) = (.bad, s) := by
  unfold withOption
  rw [if_neg (by rcases h with h | h <;> simp [h]), if_neg h0]
  simp [hf, parseValue, hy]

theorem withOption_bareShort {p : Parser V} {s : State} {e : Entry} {i : Nat} {vt : ValType V}
    (h : e.io.imandatory = false) (ho : e.io.ioptional = true) (h0 : e.o.valType ≠ 0) (hf : p.types.find e.o.valType = some vt)
    (hx : (s.xtext.getD []).drop 1 = []) : withOption p s e i false none = (.opt i false none, s) := by
  unfold withOption
  rw [if_neg (by simp [ho]), if_neg h0]
  simp [hf, parseValue, h, hx]

theorem withOption_refused {p : Parser V} {s s' : State} {e : Entry} {i : Nat} {w : Str} {vt : ValType V}
    (h : e.io.imandatory = false) (ho : e.io.ioptional = true) (h0 : e.o.valType ≠ 0) (hf : p.types.find e.o.valType = some vt)
    (hs : s.isShort = true) (hd : (s.xtext.getD []).drop 1 ≠ []) (ha : nextArgument s 1 = (s', false, some w))
    (hy : vt.func w = none) : withOption p s e i false none = (.opt i false none, s) := by
  unfold withOption
  rw [if_neg (by simp [ho]), if_neg h0]
  have hd' : ((s.xtext.getD []).drop 1 != []) = true := by simpa using hd
  simp only [hf, h, hs, hd', ha, parseValue, hy]
  simp

theorem withOption_rest {p : Parser V} {s s' : State} {e : Entry} {i : Nat} {w : Str} {y : V} {vt : ValType V}
    (h : e.io.imandatory = true ∨ e.io.ioptional = true) (h0 : e.o.valType ≠ 0) (hf : p.types.find e.o.valType = some vt)
    (hy : vt.func w = some y) (hs : s.isShort = true) (hd : (s.xtext.getD []).drop 1 ≠ [])
    (ha : ∀ n, 0 < n → nextArgument s n = (s', false, some w)) :
    withOption p s e i false none = (.opt i false (some (w, y)), s') := by
  by_cases hm : e.io.imandatory = true
  · exact withOption_next hm h0 hf hy (ha _ (by split <;> omega))
  · have ho : e.io.ioptional = true := h.resolve_left hm
    have hm' : e.io.imandatory = false := by simpa using hm
    unfold withOption
    rw [if_neg (by simp [ho]), if_neg h0]
    have hd' : ((s.xtext.getD []).drop 1 != []) = true := by simpa using hd
    simp only [hf, hm', hs, hd', ha 1 (by omega), parseValue, hy]
    simp

theorem Value.flags {ts : Types V} {o : Opt} {w : Str} {y : V} (h : Value ts o w y) :
    decide o.Needs = true ∨ decide (o.valType ≠ 0 ∧ o.optional = true) = true := by
  by_cases ho : o.optional = true
  · exact Or.inr (by simp [h.1, ho])
  · exact Or.inl (decide_eq_true ⟨h.1, Or.inl (by simpa using ho)⟩)

theorem optional_of {o : Opt} (h0 : o.valType ≠ 0) (hn : ¬ o.Needs) : o.optional = true := by
  by_contra hc
  exact hn ⟨h0, Or.inl (by simpa using hc)⟩

theorem nextArgument_rest {s : State} {c d : Char} {w : Str} {n : Nat} (hs : s.isShort = true) (hx : s.xtext = some (c :: d :: w))
    (hn : 0 < n) : nextArgument s n =
      ({ s with xtext := some (d :: w), isShort := false }, false, some (if d = '=' then w else d :: w)) := by
  unfold nextArgument
  simp [hs, hx, hn]

theorem lookup_short {os : List Opt} {s : State} {c : Char} {cs : Str} {i : Nat} {o : Opt} (hs : s.isShort = true)
    (hx : s.xtext = some (c :: cs)) (h : FirstShort os c i o) : lookup (setOptions os) s = .found i o.onlyNo none := by
  simp [lookup, hs, hx, findShort_first h]

/-- A word of short options. -/
theorem cluster_run {os : List Opt} {ts : Types V} {cs : Str} {as : List Str} {rs : List (Res V)} (hc : Cluster os ts cs as rs)
    {s : State} {ws : List Str} (hs : s.isShort = true) (hx : s.xtext = some cs) (hp : s.processing = true)
    (hr : s.rest = as ++ ws) :
    ∃ r rs', rs = r :: rs' ∧ (handle ⟨setOptions os, ts⟩ s).1 = r ∧
      results ⟨setOptions os, ts⟩ rs'.length (handle ⟨setOptions os, ts⟩ s).2 = rs' ∧
      At ws (after ⟨setOptions os, ts⟩ rs'.length (handle ⟨setOptions os, ts⟩ s).2) := by
  induction hc generalizing s with
  | @flag c i o hf h0 =>
    obtain ⟨e, he, -, f1, f2, -, f4, -⟩ := flags hf.1
    have := handle_found (p := ⟨setOptions os, ts⟩) (lookup_short hs hx hf) he f4
    rw [withOption_flag (by
      rcases h0 with h0 | h0
      · exact Or.inr ⟨by rw [f1]; simp [Opt.Needs, h0], by rw [f2]; simp [h0]⟩
      · exact Or.inl h0)] at this
    rw [this]
    exact ⟨_, [], rfl, rfl, rfl, ⟨hr, hp, fun _ => by simp [after, hx]⟩⟩
  | @more c i o cs as rs hf h0 hne _ ih =>
    obtain ⟨e, he, -, f1, f2, -, f4, -⟩ := flags hf.1
    have := handle_found (p := ⟨setOptions os, ts⟩) (lookup_short hs hx hf) he f4
    rw [withOption_flag (by
      rcases h0 with h0 | h0
      · exact Or.inr ⟨by rw [f1]; simp [Opt.Needs, h0], by rw [f2]; simp [h0]⟩
      · exact Or.inl h0)] at this
    rw [this]
    obtain ⟨r, rs', h1, h2, h3, h4⟩ := ih (s := { s with xtext := some cs }) hs rfl hp hr
    have hnext : next ⟨setOptions os, ts⟩ s = handle ⟨setOptions os, ts⟩ { s with xtext := some cs } := by
      apply next_handle (v := none) hp
      cases cs with
      | nil => exact absurd rfl hne
      | cons d cs => unfold nextArgument; simp [hs, hx]
    refine ⟨_, rs, rfl, rfl, ?_, ?_⟩
    · rw [h1]
      simp only [List.length_cons, results, hnext]
      rw [h2, h3]
    · rw [h1]
      simp only [List.length_cons, after, hnext]
      exact h4
  | @attached c i o d w y hf hno hd hv =>
    obtain ⟨e, he, fo, f1, f2, -, f4, -⟩ := flags hf.1
    have := handle_found (p := ⟨setOptions os, ts⟩) (lookup_short hs hx hf) he f4
    obtain ⟨h0, vt, hvt, hy⟩ := hv
    rw [hno, withOption_rest (s' := { s with xtext := some (d :: w), isShort := false }) (w := d :: w)
      (by rw [f1, f2]; exact Value.flags ⟨h0, vt, hvt, hy⟩) (by rw [fo]; exact h0) (by rw [fo]; exact hvt) hy hs (by simp [hx])
      (fun n hn => by rw [nextArgument_rest hs hx hn, if_neg hd])] at this
    rw [this]
    exact ⟨_, [], rfl, rfl, rfl, ⟨hr, hp, fun h => by simp [after] at h⟩⟩
  | @equals c i o w y hf hno hv =>
    obtain ⟨e, he, fo, f1, f2, -, f4, -⟩ := flags hf.1
    have := handle_found (p := ⟨setOptions os, ts⟩) (lookup_short hs hx hf) he f4
    obtain ⟨h0, vt, hvt, hy⟩ := hv
    rw [hno, withOption_rest (s' := { s with xtext := some ('=' :: w), isShort := false }) (w := w)
      (by rw [f1, f2]; exact Value.flags ⟨h0, vt, hvt, hy⟩) (by rw [fo]; exact h0) (by rw [fo]; exact hvt) hy hs (by simp [hx])
      (fun n hn => by rw [nextArgument_rest hs hx hn, if_pos rfl])] at this
    rw [this]
    exact ⟨_, [], rfl, rfl, rfl, ⟨hr, hp, fun h => by simp [after] at h⟩⟩
  | @next c i o w y hf hno hv =>
    obtain ⟨e, he, fo, f1, f2, -, f4, -⟩ := flags hf.1
    have := handle_found (p := ⟨setOptions os, ts⟩) (lookup_short hs hx hf) he f4
    obtain ⟨hneed, vt, hvt, hy, hdis⟩ := hv
    have hat : At (w :: ws) s := ⟨hr, hp, fun _ => by simp [hx]⟩
    have harg : nextArgument s (if vt.disallow then 1 else 2) =
        ({ s with cur := w, rest := ws, xtext := none, isShort := false }, false, some w) := by
      rw [hat.arg]
      by_cases hd : vt.disallow = true
      · exact nextWord_word hat.rest (hdis hd)
      · rw [if_neg hd]; exact nextWord_all hat.rest (by omega)
    rw [hno, withOption_next (by rw [f1]; exact decide_eq_true hneed) (by rw [fo]; exact hneed.1) (by rw [fo]; exact hvt) hy harg] at this
    rw [this]
    exact ⟨_, [], rfl, rfl, rfl, ⟨rfl, hp, fun h => by simp [after] at h⟩⟩

  | @bare c i o vt hf hno h0 hn hvt =>
    obtain ⟨e, he, fo, f1, f2, -, f4, -⟩ := flags hf.1
    have := handle_found (p := ⟨setOptions os, ts⟩) (lookup_short hs hx hf) he f4
    have hopt := optional_of h0 hn
    rw [hno, withOption_bareShort (by rw [f1]; exact decide_eq_false hn) (by rw [f2]; simp [h0, hopt]) (by rw [fo]; exact h0)
      (by rw [fo]; exact hvt) (by simp [hx])] at this
    rw [this]
    exact ⟨_, [], rfl, rfl, rfl, ⟨hr, hp, fun _ => by simp [after, hx]⟩⟩
  | @refused c i o vt d w as rs hf hno h0 hn hvt hy _ ih =>
    obtain ⟨e, he, fo, f1, f2, -, f4, -⟩ := flags hf.1
    have := handle_found (p := ⟨setOptions os, ts⟩) (lookup_short hs hx hf) he f4
    have hopt := optional_of h0 hn
    rw [hno, withOption_refused (by rw [f1]; exact decide_eq_false hn) (by rw [f2]; simp [h0, hopt]) (by rw [fo]; exact h0)
      (by rw [fo]; exact hvt) hs (by simp [hx]) (nextArgument_rest hs hx (by omega)) hy] at this
    rw [this]
    obtain ⟨r, rs', h1, h2, h3, h4⟩ := ih (s := { s with xtext := some (d :: w) }) hs rfl hp hr
    have hnext : next ⟨setOptions os, ts⟩ s = handle ⟨setOptions os, ts⟩ { s with xtext := some (d :: w) } := by
      apply next_handle (v := none) hp
      unfold nextArgument; simp [hs, hx]
    refine ⟨_, rs, rfl, rfl, ?_, ?_⟩
    · rw [h1]
      simp only [List.length_cons, results, hnext]
      rw [h2, h3]
    · rw [h1]
      simp only [List.length_cons, after, hnext]
      exact h4

/-- Words that say something are read as that. -/
theorem says_run {os : List Opt} {ts : Types V} (hg : Good os) {as : List Str} {rs : List (Res V)} (h : Says os ts as rs) {s : State}
    {ws : List Str} (ha : At (as ++ ws) s) :
    results ⟨setOptions os, ts⟩ rs.length s = rs ∧ At ws (after ⟨setOptions os, ts⟩ rs.length s) := by
  have one : ∀ {r : Res V} {s' : State}, next ⟨setOptions os, ts⟩ s = (r, s') → At ws s' →
      results ⟨setOptions os, ts⟩ 1 s = [r] ∧ At ws (after ⟨setOptions os, ts⟩ 1 s) := by
    intro r s' h1 h2
    simp only [results, after, h1]
    exact ⟨trivial, h2⟩
  have pos : ∀ {k : Str} {i : Nat} {o : Opt}, First os false k i o → '=' ∉ k →
      findLong (setOptions os) k = .found i false none := by
    intro k i o hf he
    have := findLong_means hg (arg := k) (i := i) (o := o) (by rw [(keyOf_self k he).1]; exact hf)
    rwa [(keyOf_self k he).2] at this
  cases h with
  | @flag k i o hf he h0 =>
    obtain ⟨e, hi, fo, f1, f2, -⟩ := flags hf.1
    have := next_long (ts := ts) ha (pos hf he) hi (by simp)
    rw [withOption_flag (Or.inr ⟨by rw [f1]; simp [Opt.Needs, h0], by rw [f2]; simp [h0]⟩)] at this
    exact one this ⟨rfl, ha.processing, by simp⟩
  | @bare k i o vt hf he h0 hn hvt =>
    obtain ⟨e, hi, fo, f1, f2, -⟩ := flags hf.1
    have := next_long (ts := ts) ha (pos hf he) hi (by simp)
    have hopt : o.optional = true := by
      by_contra hc
      exact hn ⟨h0, Or.inl (by simpa using hc)⟩
    rw [withOption_bare (by rw [f1]; exact decide_eq_false hn) (by rw [f2]; simp [h0, hopt]) (by rw [fo]; exact h0)
      (by rw [fo]; exact hvt) rfl] at this
    exact one this ⟨rfl, ha.processing, by simp⟩
  | @equals k i o w y hf he hv =>
    obtain ⟨e, hi, fo, f1, f2, -⟩ := flags hf.1
    obtain ⟨hk, hw⟩ := keyOf_append k w he
    have hfl := findLong_means hg (arg := k ++ '=' :: w) (by rw [hk]; exact hf)
    rw [hw] at hfl
    have := next_long (ts := ts) ha hfl hi (by simp)
    obtain ⟨h0, vt, hvt, hy⟩ := hv
    rw [withOption_value (by rw [f1, f2]; exact Value.flags ⟨h0, vt, hvt, hy⟩) (by rw [fo]; exact h0) (by rw [fo]; exact hvt) hy] at this
    exact one this ⟨rfl, ha.processing, by simp⟩
  | @wrong k i o w vt hf he h0 hvt hy =>
    obtain ⟨e, hi, fo, f1, f2, -⟩ := flags hf.1
    obtain ⟨hk, hw⟩ := keyOf_append k w he
    have hfl := findLong_means hg (arg := k ++ '=' :: w) (by rw [hk]; exact hf)
    rw [hw] at hfl
    have := next_long (ts := ts) ha hfl hi (by simp)
    rw [withOption_wrong (by
      rw [f1, f2]
      by_cases hn : o.Needs
      · exact Or.inl (decide_eq_true hn)
      · exact Or.inr (by simp [h0, optional_of h0 hn])) (by rw [fo]; exact h0) (by rw [fo]; exact hvt) hy] at this
    exact one this ⟨rfl, ha.processing, by simp⟩
  | @next k i o w y hf he hv =>
    obtain ⟨e, hi, fo, f1, f2, -⟩ := flags hf.1
    have := next_long (ws := w :: ws) (ts := ts) ha (pos hf he) hi (by simp)
    obtain ⟨hneed, vt, hvt, hy, hdis⟩ := hv
    rw [withOption_next (s' := { s with cur := w, rest := ws, xtext := none, isShort := false }) (b := false) (vt := vt) (w := w) (y := y)
      (by rw [f1]; exact decide_eq_true hneed) (by rw [fo]; exact hneed.1) (by rw [fo]; exact hvt) hy
      (by
        unfold nextArgument
        rw [if_neg (by simp)]
        by_cases hd : vt.disallow = true
        · exact nextWord_word rfl (hdis hd)
        · rw [if_neg hd]; exact nextWord_all rfl (by omega))] at this
    exact one this ⟨rfl, ha.processing, by simp⟩
  | @no k i o hf he hu =>
    obtain ⟨e, hi, fo, f1, f2, -, -, f6⟩ := flags hf.1
    have hfl := findLong_no hg (arg := k) (i := i) (o := o) hu (by rw [(keyOf_self k he).1]; exact hf)
    rw [(keyOf_self k he).2] at hfl
    have hneg : e.io.ineg = true := by
      have := f6 true hf.2.1.2.1
      simp [Entry.usable] at this
      exact this.2
    have := next_long (ts := ts) ha hfl hi (fun _ => hneg)
    rw [withOption_flag (Or.inl rfl)] at this
    exact one this ⟨rfl, ha.processing, by simp⟩
  | @letters c cs as rs hc hcl =>
    have hn : next ⟨setOptions os, ts⟩ s = handle ⟨setOptions os, ts⟩
        { s with cur := '-' :: c :: cs, rest := as ++ ws, xtext := some (c :: cs), isShort := true } :=
      next_handle ha.processing ((ha.arg 0).trans (nextWord_short ha.rest hc (by omega)))
    obtain ⟨r, rs', h1, h2, h3, h4⟩ := cluster_run hcl
      (s := { s with cur := '-' :: c :: cs, rest := as ++ ws, xtext := some (c :: cs), isShort := true }) (ws := ws)
      rfl rfl ha.processing rfl
    rw [h1]
    simp only [List.length_cons, results, after, hn]
    exact ⟨by rw [h2, h3], h4⟩
  | @word t ht =>
    have hn : next ⟨setOptions os, ts⟩ s =
        (.notOption t, { s with cur := t, rest := ws, xtext := none, isShort := false }) := by
      have h0 : (if s.processing = true then 0 else 2) = 0 := by simp [ha.processing]
      rw [next_eq, h0, ha.arg, nextWord_word ha.rest ht]; rfl
    exact one hn ⟨rfl, ha.processing, by simp⟩

/-- What a whole command line says, up to `--`. -/
inductive Line (os : List Opt) (ts : Types V) : List Str → List (Res V) → Prop
  | nil : Line os ts [] []
  | cons {as rs ws qs} : Says os ts as rs → Line os ts ws qs → Line os ts (as ++ ws) (rs ++ qs)

theorem results_add (p : Parser V) (m n : Nat) (s : State) : results p (m + n) s = results p m s ++ results p n (after p m s) := by
  induction m generalizing s with
  | zero => simp [results, after]
  | succ m ih => rw [Nat.succ_add]; simp [results, after, ih]

theorem after_add (p : Parser V) (m n : Nat) (s : State) : after p (m + n) s = after p n (after p m s) := by
  induction m generalizing s with
  | zero => simp [after]
  | succ m ih => rw [Nat.succ_add]; simp [after, ih]

theorem line_run {os : List Opt} {ts : Types V} (hg : Good os) {as : List Str} {rs : List (Res V)} (h : Line os ts as rs) {s : State}
    {ws : List Str} (ha : At (as ++ ws) s) :
    results ⟨setOptions os, ts⟩ rs.length s = rs ∧ At ws (after ⟨setOptions os, ts⟩ rs.length s) := by
  induction h generalizing s with
  | nil => exact ⟨rfl, ha⟩
  | @cons as rs bs qs hs _ ih =>
    rw [List.append_assoc] at ha
    obtain ⟨h1, h2⟩ := says_run hg hs ha
    obtain ⟨h3, h4⟩ := ih h2
    rw [List.length_append, results_add, after_add, h1, h3]
    exact ⟨rfl, h4⟩

theorem At.done {s : State} (h : At [] s) (p : Parser V) : (next p s).1 = .done ∧ At [] (next p s).2 := by
  have : next p s = (.done, { s with xtext := none, isShort := false }) := by
    rw [next_eq, h.arg]
    have hw : nextWord s (if s.processing then 0 else 2) = ({ s with xtext := none, isShort := false }, false, none) := by
      unfold nextWord; rw [h.rest]
    rw [hw]; rfl
  rw [this]
  exact ⟨rfl, h.rest, h.processing, by simp⟩

/-- The state after `--`. -/
theorem words_run (p : Parser V) (ws : List Str) (s : State) (h1 : s.rest = ws) (h2 : s.processing = false) (h3 : s.isShort = false) :
    results p (ws.length + 1) s = ws.map .notOption ++ [.done] := by
  induction ws generalizing s with
  | nil =>
    have : next p s = (.done, { s with xtext := none, isShort := false }) := by
      rw [next_eq]; unfold nextArgument nextWord; simp [h1, h2, h3, plain]
    simp [results, this]
  | cons w ws ih =>
    have : next p s = (.notOption w, { s with cur := w, rest := ws, xtext := none, isShort := false }) := by
      rw [next_eq]; unfold nextArgument nextWord; simp [h1, h2, h3, plain]
    rw [List.length_cons, results, this]
    exact congrArg (List.cons _) (ih { s with cur := w, rest := ws, xtext := none, isShort := false } rfl h2 rfl)

theorem dashes {os : List Opt} {ts : Types V} (hg : Good os) {s : State} {ws : List Str} (h : At (['-', '-'] :: ws) s) :
    results ⟨setOptions os, ts⟩ (ws.length + 1) s = ws.map .notOption ++ [.done] := by
  have hnone : findLong (setOptions os) [] = .none := by
    rcases findLong_spec hg [] with h | ⟨k, i, v, h, o, a, -, -, ha, -, -, hne⟩
    · exact h
    · have : a = [] := (List.append_eq_nil_iff.1 ha.symm).2
      subst this
      exact absurd rfl hne
  have hh : next ⟨setOptions os, ts⟩ s = unknown { s with cur := ['-', '-'], rest := ws, xtext := some [], isShort := false } := by
    rw [next_handle h.processing ((h.arg 0).trans (nextWord_long h.rest (by omega)))]
    unfold handle
    have : lookup (setOptions os) { s with cur := ['-', '-'], rest := ws, xtext := some [], isShort := false } = .none := by
      simp [lookup, hnone]
    simp only [this]
  cases ws with
  | nil =>
    simp only [results, hh]
    unfold unknown nextArgument nextWord
    simp [plain, results]
  | cons w ws =>
    have hw : next (V := V) ⟨setOptions os, ts⟩ s =
        (.notOption w, { s with cur := w, rest := ws, xtext := none, isShort := false, processing := false }) := by
      rw [hh]; unfold unknown nextArgument nextWord; simp [plain]
    rw [List.length_cons, results, hw]
    exact congrArg (List.cons _) (words_run _ ws
      { s with cur := w, rest := ws, xtext := none, isShort := false, processing := false } rfl rfl rfl)

end Verif.Options
