import Verif.Options.Parse

/-!
# C70: command lines mean what they say
-/
namespace Verif.Props.C70
open Verif.Options

variable {V : Type}

/-- A parser for the options `os` and the types `ts`. -/
abbrev parser (os : List Opt) (ts : Types V) : Parser V := ⟨setOptions os, ts⟩

/-! ## Long names -/

/-- A key stands for at most one option. -/
theorem one_meaning {os : List Opt} (hg : Good os) {neg : Bool} {key : Str} {o o' : Opt} (h : Means os neg key o)
    (h' : Means os neg key o') : o.id = o'.id := h.unique hg h'

example : Good mtdOptions := by decide +kernel

/-- `ckp` is a name and also the beginning of another. -/
example : Means mtdOptions false "ckp".toList (opt "ckp" none 13 8 true true) ∧
    ¬ Means mtdOptions false "ckp".toList (opt "ckpdir" none 5 1 false false) := by decide +kernel

/-- What is looked for is found if it is the name of an option or begins the names of that option only; the table's order does not
matter.  The value is what follows `=`. -/
theorem found {os : List Opt} (hg : Good os) {arg : Str} {o : Opt} (h : Means os false (keyOf arg) o) :
    ∃ i o', findLong (setOptions os) arg = .found i false (valueOf arg) ∧ os[i]? = some o' ∧ o'.id = o.id := by
  obtain ⟨i, o', hf, hid⟩ := means_first hg h
  exact ⟨i, o', findLong_means hg hf, hf.1, hid⟩

example : Means mtdOptions false (keyOf "thr=5".toList) (opt "threads" (some 'j') 9 4 false false) ∧
    valueOf "thr=5".toList = some ['5'] := by decide +kernel

/-- If a key begins names but stands for no option, nothing is found. -/
theorem ambiguous {os : List Opt} (hg : Good os) {arg : Str} (h : ∀ o, ¬ Means os false (keyOf arg) o)
    (hb : ∃ o ∈ os, o.Takes false ∧ keyOf arg <+: o.word) (hn : ¬ noDash <+: arg) : findLong (setOptions os) arg = .none := by
  have h1 := (findPrefix_spec hg false arg []).2.1 h hb
  rcases hf : findPrefix (setOptions os) false arg [] with ⟨_ | j, amb⟩
  · simp only [findLong, hf]
    unfold findNegated
    split
    · rename_i a; exact absurd ⟨a, rfl⟩ hn
    · rfl
  · rw [hf] at h1; simp at h1

example : (∀ o ∈ mtdOptions, ¬ Means mtdOptions false (keyOf "p".toList) o) ∧
    (∃ o ∈ mtdOptions, o.Takes false ∧ keyOf "p".toList <+: o.word) := by decide +kernel

/-- Nothing else is found, but that dashes of a name may be left out and that `no-` may come several times; an even number of them
means none; and no assertion fails. -/
theorem found_only {os : List Opt} (hg : Good os) (arg : Str) :
    findLong (setOptions os) arg = .none ∨
    ∃ k i v, findLong (setOptions os) arg = .found i (k % 2 == 1) v ∧
      ∃ o a, os[i]? = some o ∧ o.Takes (k % 2 == 1) ∧ arg = nos k a ∧ v = valueOf a ∧ Dashless o.word (keyOf a) ∧
        keyOf a ≠ [] :=
  findLong_spec hg arg

example : findLong (setOptions mtdOptions) "epochint=3".toList = .found 27 false (some ['3']) ∧
    Dashless "epoch-interval".toList "epochint".toList := by decide +kernel

/-- `no-` makes the option negative; twice, positive. -/
theorem negated {os : List Opt} (hg : Good os) {key : Str} (he : '=' ∉ key) {o : Opt} (hu : Unlike os false (noDash ++ key))
    (h : Means os true key o) :
    ∃ i o', findLong (setOptions os) (noDash ++ key) = .found i true none ∧ os[i]? = some o' ∧ o'.id = o.id := by
  obtain ⟨i, o', hf, hid⟩ := means_first hg h
  have := findLong_no hg (arg := key) hu (by rw [(keyOf_self key he).1]; exact hf)
  rw [(keyOf_self key he).2] at this
  exact ⟨i, o', this, hf.1, hid⟩

example : Unlike mtdOptions false (noDash ++ "check".toList) ∧
    Means mtdOptions true "check".toList (opt "checkpoint" (some 'c') 13 8 true true) := by decide +kernel

theorem twice_negated {os : List Opt} (hg : Good os) {arg : Str} {o : Opt} (hu : Unlike os false (noDash ++ (noDash ++ arg)))
    (hu' : Unlike os true (noDash ++ arg)) (h : Means os false (keyOf arg) o) :
    ∃ i o', findLong (setOptions os) (noDash ++ (noDash ++ arg)) = .found i false (valueOf arg) ∧ os[i]? = some o' ∧ o'.id = o.id := by
  obtain ⟨i, o', hf, hid⟩ := means_first hg h
  exact ⟨i, o', findLong_no_no hg hu hu' hf, hf.1, hid⟩

example : Unlike mtdOptions false (noDash ++ (noDash ++ "ld=x".toList)) ∧ Unlike mtdOptions true (noDash ++ "ld=x".toList) ∧
    Means mtdOptions false (keyOf "ld=x".toList) (opt "ld" none 3 1 false false) := by decide +kernel

/-! ## Value types -/

/-- However many types are added, the array is long enough, and each type is found as last added. -/
theorem types (vs : List (ValType V)) :
    ∃ ts, (Types.empty V).addAll vs = some ts ∧ ts.arr.length ≤ ts.cap ∧
      ∀ t, ts.find t = vs.reverse.find? fun v => v.type == t := by
  obtain ⟨ts, h1, h2, h3⟩ := Types.addAll_ok (Types.empty_ok (V := V)) vs
  refine ⟨ts, h1, h2.room, fun t => ?_⟩
  rw [h3]
  have : (Types.empty V).find t = none := rfl
  rw [this, Option.or_none]

/-- The types of mtd, in the order of /repo/clp.c:562-569 and /repo/mtd.cc:605: one more than there is room for at first.
Every string is a value here, and the value is the string. -/
def mtdTypes : List (ValType Str) :=
  [⟨1, some, false⟩, ⟨2, some, true⟩, ⟨4, some, false⟩, ⟨5, some, false⟩, ⟨6, some, false⟩, ⟨7, some, false⟩, ⟨3, some, false⟩,
    ⟨8, some, false⟩, ⟨10, some, true⟩]

example : (((Types.empty Str).addAll mtdTypes).map fun ts => (ts.arr.map (·.type), ts.cap)) =
    some ([1, 2, 3, 4, 5, 6, 7, 8, 10], 16) := by decide +kernel

/-! ## Command lines -/

/-- A command line is read as what it says, and then comes the end. -/
theorem line {os : List Opt} (hg : Good os) {ts : Types V} {ws : List Str} {rs : List (Res V)} (h : Line os ts ws rs) :
    results (parser os ts) (rs.length + 1) (State.start ws) = rs ++ [.done] := by
  obtain ⟨h1, h2⟩ := line_run hg h (s := State.start ws) (ws := []) ⟨by simp [State.start], rfl, by simp [State.start]⟩
  rw [results_add, h1]
  simp [results, (h2.done (parser os ts)).1]

/-- Everything after `--` is read as it is. -/
theorem dashes {os : List Opt} (hg : Good os) {ts : Types V} {ws : List Str} {rs : List (Res V)} (h : Line os ts ws rs)
    (us : List Str) : results (parser os ts) (rs.length + (us.length + 1)) (State.start (ws ++ ['-', '-'] :: us)) =
      rs ++ us.map .notOption ++ [.done] := by
  obtain ⟨h1, h2⟩ := line_run hg h (s := State.start (ws ++ ['-', '-'] :: us)) (ws := ['-', '-'] :: us)
    ⟨rfl, rfl, by simp [State.start]⟩
  rw [results_add, h1, Options.dashes hg h2, List.append_assoc]

/-- `-npj8 --thr=4 --no-check --lim 5 -c2`. -/
example (ts : Types Str) (h : (Types.empty Str).addAll mtdTypes = some ts) : Line mtdOptions ts
    (["-npj8".toList] ++ (["--thr=4".toList] ++ (["--no-check".toList] ++ (["--lim".toList, "5".toList] ++
      (["-c2".toList] ++ [])))))
    ([.opt 1 false none, .opt 3 false none, .opt 24 false (some (['8'], ['8']))] ++ ([.opt 24 false (some (['4'], ['4']))] ++
      ([.opt 6 true none] ++ ([.opt 13 false (some (['5'], ['5']))] ++ ([.opt 6 false (some (['2'], ['2']))] ++ []))))) := by
  obtain ⟨ts', h1, -, h3⟩ := types mtdTypes
  obtain rfl : ts = ts' := Option.some.inj (h.symm.trans h1)
  have f4 : ts.find 4 = some ⟨4, some, false⟩ := by rw [h3]; rfl
  have f8 : ts.find 8 = some ⟨8, some, false⟩ := by rw [h3]; rfl
  have f10 : ts.find 10 = some ⟨10, some, true⟩ := by rw [h3]; rfl
  refine .cons (.letters (by decide) ?_) (.cons ?_ (.cons ?_ (.cons ?_ (.cons (.letters (by decide) ?_) .nil))))
  · exact .more (i := 1) (o := opt "" (some 'n') 1 0 false false) (by decide +kernel) (Or.inl rfl) (by decide)
      (.more (i := 3) (o := opt "pin" (some 'p') 2 0 false true) (by decide +kernel) (Or.inl rfl) (by decide)
        (.attached (i := 24) (o := opt "threads" (some 'j') 9 4 false false) (by decide +kernel) (by decide +kernel) (by decide)
          ⟨by decide, _, f4, rfl⟩))
  · exact .equals (k := "thr".toList) (o := opt "threads" (some 'j') 9 4 false false) (by decide +kernel) (by decide)
      ⟨by decide, _, f4, rfl⟩
  · exact .no (k := "check".toList) (o := opt "checkpoint" (some 'c') 13 8 true true) (by decide +kernel) (by decide)
      (by decide +kernel)
  · exact .next (k := "lim".toList) (o := opt "limit" (some 'l') 14 10 false false) (by decide +kernel) (by decide)
      ⟨by decide, _, f10, rfl, fun _ => by rintro ⟨c, u, h⟩; simp at h⟩
  · exact .attached (i := 6) (o := opt "checkpoint" (some 'c') 13 8 true true) (by decide +kernel) (by decide +kernel) (by decide)
      ⟨by decide, _, f8, rfl⟩

/-- Every command line comes to an end, after at most as many calls as there are characters and words, and no assertion fails on
the way. -/
theorem ends {os : List Opt} (hg : Good os) (ts : Types V) (ws : List Str) :
    (∃ k ≤ (ws.map fun w => w.length + 1).sum,
      (next (parser os ts) (after (parser os ts) k (State.start ws))).1 = .done) ∧
    ∀ k, (next (parser os ts) (after (parser os ts) k (State.start ws))).1 ≠ .abort := by
  have hok : (State.start ws).Ok := by simp [State.Ok, State.start]
  constructor
  · have := results_done hg ts _ (State.start ws) hok (Nat.lt_succ_self _)
    simpa [State.size, State.start] using this
  · have : ∀ k (s : State), s.Ok → (after (parser os ts) k s).Ok := by
      intro k
      induction k with
      | zero => exact fun s h => h
      | succ k ih => intro s h; exact ih _ (next_step hg ts s h).2.1
    intro k
    exact (next_step hg ts _ (this k _ hok)).1

/-- A bad option ends the loop of `main`: what comes before it counts, whatever follows is not looked at. -/
theorem bad_ends {os : List Opt} (hg : Good os) {ts : Types V} {ws : List Str} {rs : List (Res V)} (h : Line os ts ws rs)
    (hr : ∀ r ∈ rs, r.going = true) {t : Str} (ht : t ≠ []) (hu : ∀ k a, t = nos k a → Unlike os (k % 2 == 1) a) (us : List Str) (n : Nat)
    (hn : rs.length < n) : loop (parser os ts) n (State.start (ws ++ ('-' :: '-' :: t) :: us)) = rs := by
  obtain ⟨h1, h2⟩ := line_run hg h (s := State.start (ws ++ ('-' :: '-' :: t) :: us)) (ws := ('-' :: '-' :: t) :: us)
    ⟨rfl, rfl, by simp [State.start]⟩
  have hnone : findLong (setOptions os) t = .none := by
    rcases findLong_spec hg t with h | ⟨k, i, v, -, o, a, ho, htk, ha, -, hd, -⟩
    · exact h
    · exact absurd hd (hu k a ha o (List.mem_of_getElem? ho) htk)
  have hbad : ∀ s, At (('-' :: '-' :: t) :: us) s → (next (parser os ts) s).1 = .bad := by
    intro s hs
    rw [next_handle hs.processing ((hs.arg 0).trans (nextWord_long hs.rest (by omega)))]
    unfold handle
    have : lookup (setOptions os) { s with cur := '-' :: '-' :: t, rest := us, xtext := some t, isShort := false } = .none := by
      simp [lookup, hnone]
    simp only [this]
    unfold unknown
    rw [if_neg (by simpa using ht)]
  obtain ⟨m, rfl⟩ : ∃ m, n = rs.length + (m + 1) := ⟨n - rs.length - 1, by omega⟩
  unfold loop
  rw [results_add, h1, List.takeWhile_append_of_pos hr]
  simp [results, hbad _ h2, Res.going]

/-- `mtd --logdri=/x …` runs with the standard log directory, and without the settings that follow. -/
example (ts : Types Str) (us : List Str) (n : Nat) (hn : 0 < n) :
    loop (parser mtdOptions ts) n (State.start ("--logdri=/x".toList :: us)) = [] := by
  refine bad_ends (by decide +kernel) .nil (by simp) (t := "logdri=/x".toList) (by decide) ?_ us n hn
  intro k a h
  cases k with
  | zero => obtain rfl : "logdri=/x".toList = a := h; decide +kernel
  | succ k => rw [nos_succ] at h; simp at h

/-! ## Where the parser does not do what is said about it -/

/-- With dashes left out, a key may agree with the names of several options; then the one that is first in the table is taken. -/
theorem order_matters : ∃ o o' : Opt, o.id ≠ o'.id ∧ Good [o, o'] ∧ Good [o', o] ∧
    findLong (setOptions [o, o']) "abc".toList = .found 0 false none ∧
    findLong (setOptions [o', o]) "abc".toList = .found 0 false none :=
  ⟨opt "a-bc" none 1 0 false false, opt "a-b-c" none 2 0 false false, by decide +kernel⟩

/-- mtd's tests have one id, so a beginning that several of them have is the first of them. -/
theorem mtd_test : findLong (setOptions mtdOptions) "test-r".toList = .found 15 false none ∧
    mtdOptions[15]? = some (opt "test-rw1" none 8 0 false false) ∧
    (∀ j, 15 ≤ j → j ≤ 20 → ∃ o, mtdOptions[j]? = some o ∧ "test-r".toList <+: o.word ∧ o.id = 8) := by
  refine ⟨by decide +kernel, by decide +kernel, ?_⟩
  intro j h1 h2
  obtain rfl | rfl | rfl | rfl | rfl | rfl : j = 15 ∨ j = 16 ∨ j = 17 ∨ j = 18 ∨ j = 19 ∨ j = 20 := by omega
  all_goals exact ⟨_, rfl, by decide +kernel⟩

theorem lower_eq (c : Char) (h : lower c = '=') : c = '=' := by
  unfold lower at h
  split at h
  · rename_i hc
    exfalso
    obtain ⟨h1, h2⟩ := hc
    have h1' : 65 ≤ c.toNat := h1
    have h2' : c.toNat ≤ 90 := h2
    obtain ⟨k, hk⟩ : ∃ k, c.toNat = k := ⟨_, rfl⟩
    rw [hk] at h h1' h2'
    have : ∀ k ≤ 90, 65 ≤ k → Char.ofNat (k + 32) ≠ '=' := by decide
    exact this k h2' h1' h
  · exact h

theorem bool_word {l : Str} (he : '=' ∉ l) (w : Str) : argcmp w l 1 false > 0 ↔ l ≠ [] ∧ l <+: w := by
  rw [argcmp_false, (keyOf_self l he).1]
  by_cases hp : l <+: w
  · rw [if_pos hp]
    cases l with
    | nil => simp
    | cons c l => simp [hp]
  · simp [hp]

/-- What is true: a beginning of `yes`, `true` or `1` in any letters.  What is false: a beginning of `no` or `false`. -/
theorem bool_values (a : Str) :
    (parseBool a = some true ↔ a ≠ [] ∧ (a.map lower <+: "yes".toList ∨ a.map lower <+: "true".toList ∨ a.map lower <+: "1".toList)) ∧
    (parseBool a = some false ↔ a ≠ [] ∧ (a.map lower <+: "no".toList ∨ a.map lower <+: "false".toList)) := by
  have hmem : '=' ∈ a → '=' ∈ a.map lower := fun h => List.mem_map.2 ⟨'=', h, by decide⟩
  have hnot : ∀ w : Str, '=' ∉ w → a.map lower <+: w → '=' ∉ a := fun w hw hp h => hw (hp.subset (hmem h))
  have hlen : ∀ w : Str, a.map lower <+: w → a.length ≤ w.length := fun w hp => by simpa using hp.length_le
  have hone : ∀ w v : Str, w.head? ≠ v.head? → a ≠ [] → a.map lower <+: w → ¬ a.map lower <+: v := by
    intro w v hh hne h1 h2
    cases a with
    | nil => exact hne rfl
    | cons c a =>
      obtain ⟨t1, rfl⟩ := h1
      obtain ⟨t2, rfl⟩ := h2
      exact hh rfl
  unfold parseBool
  by_cases hc : a.length > 5 ∨ '=' ∈ a
  · rw [if_pos hc]
    have bad : ∀ w : Str, '=' ∉ w → w.length ≤ 5 → ¬ a.map lower <+: w := by
      intro w h1 h2 h3
      have := hlen w h3
      rcases hc with hc | hc
      · omega
      · exact hnot w h1 h3 hc
    have b1 := bad "yes".toList (by decide) (by decide)
    have b2 := bad "true".toList (by decide) (by decide)
    have b3 := bad "1".toList (by decide) (by decide)
    have b4 := bad "no".toList (by decide) (by decide)
    have b5 := bad "false".toList (by decide) (by decide)
    constructor
    · exact ⟨fun h => by simp at h, fun h => by rcases h.2 with h | h | h; exacts [absurd h b1, absurd h b2, absurd h b3]⟩
    · exact ⟨fun h => by simp at h, fun h => by rcases h.2 with h | h; exacts [absurd h b4, absurd h b5]⟩
  · rw [if_neg hc]
    rw [not_or] at hc
    have he : '=' ∉ a.map lower := by
      intro h
      obtain ⟨c, h1, h2⟩ := List.mem_map.1 h
      exact hc.2 (lower_eq c h2 ▸ h1)
    have hnil : a.map lower ≠ [] ↔ a ≠ [] := by simp
    simp only [bool_word he, hnil]
    have x1 := hone "no".toList "yes".toList (by decide)
    have x2 := hone "no".toList "true".toList (by decide)
    have x3 := hone "no".toList "1".toList (by decide)
    have x4 := hone "false".toList "yes".toList (by decide)
    have x5 := hone "false".toList "true".toList (by decide)
    have x6 := hone "false".toList "1".toList (by decide)
    clear hone hlen hnot hmem
    grind

example : "TRu".toList ≠ [] ∧ "TRu".toList.map lower <+: "true".toList := by decide

/-- `0` is not a value, though /repo/clp.h:82 says so. -/
theorem bool_zero : parseBool ['0'] = none := by decide +kernel

/-- If a list of up to three strings also allows numbers, a message about a wrong value is to name one entry more than the list has
(/repo/clp.c:1251-1253), while the array that the message reads has `nitems` (/repo/clp.c:1241). -/
theorem list_overread (nitems cap : Nat) (h : nitems < 4) (hc : nitems < cap) : nitems < invalidReport nitems cap true := by
  simp [invalidReport, h, hc]

theorem list_inside (nitems cap : Nat) : invalidReport nitems cap false ≤ nitems := by
  unfold invalidReport; simp; split <;> omega

example : invalidReport 2 5 true = 3 := by decide

end Verif.Props.C70
