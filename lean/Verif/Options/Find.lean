import Verif.Options.Names
import Mathlib.Data.Nat.Find

/-! What looking for a long option finds, in terms of the table of options. -/
namespace Verif.Options

/-- The name of the option without `no-`. -/
def Opt.word (o : Opt) : Str := if noDash <+: o.long.getD [] then (o.long.getD []).drop 3 else o.long.getD []

/-- The option has a long name, and can be given without `no-`, or with `no-`. -/
def Opt.Takes (o : Opt) (neg : Bool) : Prop :=
  o.long.getD [] ≠ [] ∧
    if neg then noDash <+: o.long.getD [] ∨ o.onlyNegated = true ∨ o.negate = true
    else ¬ noDash <+: o.long.getD [] ∧ o.onlyNegated = false

instance (o : Opt) (neg : Bool) : Decidable (o.Takes neg) := by unfold Opt.Takes; infer_instance

/-- The table is usable: names are not empty, and the names of different options differ. -/
structure Good (os : List Opt) : Prop where
  ne : ∀ o ∈ os, ∀ neg, o.Takes neg → o.word ≠ []
  inj : ∀ o ∈ os, ∀ o' ∈ os, ∀ neg, o.Takes neg → o'.Takes neg → o.word = o'.word → o.id = o'.id

/-- `key` stands for the option `o`: it is the name, or begins the name and no name of another option; if `o` is preferred,
names that go on after the name of `o` do not count. -/
def Means (os : List Opt) (neg : Bool) (key : Str) (o : Opt) : Prop :=
  o ∈ os ∧ o.Takes neg ∧ key ≠ [] ∧ key <+: o.word ∧
    (key = o.word ∨ ∀ o' ∈ os, o'.Takes neg → key <+: o'.word → o'.id = o.id ∨ (o.preferred = true ∧ o.word <+: o'.word))

instance (os : List Opt) (neg : Bool) (key : Str) (o : Opt) : Decidable (Means os neg key o) := by
  unfold Means; infer_instance

theorem Means.unique {os : List Opt} {neg : Bool} {key : Str} {o o' : Opt} (hg : Good os)
    (h : Means os neg key o) (h' : Means os neg key o') : o.id = o'.id := by
  obtain ⟨m, t, -, p, c⟩ := h
  obtain ⟨m', t', -, p', c'⟩ := h'
  have same : o.word <+: o'.word → o'.word <+: o.word → o.id = o'.id := fun a b =>
    hg.inj o m o' m' neg t t' (List.IsPrefix.eq_of_length a (Nat.le_antisymm a.length_le b.length_le))
  rcases c with rfl | c
  · rcases c' with e | c'
    · exact hg.inj o m o' m' neg t t' e
    · rcases c' o m t List.prefix_rfl with h | ⟨-, h⟩
      · exact h
      · exact same p' h
  · rcases c o' m' t' p' with h | ⟨-, h⟩
    · exact h.symm
    · rcases c' with rfl | c'
      · exact same h p
      · rcases c' o m t p with h' | ⟨-, h'⟩
        · exact h'
        · exact same h h'

theorem massage_no (o : Opt) : ((o.long.getD [] != []) && strncmpEq (o.long.getD []) noDash 3) = true ↔ noDash <+: o.long.getD [] := by
  generalize o.long.getD [] = l
  rw [Bool.and_eq_true, strncmpEq_iff, List.prefix_iff_eq_take]
  constructor
  · rintro ⟨-, h⟩; simpa [noDash] using h.symm
  · intro h
    refine ⟨?_, by simpa [noDash] using h.symm⟩
    cases l with
    | nil => simp [noDash] at h
    | cons a l => simp

/-- The entry made for an option, before comparisons. -/
def mk (o : Opt) : Entry := ⟨o, massage o⟩

theorem mk_name (o : Opt) : (mk o).name = o.word := by
  have := massage_no o
  unfold mk Entry.name massage Opt.word
  by_cases h : noDash <+: o.long.getD []
  · simp only [this.2 h, h, if_true]
  · have h' := fun hh => h (this.1 hh)
    simp only [if_neg h, if_neg h', List.drop_zero]

theorem mk_usable (o : Opt) (neg : Bool) : (mk o).usable neg = true ↔ o.Takes neg := by
  have := massage_no o
  unfold mk Entry.usable massage Opt.Takes
  cases neg <;> simp only <;> grind

/-- What is in the table after `Clp_SetOptions`. -/
structure Made (os : List Opt) (o : Opt) (e : Entry) : Prop where
  alike : Alike e (mk o)
  lmm : ∀ neg, ((mk o).usable neg = true → (mk o).name ≠ []) → Lmm neg (mk o) (os.map mk) (e.lmm neg)

theorem Made.name {os o e} (h : Made os o e) : e.name = o.word := h.alike.name.trans (mk_name o)

theorem Made.usable {os o e} (h : Made os o e) (neg : Bool) : e.usable neg = true ↔ o.Takes neg := by
  rw [h.alike.usable, mk_usable]

/-- The lengths to match as they are before the comparisons. -/
def fresh (e : Entry) : Entry := { e with io := { e.io with lmmpos := 1, lmmneg := 1 } }

theorem fresh_alike (e : Entry) : Alike (fresh e) e := ⟨rfl, rfl, rfl, rfl, rfl, rfl, rfl, rfl, rfl⟩

theorem fresh_lmm (e : Entry) (neg : Bool) : (fresh e).lmm neg = 1 := by cases neg <;> rfl

theorem fold_alike (gs : List Entry) (e : Entry) : Alike (gs.foldl compareOptions e) e := by
  induction gs generalizing e with
  | nil => exact Alike.refl e
  | cons g gs ih => exact (ih _).trans (compare_alike e g)

theorem made_one (os : List Opt) (o : Opt) : Made os o ((os.map mk).foldl compareOptions (fresh (mk o))) := by
  have ha := fresh_alike (mk o)
  constructor
  · exact (fold_alike _ _).trans ha
  · intro neg hn
    have h1 := fresh_lmm (mk o) neg
    have := (fold_lmm neg (os.map mk) [] (fresh (mk o)) (by rw [ha.usable, ha.name]; exact hn)
      ⟨by rw [h1]; omega, by rw [h1], by simp, Or.inl h1⟩).2
    rw [List.nil_append] at this
    exact this.alike ha

theorem made (os : List Opt) : List.Forall₂ (Made os) os (setOptions os) := by
  have key : ∀ ps : List Opt, List.Forall₂ (Made os) ps
      ((ps.map mk).map fun e => (os.map mk).foldl compareOptions (fresh e)) := by
    intro ps
    induction ps with
    | nil => exact .nil
    | cons o ps ih => exact .cons (made_one os o) ih
  exact key os

theorem accept_iff {os : List Opt} {o : Opt} {e : Entry} (hg : Good os) (hm : Made os o e) (ho : o ∈ os) {neg : Bool}
    (ht : o.Takes neg) (arg : Str) :
    argcmp e.name arg (e.lmm neg) false > 0 ↔ Means os neg (keyOf arg) o := by
  have hL := hm.lmm neg (fun _ => by rw [mk_name]; exact hg.ne o ho neg ht)
  have hu := (mk_usable o neg).2 ht
  rw [argcmp_false, hm.name]
  generalize keyOf arg = k
  have hpos := hL.pos
  have hle := hL.le
  rw [mk_name] at hle
  have hlen : 1 ≤ o.word.length := List.length_pos_iff.2 (hg.ne o ho neg ht)
  by_cases hp : k <+: o.word
  · rw [if_pos hp]
    by_cases hk : k.length < e.lmm neg
    · rw [if_pos hk]
      refine ⟨fun h => absurd h (by omega), ?_⟩
      rintro ⟨-, -, hne, -, hc⟩
      exfalso
      have hk1 : 1 ≤ k.length := List.length_pos_iff.2 hne
      rcases hc with rfl | hc
      · omega
      · rcases hL.some with h1 | ⟨f, hf, hr, h2⟩
        · omega
        · obtain ⟨o', ho', rfl⟩ := List.mem_map.1 hf
          obtain ⟨-, hu', hid, hpre⟩ := hr
          rw [mk_name, mk_name] at h2 hpre
          have := (minDifferent_spec o.word o'.word k hp).2 (Or.inl (by omega))
          rcases hc o' ho' ((mk_usable o' neg).1 hu') this with h | h
          · exact hid h.symm
          · exact hpre h
    · rw [if_neg hk]
      have hne : k ≠ [] := by rintro rfl; simp at hk; omega
      refine ⟨fun _ => ⟨ho, ht, hne, hp, ?_⟩, fun _ => by have := List.length_pos_iff.2 hne; omega⟩
      by_cases hw : k = o.word
      · exact Or.inl hw
      · refine Or.inr fun o' ho' ht' hp' => ?_
        by_contra hc
        rw [not_or] at hc
        have hr : Rival neg (mk o) (mk o') := ⟨hu, (mk_usable o' neg).2 ht', fun h => hc.1 h.symm, by
          rw [mk_name, mk_name]; exact hc.2⟩
        have := hL.all (mk o') (List.mem_map_of_mem ho') hr
        rw [mk_name, mk_name] at this
        rcases (minDifferent_spec o.word o'.word k hp).1 hp' with h | h
        · omega
        · exact hw h.1
  · rw [if_neg hp]
    exact ⟨fun h => absurd h (by simp), fun h => absurd h.2.2.2.1 hp⟩

theorem Made.pos {os o e} (hg : Good os) (h : Made os o e) (ho : o ∈ os) {neg : Bool} (ht : o.Takes neg) : 1 ≤ e.lmm neg :=
  (h.lmm neg (fun _ => by rw [mk_name]; exact hg.ne o ho neg ht)).pos

theorem forall₂_get {α β : Type} {R : α → β → Prop} {l : List α} {l' : List β} (h : List.Forall₂ R l l') (i : Nat) (b : β)
    (hb : l'[i]? = some b) : ∃ a, l[i]? = some a ∧ R a b := by
  induction h generalizing i with
  | nil => simp at hb
  | cons hr _ ih =>
    cases i with
    | zero => simp at hb; subst hb; exact ⟨_, rfl, hr⟩
    | succ i => simpa using ih i (by simpa using hb)

theorem entry (os : List Opt) (i : Nat) (e : Entry) (h : (setOptions os)[i]? = some e) :
    ∃ o, os[i]? = some o ∧ o ∈ os ∧ Made os o e := by
  obtain ⟨o, h1, h2⟩ := forall₂_get (made os) i e h
  exact ⟨o, h1, List.mem_of_getElem? h1, h2⟩

theorem mem_entry (os : List Opt) (o : Opt) (h : o ∈ os) : ∃ e ∈ setOptions os, Made os o e := by
  have : ∀ {l : List Opt} {l' : List Entry}, List.Forall₂ (Made os) l l' → o ∈ l → ∃ e ∈ l', Made os o e := by
    intro l l' hf
    induction hf with
    | nil => simp
    | cons hr _ ih =>
      intro ho
      rcases List.mem_cons.1 ho with rfl | ho
      · exact ⟨_, List.mem_cons_self, hr⟩
      · obtain ⟨e, he, hm⟩ := ih ho
        exact ⟨e, List.mem_cons_of_mem _ he, hm⟩
  exact this (made os) h

/-! ## The passes -/

theorem pass_some {neg fewer : Bool} {arg : Str} {es : List Entry} {i j : Nat} {amb amb' : List Nat}
    (h : pass neg fewer arg es i amb = (some j, amb')) :
    ∃ e, i ≤ j ∧ es[j - i]? = some e ∧ e.usable neg = true ∧ argcmp e.name arg (e.lmm neg) fewer > 0 ∧
      ∀ m e', m < j - i → es[m]? = some e' → e'.usable neg = true → ¬ argcmp e'.name arg (e'.lmm neg) fewer > 0 := by
  induction es generalizing i amb with
  | nil => simp [pass] at h
  | cons e es ih =>
    simp only [pass] at h
    have next : ∀ {amb}, (e.usable neg = true → ¬ argcmp e.name arg (e.lmm neg) fewer > 0) →
        pass neg fewer arg es (i + 1) amb = (some j, amb') →
        ∃ e', i ≤ j ∧ (e :: es)[j - i]? = some e' ∧ e'.usable neg = true ∧ argcmp e'.name arg (e'.lmm neg) fewer > 0 ∧
        ∀ m e', m < j - i → (e :: es)[m]? = some e' → e'.usable neg = true →
          ¬ argcmp e'.name arg (e'.lmm neg) fewer > 0 := by
      intro amb hno h
      obtain ⟨e', h1, h2, h3, h4, h5⟩ := ih h
      rw [show j - i = (j - (i + 1)) + 1 by omega]
      refine ⟨e', by omega, by simpa using h2, h3, h4, ?_⟩
      intro m e'' hm he
      cases m with
      | zero => simp at he; subst he; exact hno
      | succ m => exact h5 m e'' (by omega) (by simpa using he)
    split at h
    · rename_i hu
      exact next (fun h' => by simp [h'] at hu) h
    · rename_i hu
      split at h
      · rename_i hl
        simp only [Prod.mk.injEq, Option.some.injEq] at h
        obtain ⟨rfl, -⟩ := h
        exact ⟨e, Nat.le_refl _, by simp, by simpa using hu, hl, by omega⟩
      · rename_i hl
        split at h
        · exact next (fun _ => hl) h
        · exact next (fun _ => hl) h

theorem pass_none {neg fewer : Bool} {arg : Str} {es : List Entry} {i : Nat} {amb amb' : List Nat}
    (h : pass neg fewer arg es i amb = (none, amb')) :
    (∀ e ∈ es, e.usable neg = true → ¬ argcmp e.name arg (e.lmm neg) fewer > 0) ∧ amb.length ≤ amb'.length ∧
    (amb'.length = amb.length ↔ ∀ e ∈ es, e.usable neg = true → argcmp e.name arg (e.lmm neg) fewer = 0) := by
  induction es generalizing i amb with
  | nil => simp only [pass, Prod.mk.injEq] at h; simp [h.2]
  | cons e es ih =>
    simp only [pass] at h
    split at h
    · rename_i hu
      obtain ⟨h1, h2, h3⟩ := ih h
      have hu' : e.usable neg = false := by simpa using hu
      simpa [hu'] using ⟨fun e' he => by simpa using h1 e' he, h2, h3⟩
    · rename_i hu
      have hu' : e.usable neg = true := by simpa using hu
      split at h
      · simp at h
      · rename_i hl
        split at h
        · rename_i hn
          obtain ⟨h1, h2, h3⟩ := ih h
          rw [List.length_append, List.length_singleton] at h2
          refine ⟨?_, by omega, ?_⟩
          · intro e' he'
            rcases List.mem_cons.1 he' with rfl | he'
            · exact fun _ => hl
            · exact h1 e' he'
          · constructor
            · intro hh; omega
            · intro hh; have := hh e List.mem_cons_self hu'; omega
        · rename_i hn
          obtain ⟨h1, h2, h3⟩ := ih h
          refine ⟨?_, h2, ?_⟩
          · intro e' he'
            rcases List.mem_cons.1 he' with rfl | he'
            · exact fun _ => hl
            · exact h1 e' he'
          · rw [h3]
            constructor
            · intro hh e' he'
              rcases List.mem_cons.1 he' with rfl | he'
              · intro _; omega
              · exact hh e' he'
            · intro hh e' he'; exact hh e' (List.mem_cons_of_mem _ he')

/-- The first option in the table that the key stands for. -/
def First (os : List Opt) (neg : Bool) (key : Str) (i : Nat) (o : Opt) : Prop :=
  os[i]? = some o ∧ Means os neg key o ∧ ∀ j o', j < i → os[j]? = some o' → ¬ Means os neg key o'

theorem First.unique {os : List Opt} {neg : Bool} {key : Str} {i i' : Nat} {o o' : Opt} (h : First os neg key i o)
    (h' : First os neg key i' o') : i = i' ∧ o = o' := by
  have : i = i' := by
    rcases Nat.lt_trichotomy i i' with hl | he | hl
    · exact absurd h.2.1 (h'.2.2 i o hl h.1)
    · exact he
    · exact absurd h'.2.1 (h.2.2 i' o' hl h'.1)
  subst this
  exact ⟨rfl, Option.some.inj (h.1.symm.trans h'.1)⟩

/-- What `find_prefix_opt` finds: an option that the key stands for; or none, if the key begins some name; or an option whose
name is the key but for dashes. -/
theorem findPrefix_spec {os : List Opt} (hg : Good os) (neg : Bool) (arg : Str) (amb : List Nat) :
    let r := (findPrefix (setOptions os) neg arg amb).1
    (∀ o, Means os neg (keyOf arg) o → ∃ i o', r = some i ∧ First os neg (keyOf arg) i o') ∧
    ((∀ o, ¬ Means os neg (keyOf arg) o) → (∃ o ∈ os, o.Takes neg ∧ keyOf arg <+: o.word) → r = none) ∧
    (∀ i, r = some i → (∃ o, os[i]? = some o ∧ o.Takes neg ∧ Dashless o.word (keyOf arg) ∧ keyOf arg ≠ []) ∧
      worked (setOptions os) i neg arg = .found i neg (valueOf arg)) := by
  have hval : ∀ (e : Entry) (i : Nat), (setOptions os)[i]? = some e → argcmp e.name arg (e.lmm neg) true = (keyOf arg).length →
      keyOf arg ≠ [] → worked (setOptions os) i neg arg = .found i neg (valueOf arg) := by
    intro e i he hl hne
    have hlen := List.length_pos_iff.2 hne
    have hsplit : ∀ l : Str, (if l[(keyOf l).length]? = some '=' then some (l.drop ((keyOf l).length + 1)) else none) = valueOf l := by
      intro l
      induction l with
      | nil => simp [keyOf, valueOf]
      | cons c l ih =>
        by_cases hc : c = '='
        · subst hc; simp [keyOf, valueOf]
        · have hk : keyOf (c :: l) = c :: keyOf l := by simp [keyOf, hc]
          have hv : valueOf (c :: l) = valueOf l := by simp [valueOf, hc]
          rw [hk, hv, ← ih]; simp
    rw [worked, he]
    simp only [hl]
    rw [if_pos (by omega), Int.toNat_natCast, hsplit]
  have pre : ∀ {k w : Str}, k <+: w → Dashless w k := by
    intro k w h
    induction k generalizing w with
    | nil => exact .nil w
    | cons c k ih =>
      cases w with
      | nil => simp at h
      | cons d w =>
        rw [List.cons_prefix_cons] at h
        obtain ⟨rfl, h⟩ := h
        exact .same c (ih h)
  have hsome : ∀ i amb amb', pass neg false arg (setOptions os) 0 amb = (some i, amb') →
      ∃ o e, First os neg (keyOf arg) i o ∧ (setOptions os)[i]? = some e ∧ o.Takes neg ∧ argcmp e.name arg (e.lmm neg) false > 0 := by
    intro i amb amb' hp
    obtain ⟨e, -, he, hu, hpos, hfirst⟩ := pass_some hp
    obtain ⟨o, ho, hmem, hm⟩ := entry os i e (by simpa using he)
    have ht := (hm.usable neg).1 hu
    refine ⟨o, e, ⟨ho, (accept_iff hg hm hmem ht arg).1 hpos, ?_⟩, by simpa using he, ht, hpos⟩
    intro j o' hj ho' hmeans
    have hlen : (setOptions os).length = os.length := by simp [setOptions, calculateLmm]
    have hj' : j < (setOptions os).length := by rw [hlen]; exact (List.getElem?_eq_some_iff.1 ho').1
    obtain ⟨o'', ho'', hmem', hm'⟩ := entry os j _ (List.getElem?_eq_getElem hj')
    obtain rfl : o' = o'' := Option.some.inj (ho'.symm.trans ho'')
    exact hfirst j _ (by simpa using hj) (List.getElem?_eq_getElem hj') ((hm'.usable neg).2 hmeans.2.1)
      ((accept_iff hg hm' hmem' hmeans.2.1 arg).2 hmeans)
  intro r
  rcases hp : pass neg false arg (setOptions os) 0 amb with ⟨_ | i, amb'⟩
  · obtain ⟨h1, h2, h3⟩ := pass_none hp
    have hno : ∀ o, ¬ Means os neg (keyOf arg) o := by
      intro o ho
      obtain ⟨e, he, hm⟩ := mem_entry os o ho.1
      exact h1 e he ((hm.usable neg).2 ho.2.1) ((accept_iff hg hm ho.1 ho.2.1 arg).2 ho)
    refine ⟨fun o ho => absurd ho (hno o), ?_, ?_⟩
    · rintro - ⟨o, ho, ht, hpre⟩
      obtain ⟨e, he, hm⟩ := mem_entry os o ho
      have hu := (hm.usable neg).2 ht
      have hne : ¬ amb'.length = amb.length := by
        intro h
        have h0 := h3.1 h e he hu
        rw [argcmp_false, hm.name, if_pos hpre] at h0
        split at h0
        · simp at h0
        · have := hm.pos hg ho ht; omega
      simp only [r, findPrefix, hp, if_neg hne]
    · intro i hi
      have : (pass neg true arg (setOptions os) 0 amb').1 = some i := by
        simp only [r, findPrefix, hp] at hi
        split at hi
        · exact hi
        · simp at hi
      rcases hq : pass neg true arg (setOptions os) 0 amb' with ⟨_ | j, amb''⟩
      · simp [hq] at this
      · rw [hq] at this
        obtain rfl : j = i := by simpa using this
        obtain ⟨e, -, he, hu, hpos, -⟩ := pass_some hq
        obtain ⟨o, ho, hmem, hm⟩ := entry os j e (by simpa using he)
        obtain ⟨h4, h5, h6⟩ := argcmp_true_pos hpos
        exact ⟨⟨o, ho, (hm.usable neg).1 hu, hm.name ▸ h5, h6⟩, hval e j (by simpa using he) h4 h6⟩
  · have hr : r = some i := by simp only [r, findPrefix, hp]
    obtain ⟨o, e, hfirst, he, ht, hpos⟩ := hsome i amb amb' hp
    have hmeans := hfirst.2.1
    refine ⟨fun _ _ => ⟨i, o, hr, hfirst⟩, fun h => absurd hmeans (h o), ?_⟩
    intro j hj
    obtain rfl : i = j := by rw [hr] at hj; simpa using hj
    exact ⟨⟨o, hfirst.1, ht, pre hmeans.2.2.2.1, hmeans.2.2.1⟩, hval e i he (argcmp_true_of_false hpos) hmeans.2.2.1⟩

/-! ## Long options -/

/-- A key that stands for an option is that option, and what follows `=` is the value. -/
theorem findLong_means {os : List Opt} (hg : Good os) {arg : Str} {i : Nat} {o : Opt} (h : First os false (keyOf arg) i o) :
    findLong (setOptions os) arg = .found i false (valueOf arg) := by
  obtain ⟨h1, -, h3⟩ := findPrefix_spec hg false arg []
  obtain ⟨i', o', hr, hm⟩ := h1 o h.2.1
  obtain ⟨rfl, rfl⟩ := h.unique hm
  have hw := (h3 i hr).2
  rcases hf : findPrefix (setOptions os) false arg [] with ⟨_ | j, amb⟩
  · rw [hf] at hr; simp at hr
  · rw [hf] at hr
    obtain rfl : j = i := by simpa using hr
    simp only [findLong, hf, hw]

theorem means_first {os : List Opt} {neg : Bool} {key : Str} {o : Opt} (hg : Good os) (h : Means os neg key o) :
    ∃ i o', First os neg key i o' ∧ o'.id = o.id := by
  obtain ⟨i, hi⟩ := List.getElem?_of_mem h.1
  have : ∃ i, ∃ o', os[i]? = some o' ∧ Means os neg key o' := ⟨i, o, hi, h⟩
  classical
  obtain ⟨o', h1, h2⟩ := Nat.find_spec this
  exact ⟨Nat.find this, o', ⟨h1, h2, fun j o'' hj ho'' hm => Nat.find_min this hj ⟨o'', ho'', hm⟩⟩, h2.unique hg h⟩

/-- The argument stands for no option, even with dashes left out. -/
def Unlike (os : List Opt) (neg : Bool) (arg : Str) : Prop := ∀ o ∈ os, o.Takes neg → ¬ Dashless o.word (keyOf arg)

/-- `Dashless` as a function. -/
def dashless : Str → Str → Bool
  | _, [] => true
  | [], _ :: _ => false
  | c :: ref, d :: k => (c == d && dashless ref k) || (c == '-' && dashless ref (d :: k))

theorem dashless_iff (ref k : Str) : dashless ref k = true ↔ Dashless ref k := by
  constructor
  · intro h
    induction ref generalizing k with
    | nil => cases k with
      | nil => exact .nil _
      | cons d k => simp [dashless] at h
    | cons c ref ih => cases k with
      | nil => exact .nil _
      | cons d k =>
        simp only [dashless, Bool.or_eq_true, Bool.and_eq_true, beq_iff_eq] at h
        rcases h with ⟨rfl, h⟩ | ⟨rfl, h⟩
        · exact .same c (ih k h)
        · exact .skip (ih (d :: k) h)
  · intro h
    induction h with
    | nil ref => cases ref <;> rfl
    | same c _ ih => simp [dashless, ih]
    | @skip ref k _ ih => cases k <;> simp [dashless, ih]

instance (ref k : Str) : Decidable (Dashless ref k) := decidable_of_iff _ (dashless_iff ref k)

instance (os : List Opt) (neg : Bool) (arg : Str) : Decidable (Unlike os neg arg) := by unfold Unlike; infer_instance

instance (os : List Opt) (neg : Bool) (key : Str) (i : Nat) (o : Opt) : Decidable (First os neg key i o) :=
  decidable_of_iff (os[i]? = some o ∧ Means os neg key o ∧ ∀ o' ∈ os.take i, ¬ Means os neg key o') (by
    refine and_congr_right fun hi => and_congr_right fun _ => ⟨fun h j o' hj ho' => h o' ?_, fun h o' ho' => ?_⟩
    · exact List.mem_of_getElem? (i := j) (by rw [List.getElem?_take, if_pos hj]; exact ho')
    · obtain ⟨j, hj⟩ := List.getElem?_of_mem ho'
      rw [List.getElem?_take] at hj
      split at hj
      · exact h j o' (by assumption) hj
      · simp at hj)

instance (os : List Opt) : Decidable (Good os) :=
  decidable_of_iff ((∀ o ∈ os, (o.Takes false → o.word ≠ []) ∧ (o.Takes true → o.word ≠ [])) ∧
    ∀ o ∈ os, ∀ o' ∈ os, (o.Takes false → o'.Takes false → o.word = o'.word → o.id = o'.id) ∧
      (o.Takes true → o'.Takes true → o.word = o'.word → o.id = o'.id)) (by
    constructor
    · rintro ⟨h1, h2⟩
      exact ⟨fun o ho neg => by cases neg; exacts [(h1 o ho).1, (h1 o ho).2],
        fun o ho o' ho' neg => by cases neg; exacts [(h2 o ho o' ho').1, (h2 o ho o' ho').2]⟩
    · rintro ⟨h1, h2⟩
      exact ⟨fun o ho => ⟨h1 o ho false, h1 o ho true⟩, fun o ho o' ho' => ⟨h2 o ho o' ho' false, h2 o ho o' ho' true⟩⟩)

theorem findPrefix_unlike {os : List Opt} (hg : Good os) {neg : Bool} {arg : Str} {amb : List Nat} (h : Unlike os neg arg) :
    (findPrefix (setOptions os) neg arg amb).1 = none := by
  obtain ⟨-, -, h3⟩ := findPrefix_spec hg neg arg amb
  rcases hr : (findPrefix (setOptions os) neg arg amb).1 with _ | i
  · rfl
  · obtain ⟨⟨o, ho, ht, hd, -⟩, -⟩ := h3 i hr
    exact absurd hd (h o (List.mem_of_getElem? ho) ht)

theorem findNegated_means {os : List Opt} (hg : Good os) {neg : Bool} {amb : List Nat} {arg : Str} {i : Nat} {o : Opt}
    (h : First os (!neg) (keyOf arg) i o) :
    findNegated (setOptions os) neg amb (noDash ++ arg) = .found i (!neg) (valueOf arg) := by
  obtain ⟨h1, -, h3⟩ := findPrefix_spec hg (!neg) arg amb
  obtain ⟨i', o', hr, hm⟩ := h1 o h.2.1
  obtain ⟨rfl, rfl⟩ := h.unique hm
  have hw := (h3 i hr).2
  rcases hf : findPrefix (setOptions os) (!neg) arg amb with ⟨_ | j, amb'⟩
  · rw [hf] at hr; simp at hr
  · rw [hf] at hr
    obtain rfl : j = i := by simpa using hr
    simp only [noDash, List.cons_append, List.nil_append, findNegated, hf, hw]

/-- `no-` and a key that stands for an option that can be negated is that option, negated. -/
theorem findLong_no {os : List Opt} (hg : Good os) {arg : Str} {i : Nat} {o : Opt} (hu : Unlike os false (noDash ++ arg))
    (h : First os true (keyOf arg) i o) :
    findLong (setOptions os) (noDash ++ arg) = .found i true (valueOf arg) := by
  have h1 := findPrefix_unlike (amb := []) hg hu
  rcases hf : findPrefix (setOptions os) false (noDash ++ arg) [] with ⟨_ | j, amb⟩
  · simp only [findLong, hf]
    exact findNegated_means (neg := false) (amb := amb) hg h
  · rw [hf] at h1; simp at h1

/-- `no-no-` and a key that stands for an option is that option. -/
theorem findLong_no_no {os : List Opt} (hg : Good os) {arg : Str} {i : Nat} {o : Opt}
    (hu : Unlike os false (noDash ++ (noDash ++ arg))) (hu' : Unlike os true (noDash ++ arg))
    (h : First os false (keyOf arg) i o) :
    findLong (setOptions os) (noDash ++ (noDash ++ arg)) = .found i false (valueOf arg) := by
  have h1 := findPrefix_unlike (amb := []) hg hu
  rcases hf : findPrefix (setOptions os) false (noDash ++ (noDash ++ arg)) [] with ⟨_ | j, amb⟩
  · have h2 := findPrefix_unlike (amb := amb) hg hu'
    rcases hf' : findPrefix (setOptions os) true (noDash ++ arg) amb with ⟨_ | j, amb'⟩
    · have h3 := findNegated_means (neg := true) (amb := amb') hg h
      simp only [findLong, hf]
      rw [show noDash ++ (noDash ++ arg) = 'n' :: 'o' :: '-' :: (noDash ++ arg) from rfl]
      simp only [findNegated, Bool.not_false, hf', h3, Bool.not_true]
    · rw [hf'] at h2; simp at h2
  · rw [hf] at h1; simp at h1

/-- `no-`, `k` times. -/
def nos (k : Nat) (arg : Str) : Str := (List.replicate k noDash).flatten ++ arg

theorem nos_succ (k : Nat) (arg : Str) : nos (k + 1) arg = 'n' :: 'o' :: '-' :: nos k arg := by
  simp [nos, List.replicate_succ, noDash]

theorem findNegated_spec {os : List Opt} (hg : Good os) (n : Nat) (arg : Str) (hn : arg.length ≤ n) (neg : Bool) (amb : List Nat) :
    findNegated (setOptions os) neg amb arg = .none ∨
    ∃ k i v, findNegated (setOptions os) neg amb arg = .found i (neg ^^ (k % 2 == 1)) v ∧
      ∃ o a, os[i]? = some o ∧ o.Takes (neg ^^ (k % 2 == 1)) ∧ arg = nos k a ∧ v = valueOf a ∧ Dashless o.word (keyOf a) ∧
        keyOf a ≠ [] := by
  induction n generalizing arg neg amb with
  | zero =>
    have : arg = [] := List.length_eq_zero_iff.1 (by omega)
    subst this; exact Or.inl rfl
  | succ n ih =>
    by_cases hno : ∃ a, arg = 'n' :: 'o' :: '-' :: a
    · obtain ⟨a, rfl⟩ := hno
      simp only [findNegated]
      rcases hf : findPrefix (setOptions os) (!neg) a amb with ⟨_ | j, amb'⟩
      · simp only
        rcases ih a (by simp at hn; omega) (!neg) amb' with h | ⟨k, i, v, h, o, b, h1, h2, h3, h4⟩
        · exact Or.inl h
        · have hk : (neg ^^ ((k + 1) % 2 == 1)) = (!neg ^^ (k % 2 == 1)) := by
            rcases Nat.mod_two_eq_zero_or_one k with e | e
            · have : (k + 1) % 2 = 1 := by omega
              simp [e, this]
            · have : (k + 1) % 2 = 0 := by omega
              simp [e, this]
          refine Or.inr ⟨k + 1, i, v, ?_, o, b, h1, ?_, ?_, h4⟩
          · rw [hk]; exact h
          · rw [hk]; exact h2
          · rw [nos_succ, h3]
      · simp only
        obtain ⟨⟨o, ho, ht, hd, hne⟩, hw⟩ := (findPrefix_spec hg (!neg) a amb).2.2 j (by rw [hf])
        exact Or.inr ⟨1, j, valueOf a, by simpa using hw, o, a, ho, by simpa using ht, rfl, rfl, hd, hne⟩
    · left
      unfold findNegated
      split
      · rename_i a; exact absurd ⟨a, rfl⟩ hno
      · rfl

/-- Looking for a long option never fails its assertion; what it finds is in the table, can be given this way, and what was
given after any number of `no-` agrees with its name but for dashes left out. -/
theorem findLong_spec {os : List Opt} (hg : Good os) (arg : Str) :
    findLong (setOptions os) arg = .none ∨
    ∃ k i v, findLong (setOptions os) arg = .found i (k % 2 == 1) v ∧
      ∃ o a, os[i]? = some o ∧ o.Takes (k % 2 == 1) ∧ arg = nos k a ∧ v = valueOf a ∧ Dashless o.word (keyOf a) ∧
        keyOf a ≠ [] := by
  rcases hf : findPrefix (setOptions os) false arg [] with ⟨_ | j, amb⟩
  · simp only [findLong, hf]
    simpa using findNegated_spec hg _ arg (Nat.le_refl _) false amb
  · simp only [findLong, hf]
    obtain ⟨⟨o, ho, ht, hd, hne⟩, hw⟩ := (findPrefix_spec hg false arg []).2.2 j (by rw [hf])
    exact Or.inr ⟨0, j, valueOf arg, hw, o, arg, ho, ht, rfl, rfl, hd, hne⟩

end Verif.Options
