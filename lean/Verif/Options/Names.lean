import Verif.Options.Model
import Mathlib.Data.List.Infix
import Mathlib.Tactic.ByContra

/-! Which option a long name stands for. -/
namespace Verif.Options

/-- The part of an argument before `=`. -/
def keyOf (arg : Str) : Str := arg.takeWhile (· != '=')

/-- The part after the first `=`, if there is one. -/
def valueOf (arg : Str) : Option Str :=
  match arg.dropWhile (· != '=') with
  | [] => none
  | _ :: v => some v

theorem keyOf_append (k v : Str) (h : '=' ∉ k) : keyOf (k ++ '=' :: v) = k ∧ valueOf (k ++ '=' :: v) = some v := by
  induction k with
  | nil => simp [keyOf, valueOf]
  | cons c k ih =>
    simp only [List.mem_cons, not_or] at h
    obtain ⟨h1, h2⟩ := ih h.2
    have hc : (c != '=') = true := by simpa using fun e => h.1 e.symm
    constructor
    · simpa [keyOf, hc] using h1
    · simpa [valueOf, hc] using h2

theorem keyOf_self (k : Str) (h : '=' ∉ k) : keyOf k = k ∧ valueOf k = none := by
  induction k with
  | nil => simp [keyOf, valueOf]
  | cons c k ih =>
    simp only [List.mem_cons, not_or] at h
    obtain ⟨h1, h2⟩ := ih h.2
    have hc : (c != '=') = true := by simpa using fun e => h.1 e.symm
    constructor
    · simpa [keyOf, hc] using h1
    · simpa [valueOf, hc] using h2

/-- The end of an argument as `argcmp` sees it. -/
def AtEnd (l : Str) : Prop := l = [] ∨ l.head? = some '='

theorem loop_false (ref arg : Str) (r a : Nat) :
    (keyOf arg <+: ref → ∃ l, AtEnd l ∧
      argcmpLoop false ref arg r a = (l, r + (keyOf arg).length, a + (keyOf arg).length)) ∧
    (¬ keyOf arg <+: ref → ¬ AtEnd (argcmpLoop false ref arg r a).1) := by
  induction ref generalizing arg r a with
  | nil =>
    cases arg with
    | nil => simp [argcmpLoop, keyOf, AtEnd]
    | cons d arg =>
      by_cases hd : d = '='
      · subst hd; simp [argcmpLoop, keyOf, AtEnd]
      · simp [argcmpLoop, keyOf, AtEnd, hd]
  | cons c ref ih =>
    cases arg with
    | nil => simp [argcmpLoop, keyOf, AtEnd]
    | cons d arg =>
      by_cases hd : d = '='
      · subst hd; simp [argcmpLoop, keyOf, AtEnd]
      · have hk : keyOf (d :: arg) = d :: keyOf arg := by simp [keyOf, hd]
        rw [hk]
        by_cases hcd : c = d
        · subst hcd
          have hl : argcmpLoop false (c :: ref) (c :: arg) r a = argcmpLoop false ref arg (r + 1) (a + 1) := by
            simp [argcmpLoop, hd]
          rw [hl, List.cons_prefix_cons]
          obtain ⟨h1, h2⟩ := ih arg (r + 1) (a + 1)
          constructor
          · rintro ⟨-, hp⟩
            obtain ⟨l, hl1, hl2⟩ := h1 hp
            refine ⟨l, hl1, ?_⟩
            rw [hl2, List.length_cons, Prod.mk.injEq, Prod.mk.injEq]; refine ⟨rfl, ?_, ?_⟩ <;> omega
          · intro hp; exact h2 (fun h => hp ⟨rfl, h⟩)
        · rw [List.cons_prefix_cons]
          constructor
          · rintro ⟨h, -⟩; exact absurd h.symm hcd
          · intro _
            simp [argcmpLoop, hd, hcd, AtEnd]

/-- What `argcmp` is without fewer dashes. -/
theorem argcmp_false (ref arg : Str) (m : Nat) : argcmp ref arg m false =
    if keyOf arg <+: ref then (if (keyOf arg).length < m then -1 else ((keyOf arg).length : Int)) else 0 := by
  obtain ⟨h1, h2⟩ := loop_false ref arg 0 0
  by_cases hp : keyOf arg <+: ref
  · obtain ⟨l, hl, he⟩ := h1 hp
    rw [if_pos hp, argcmp, he]
    rcases hl with rfl | hl
    · simp
    · simp [hl]
  · have := h2 hp
    rw [if_neg hp, argcmp]
    generalize argcmpLoop false ref arg 0 0 = x at this
    obtain ⟨l, r, a⟩ := x
    simp only [AtEnd, not_or] at this
    simp [this]

/-- The words that are equal but for dashes left out of the second, up to the end of the second. -/
inductive Dashless : Str → Str → Prop
  | nil (ref) : Dashless ref []
  | same (c) {ref k} : Dashless ref k → Dashless (c :: ref) (c :: k)
  | skip {ref k} : Dashless ref k → Dashless ('-' :: ref) k

theorem loop_true (ref arg : Str) (r a : Nat) :
    let x := argcmpLoop true ref arg r a
    AtEnd x.1 → x.2.2 = a + (keyOf arg).length ∧ Dashless ref (keyOf arg) ∧ r ≤ x.2.1 := by
  induction ref generalizing arg r a with
  | nil =>
    cases arg with
    | nil => simp [argcmpLoop, keyOf, AtEnd, Dashless.nil]
    | cons d arg =>
      by_cases hd : d = '='
      · subst hd; simp [argcmpLoop, keyOf, AtEnd, Dashless.nil]
      · simp [argcmpLoop, AtEnd, hd]
  | cons c ref ih =>
    cases arg with
    | nil => simp [argcmpLoop, keyOf, AtEnd, Dashless.nil]
    | cons d arg =>
      intro x hx
      by_cases h : d ≠ '=' ∧ c = d
      · obtain ⟨hd, rfl⟩ := h
        have hl : x = argcmpLoop true ref arg (r + 1) (a + 1) := by simp [x, argcmpLoop, hd]
        have hk : keyOf (c :: arg) = c :: keyOf arg := by simp [keyOf, hd]
        rw [hl] at hx ⊢
        obtain ⟨h1, h2, h3⟩ := ih arg (r + 1) (a + 1) hx
        rw [hk]
        exact ⟨by rw [h1, List.length_cons]; omega, .same c h2, by omega⟩
      · by_cases h' : c = '-' ∧ ref.head? = some d
        · have hl : x = argcmpLoop true ref (d :: arg) (r + 1) a := by simp only [x, argcmpLoop]; rw [if_neg h, if_pos ⟨trivial, h'⟩]
          rw [hl] at hx ⊢
          obtain ⟨h1, h2, h3⟩ := ih (d :: arg) (r + 1) a hx
          rw [h'.1]
          exact ⟨h1, .skip h2, by omega⟩
        · have hl : x = (d :: arg, r, a) := by
            simp only [x, argcmpLoop]; rw [if_neg h, if_neg (fun hh => h' hh.2)]
          rw [hl] at hx ⊢
          rcases hx with hx | hx
          · simp at hx
          · simp only [List.head?_cons, Option.some.injEq] at hx
            subst hx
            simp [keyOf, Dashless.nil]

/-- If a match with fewer dashes is long enough, its length is that of the key. -/
theorem argcmp_true_pos {ref arg : Str} {m : Nat} (h : argcmp ref arg m true > 0) :
    argcmp ref arg m true = (keyOf arg).length ∧ Dashless ref (keyOf arg) ∧ keyOf arg ≠ [] := by
  have := loop_true ref arg 0 0
  rw [argcmp] at h ⊢
  generalize argcmpLoop true ref arg 0 0 = x at this h
  obtain ⟨l, r, a⟩ := x
  simp only [AtEnd] at this h ⊢
  by_cases hl : l ≠ [] ∧ l.head? ≠ some '='
  · simp [hl] at h
  · rw [if_neg hl] at h ⊢
    by_cases hr : r < m
    · simp [hr] at h
    · rw [if_neg hr] at h ⊢
      obtain ⟨h1, h2, -⟩ := this (by by_contra hc; exact hl (not_or.1 hc))
      refine ⟨by omega, h2, ?_⟩
      intro he
      rw [he] at h1
      simp at h1
      omega

theorem loop_true_of_prefix (ref arg : Str) (r a : Nat) (hp : keyOf arg <+: ref) :
    let x := argcmpLoop true ref arg r a
    AtEnd x.1 ∧ x.2.2 = a + (keyOf arg).length ∧ r + (keyOf arg).length ≤ x.2.1 := by
  induction ref generalizing arg r a with
  | nil =>
    cases arg with
    | nil => simp [argcmpLoop, keyOf, AtEnd]
    | cons d arg =>
      by_cases hd : d = '='
      · subst hd; simp [argcmpLoop, keyOf, AtEnd]
      · simp [keyOf, hd] at hp
  | cons c ref ih =>
    cases arg with
    | nil => simp [argcmpLoop, keyOf, AtEnd]
    | cons d arg =>
      intro x
      by_cases hd : d = '='
      · subst hd
        have hk : ∀ l, keyOf ('=' :: l) = [] := by intro l; simp [keyOf]
        by_cases h' : c = '-' ∧ ref.head? = some '='
        · have hl : x = argcmpLoop true ref ('=' :: arg) (r + 1) a := by
            simp only [x, argcmpLoop]; rw [if_neg (by simp), if_pos ⟨trivial, h'⟩]
          rw [hl]
          obtain ⟨h1, h2, h3⟩ := ih ('=' :: arg) (r + 1) a (by rw [hk]; exact List.nil_prefix)
          exact ⟨h1, h2, by omega⟩
        · have hl : x = ('=' :: arg, r, a) := by
            simp only [x, argcmpLoop]; rw [if_neg (by simp), if_neg (fun hh => h' hh.2)]
          rw [hl, hk]; simp [AtEnd]
      · have hk : keyOf (d :: arg) = d :: keyOf arg := by simp [keyOf, hd]
        rw [hk, List.cons_prefix_cons] at hp
        obtain ⟨rfl, hp⟩ := hp
        have hl : x = argcmpLoop true ref arg (r + 1) (a + 1) := by simp [x, argcmpLoop, hd]
        rw [hl, hk]
        obtain ⟨h1, h2, h3⟩ := ih arg (r + 1) (a + 1) hp
        refine ⟨h1, by rw [h2, List.length_cons]; omega, by rw [List.length_cons]; omega⟩

/-- A match found without leaving out dashes is found again when they may be. -/
theorem argcmp_true_of_false {ref arg : Str} {m : Nat} (h : argcmp ref arg m false > 0) :
    argcmp ref arg m true = (keyOf arg).length := by
  rw [argcmp_false] at h
  by_cases hp : keyOf arg <+: ref
  · rw [if_pos hp] at h
    by_cases hm : (keyOf arg).length < m
    · simp [hm] at h
    · obtain ⟨h1, h2, h3⟩ := loop_true_of_prefix ref arg 0 0 hp
      rw [argcmp]
      generalize argcmpLoop true ref arg 0 0 = x at h1 h2 h3
      obtain ⟨l, r, a⟩ := x
      simp only [AtEnd] at h1 h2 h3 ⊢
      rw [if_neg (by rintro ⟨ha, hb⟩; exact h1.elim ha hb), if_neg (by omega)]
      omega
  · simp [hp] at h

/-! ## How much of a name is needed -/

theorem minDifferent_of_prefix {s t : Str} (h : s <+: t) : minDifferent s t = s.length := by
  induction s generalizing t with
  | nil => simp [minDifferent]
  | cons a s ih =>
    cases t with
    | nil => simp at h
    | cons b t =>
      rw [List.cons_prefix_cons] at h
      obtain ⟨rfl, h⟩ := h
      simp [minDifferent, ih h]

/-- A beginning of `s` is a beginning of `t` too exactly if it is shorter than `minDifferent`, or if it is the whole of `s`
and `s` is a beginning of `t`. -/
theorem minDifferent_spec (s t k : Str) (hk : k <+: s) :
    k <+: t ↔ k.length < minDifferent s t ∨ (k = s ∧ s <+: t) := by
  induction s generalizing t k with
  | nil => simp at hk; subst hk; simp
  | cons a s ih =>
    cases k with
    | nil =>
      cases t with
      | nil => simp [minDifferent]
      | cons b t => by_cases hab : a = b <;> simp [minDifferent, hab]
    | cons c k =>
      rw [List.cons_prefix_cons] at hk
      obtain ⟨rfl, hk⟩ := hk
      cases t with
      | nil => simp [minDifferent]
      | cons b t =>
        by_cases hab : c = b
        · subst hab
          simp [minDifferent, List.cons_prefix_cons, ih t k hk]
        · simp [minDifferent, hab, List.cons_prefix_cons]

/-- The options `e` must be told apart from. -/
def Rival (neg : Bool) (e f : Entry) : Prop :=
  e.usable neg = true ∧ f.usable neg = true ∧ e.o.id ≠ f.o.id ∧ ¬ (e.io.iprefmatch = true ∧ e.name <+: f.name)

instance (neg : Bool) (e f : Entry) : Decidable (Rival neg e f) := by unfold Rival; infer_instance

theorem strncmpEq_iff (s t : Str) (n : Nat) : strncmpEq s t n = true ↔ s.take n = t.take n := by simp [strncmpEq]

theorem strncmpEq_length (s t : Str) : strncmpEq s t s.length = true ↔ s <+: t := by
  rw [strncmpEq_iff, List.take_length, List.prefix_iff_eq_take]

theorem compare_lmm (neg : Bool) (e f : Entry) : (compareOptions e f).lmm neg =
    if e.usable neg = true ∧ f.usable neg = true ∧ e.o.id ≠ f.o.id ∧ ¬ (e.io.iprefmatch = true ∧ e.name <+: f.name)
      ∧ e.name.take (e.lmm neg) = f.name.take (e.lmm neg) then minDifferent e.name f.name else e.lmm neg := by
  have hl := strncmpEq_length e.name f.name
  have hp := strncmpEq_iff e.name f.name e.io.lmmpos
  have hn := strncmpEq_iff e.name f.name e.io.lmmneg
  cases neg <;> simp only [Entry.usable, Entry.lmm, compareOptions] <;> grind

theorem compare_same (e f : Entry) : (compareOptions e f).o = e.o ∧ (compareOptions e f).name = e.name ∧
    (∀ neg, (compareOptions e f).usable neg = e.usable neg) ∧ (compareOptions e f).io.iprefmatch = e.io.iprefmatch ∧
    (compareOptions e f).io.ilongoff = e.io.ilongoff ∧ (compareOptions e f).io.ishort = e.io.ishort ∧
    (compareOptions e f).io.ilong = e.io.ilong ∧
    (compareOptions e f).io.ipos = e.io.ipos ∧ (compareOptions e f).io.ineg = e.io.ineg ∧
    (compareOptions e f).io.imandatory = e.io.imandatory ∧ (compareOptions e f).io.ioptional = e.io.ioptional := by
  unfold compareOptions
  split
  · simp
  · split
    · simp [Entry.name, Entry.usable]
    · simp

/-- Two entries that differ only in the lengths to match. -/
structure Alike (e f : Entry) : Prop where
  o : e.o = f.o
  pref : e.io.iprefmatch = f.io.iprefmatch
  off : e.io.ilongoff = f.io.ilongoff
  ishort : e.io.ishort = f.io.ishort
  ilong : e.io.ilong = f.io.ilong
  ipos : e.io.ipos = f.io.ipos
  ineg : e.io.ineg = f.io.ineg
  imandatory : e.io.imandatory = f.io.imandatory
  ioptional : e.io.ioptional = f.io.ioptional

theorem Alike.name {e f : Entry} (h : Alike e f) : e.name = f.name := by simp [Entry.name, h.o, h.off]

theorem Alike.usable {e f : Entry} (h : Alike e f) (neg : Bool) : e.usable neg = f.usable neg := by
  simp [Entry.usable, h.ilong, h.ipos, h.ineg]

theorem Alike.refl (e : Entry) : Alike e e := ⟨rfl, rfl, rfl, rfl, rfl, rfl, rfl, rfl, rfl⟩

theorem Alike.trans {e f g : Entry} (h : Alike e f) (k : Alike f g) : Alike e g :=
  ⟨h.o.trans k.o, h.pref.trans k.pref, h.off.trans k.off, h.ishort.trans k.ishort, h.ilong.trans k.ilong, h.ipos.trans k.ipos,
    h.ineg.trans k.ineg, h.imandatory.trans k.imandatory, h.ioptional.trans k.ioptional⟩

theorem Alike.symm {e f : Entry} (h : Alike e f) : Alike f e :=
  ⟨h.o.symm, h.pref.symm, h.off.symm, h.ishort.symm, h.ilong.symm, h.ipos.symm, h.ineg.symm, h.imandatory.symm, h.ioptional.symm⟩

theorem compare_alike (e f : Entry) : Alike (compareOptions e f) e := by
  obtain ⟨h1, -, -, h2, h3, h4, h5, h6, h7, h8, h9⟩ := compare_same e f
  exact ⟨h1, h2, h3, h4, h5, h6, h7, h8, h9⟩

/-- Whether rivals look at the same things. -/
theorem Rival.alike {neg : Bool} {e e' f f' : Entry} (h : Rival neg e f) (he : Alike e e') (hf : Alike f f') :
    Rival neg e' f' := by
  obtain ⟨h1, h2, h3, h4⟩ := h
  exact ⟨he.usable neg ▸ h1, hf.usable neg ▸ h2, by rw [← he.o, ← hf.o]; exact h3, by rw [← he.pref, ← he.name, ← hf.name]; exact h4⟩

/-- The invariant of the comparisons. -/
structure Lmm (neg : Bool) (e : Entry) (fs : List Entry) (n : Nat) : Prop where
  le : n ≤ max 1 e.name.length
  pos : 1 ≤ n
  all : ∀ f ∈ fs, Rival neg e f → minDifferent e.name f.name ≤ n
  some : n = 1 ∨ ∃ f ∈ fs, Rival neg e f ∧ n = minDifferent e.name f.name

theorem minDifferent_le (s t : Str) : minDifferent s t ≤ s.length := by
  induction s generalizing t with
  | nil => simp [minDifferent]
  | cons a s ih =>
    cases t with
    | nil => simp [minDifferent]
    | cons b t => by_cases h : a = b <;> simp [minDifferent, h, ih t]

theorem take_eq_iff (s t : Str) (n : Nat) (h : n ≤ s.length) : s.take n = t.take n ↔ s.take n <+: t := by
  rw [List.prefix_iff_eq_take]
  simp [Nat.min_eq_left h]

theorem lmm_step {neg : Bool} {e : Entry} {fs : List Entry} {n : Nat} (f : Entry) (h : Lmm neg e fs n)
    (hn : e.usable neg = true → e.name ≠ []) :
    Lmm neg e (fs ++ [f]) (if Rival neg e f ∧ e.name.take n = f.name.take n then minDifferent e.name f.name else n) := by
  by_cases hr : Rival neg e f
  · have hne := hn hr.1
    have hlen : 1 ≤ e.name.length := List.length_pos_iff.2 hne
    have hle : n ≤ e.name.length := by have := h.le; omega
    have key := minDifferent_spec e.name f.name (e.name.take n) (List.take_prefix _ _)
    rw [← take_eq_iff _ _ _ hle, List.length_take, Nat.min_eq_left hle] at key
    by_cases ht : e.name.take n = f.name.take n
    · rw [if_pos ⟨hr, ht⟩]
      have hge : n ≤ minDifferent e.name f.name := by
        rcases key.1 ht with h1 | ⟨h1, h2⟩
        · omega
        · rw [minDifferent_of_prefix h2]; exact hle
      refine ⟨by have := minDifferent_le e.name f.name; omega, by have := h.pos; omega, ?_, Or.inr ⟨f, by simp, hr, rfl⟩⟩
      intro g hg hrg
      rcases List.mem_append.1 hg with hg | hg
      · exact (h.all g hg hrg).trans hge
      · rw [List.mem_singleton.1 hg]
    · rw [if_neg (fun hh => ht hh.2)]
      have hlt : minDifferent e.name f.name ≤ n := by
        by_contra hc
        exact ht (key.2 (Or.inl (by omega)))
      refine ⟨h.le, h.pos, ?_, ?_⟩
      · intro g hg hrg
        rcases List.mem_append.1 hg with hg | hg
        · exact h.all g hg hrg
        · rw [List.mem_singleton.1 hg]; exact hlt
      · rcases h.some with h1 | ⟨g, hg, h2⟩
        · exact Or.inl h1
        · exact Or.inr ⟨g, by simp [hg], h2⟩
  · rw [if_neg (fun hh => hr hh.1)]
    refine ⟨h.le, h.pos, ?_, ?_⟩
    · intro g hg hrg
      rcases List.mem_append.1 hg with hg | hg
      · exact h.all g hg hrg
      · rw [List.mem_singleton.1 hg] at hrg; exact absurd hrg hr
    · rcases h.some with h1 | ⟨g, hg, h2⟩
      · exact Or.inl h1
      · exact Or.inr ⟨g, by simp [hg], h2⟩

theorem Lmm.alike {neg : Bool} {e e' : Entry} {fs : List Entry} {n : Nat} (h : Lmm neg e fs n) (ha : Alike e e') :
    Lmm neg e' fs n := by
  have hname := ha.name
  refine ⟨hname ▸ h.le, h.pos, ?_, ?_⟩
  · intro f hf hr
    rw [← hname]; exact h.all f hf (hr.alike ha.symm (Alike.refl f))
  · rcases h.some with h1 | ⟨f, hf, hr, h2⟩
    · exact Or.inl h1
    · exact Or.inr ⟨f, hf, hr.alike ha (Alike.refl f), hname ▸ h2⟩

theorem fold_lmm (neg : Bool) (gs fs : List Entry) (e : Entry) (hn : e.usable neg = true → e.name ≠ [])
    (h : Lmm neg e fs (e.lmm neg)) :
    Alike (gs.foldl compareOptions e) e ∧ Lmm neg e (fs ++ gs) ((gs.foldl compareOptions e).lmm neg) := by
  induction gs generalizing fs e with
  | nil => exact ⟨Alike.refl e, by simpa using h⟩
  | cons g gs ih =>
    have ha := compare_alike e g
    have h1 := lmm_step g h hn
    have he : (compareOptions e g).lmm neg =
        if Rival neg e g ∧ e.name.take (e.lmm neg) = g.name.take (e.lmm neg) then minDifferent e.name g.name else e.lmm neg := by
      rw [compare_lmm]
      simp only [Rival, and_assoc]
    rw [← he] at h1
    obtain ⟨h2, h3⟩ := ih (fs ++ [g]) (compareOptions e g)
      (by rw [ha.usable, ha.name]; exact hn) (h1.alike ha.symm)
    refine ⟨h2.trans ha, ?_⟩
    have := h3.alike ha
    rwa [List.append_assoc, List.singleton_append] at this

end Verif.Options
