import Verif.Tso.Model

/-!
# Programs on machines with and without store buffers

Threads are programs over objects (nodes with all their fields, as in `Verif.Tso.Model`).  Their accesses are loads, plain stores,
compare-and-exchange (/repo/compiler.hh:281-291) and fences (`mfence`, /repo/compiler.hh:102-105).  The same program runs on two machines: on one
each access is done at once, on the other plain stores wait in a buffer (x86-TSO).
-/
namespace Verif.Tso

variable {S L : Type}

/-- What a thread may do next, and where it goes from there. -/
inductive Act (S L : Type) where
  /-- read an object -/
  | load (o : Nat) (k : S → L)
  /-- change an object by a plain store -/
  | store (o : Nat) (f : S → S) (l : L)
  /-- change an object if it is as expected, all at once -/
  | cas (o : Nat) (g : S → Option S) (k : S → L)
  | fence (l : L)

/-- `free` says of an object that its lock is not taken; `next t l a` that thread `t` at the place `l` may do `a`. -/
structure Prog (S L : Type) where
  free : S → Prop
  next : Nat → L → Act S L → Prop

/-! ### The machine without buffers -/

/-- Memory and where the threads are; besides, which objects a thread has locked, and whether it has stored anything since its last
fence or compare-and-exchange. -/
structure Sc (S L : Type) where
  mem : Nat → S
  loc : Nat → L
  holds : Nat → Nat → Prop
  dirty : Nat → Prop

/-- The locks of a thread after a store to `o`. -/
def after (free : S → Prop) (h : Nat → Prop) (o : Nat) (s : S) : Nat → Prop := fun o' => h o' ∧ (o' = o → ¬ free s)

inductive ScStep (P : Prog S L) : Sc S L → Sc S L → Prop where
  | load {s : Sc S L} (t o : Nat) (k : S → L) (hn : P.next t (s.loc t) (.load o k)) :
      ScStep P s { s with loc := Function.update s.loc t (k (s.mem o)) }
  | store {s : Sc S L} (t o : Nat) (f : S → S) (l : L) (hn : P.next t (s.loc t) (.store o f l)) :
      ScStep P s ⟨Function.update s.mem o (f (s.mem o)), Function.update s.loc t l,
        Function.update s.holds t (after P.free (s.holds t) o (f (s.mem o))), Function.update s.dirty t True⟩
  | got {s : Sc S L} (t o : Nat) (g : S → Option S) (k : S → L) (x : S) (hn : P.next t (s.loc t) (.cas o g k))
      (hg : g (s.mem o) = some x) :
      ScStep P s ⟨Function.update s.mem o x, Function.update s.loc t (k (s.mem o)),
        Function.update s.holds t (fun o' => o' = o ∨ s.holds t o'), Function.update s.dirty t False⟩
  | missed {s : Sc S L} (t o : Nat) (g : S → Option S) (k : S → L) (hn : P.next t (s.loc t) (.cas o g k))
      (hg : g (s.mem o) = none) :
      ScStep P s { s with loc := Function.update s.loc t (k (s.mem o)), dirty := Function.update s.dirty t False }
  | fence {s : Sc S L} (t : Nat) (l : L) (hn : P.next t (s.loc t) (.fence l)) :
      ScStep P s { s with loc := Function.update s.loc t l, dirty := Function.update s.dirty t False }

inductive ScReach (P : Prog S L) (s : Sc S L) : Sc S L → Prop where
  | refl : ScReach P s s
  | tail {s1 s2 : Sc S L} : ScReach P s s1 → ScStep P s1 s2 → ScReach P s s2

/-! ### The machine with buffers -/

structure Buffered (S L : Type) where
  mem : Nat → S
  loc : Nat → L
  buf : Nat → List (Nat × (S → S))

/-- What a thread reads. -/
def Buffered.view (s : Buffered S L) (t o : Nat) : S := apply (proj o (s.buf t)) (s.mem o)

inductive BStep (P : Prog S L) : Buffered S L → Buffered S L → Prop where
  | load {s : Buffered S L} (t o : Nat) (k : S → L) (hn : P.next t (s.loc t) (.load o k)) :
      BStep P s { s with loc := Function.update s.loc t (k (s.view t o)) }
  | store {s : Buffered S L} (t o : Nat) (f : S → S) (l : L) (hn : P.next t (s.loc t) (.store o f l)) :
      BStep P s { s with loc := Function.update s.loc t l, buf := Function.update s.buf t (s.buf t ++ [(o, f)]) }
  | got {s : Buffered S L} (t o : Nat) (g : S → Option S) (k : S → L) (x : S) (hn : P.next t (s.loc t) (.cas o g k))
      (hb : s.buf t = []) (hg : g (s.mem o) = some x) :
      BStep P s { s with mem := Function.update s.mem o x, loc := Function.update s.loc t (k (s.mem o)) }
  | missed {s : Buffered S L} (t o : Nat) (g : S → Option S) (k : S → L) (hn : P.next t (s.loc t) (.cas o g k))
      (hb : s.buf t = []) (hg : g (s.mem o) = none) :
      BStep P s { s with loc := Function.update s.loc t (k (s.mem o)) }
  | fence {s : Buffered S L} (t : Nat) (l : L) (hn : P.next t (s.loc t) (.fence l)) (hb : s.buf t = []) :
      BStep P s { s with loc := Function.update s.loc t l }
  /-- The oldest store of a buffer reaches memory. -/
  | commit {s : Buffered S L} (t o : Nat) (f : S → S) (b : List (Nat × (S → S))) (hb : s.buf t = (o, f) :: b) :
      BStep P s { s with mem := Function.update s.mem o (f (s.mem o)), buf := Function.update s.buf t b }

inductive BReach (P : Prog S L) (s : Buffered S L) : Buffered S L → Prop where
  | refl : BReach P s s
  | tail {s1 s2 : Buffered S L} : BReach P s s1 → BStep P s1 s2 → BReach P s s2

/-! ### Discipline -/

/-- At the start nothing was stored, and locked objects have one holder. -/
structure Start (P : Prog S L) (s : Sc S L) : Prop where
  held : ∀ t o, s.holds t o → ¬ P.free (s.mem o)
  one : ∀ t t' o, s.holds t o → s.holds t' o → t = t'
  clean : ∀ t, ¬ s.dirty t

/-- Without buffers, every thread stores only to what it has locked, takes locks only with compare-and-exchange, and between its last
store and the next fence or compare-and-exchange loads only what it has locked. -/
structure Disciplined (P : Prog S L) (s0 : Sc S L) : Prop where
  start : Start P s0
  load : ∀ {s}, ScReach P s0 s → ∀ {t o k}, P.next t (s.loc t) (.load o k) → s.dirty t → s.holds t o
  store : ∀ {s}, ScReach P s0 s → ∀ {t o f l}, P.next t (s.loc t) (.store o f l) → s.holds t o
  cas : ∀ {s}, ScReach P s0 s → ∀ {t o g k x}, P.next t (s.loc t) (.cas o g k) → g (s.mem o) = some x →
    P.free (s.mem o) ∧ ¬ P.free x

/-- The same start with empty buffers. -/
def Sc.buffered (s : Sc S L) : Buffered S L := ⟨s.mem, s.loc, fun _ => []⟩

end Verif.Tso
