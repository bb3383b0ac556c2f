import Verif.Json.TableOps
import Verif.Json.Hash
import Mathlib.Data.Fintype.Pigeonhole
import Mathlib.Data.Fintype.List
import Mathlib.Data.Set.Finite.Basic
import Mathlib.Tactic.ByContra

/-!
# C59 Objects of `Json` are finite maps in order of insertion

Theorems about the model in `Verif/Json/Table.lean`.
-/
namespace Verif.Props.C59
open Verif.Key (Bytes)
open Verif.Json.Table Verif.Json.Hash

variable {β : Type}

/-! ### What an object should do -/

/-- A list of keys and values, and whether anything was ever put into it. -/
structure Spec (β : Type) where
  used : Bool
  items : List (Bytes × β)

inductive Op (β : Type) where
  | set (k : Bytes) (v : β)
  | getInsert (k : Bytes)
  | insert (k : Bytes) (v : β)
  | erase (k : Bytes)
  | clear

/-- The value of the key is replaced in its place, or the key is put at the end. -/
def put (l : List (Bytes × β)) (k : Bytes) (v : β) : List (Bytes × β) :=
  if k ∈ l.map Prod.fst then l.map (fun x => if x.1 = k then (x.1, v) else x) else l ++ [(k, v)]

/-- The key is put at the end unless it is there. -/
def add (l : List (Bytes × β)) (k : Bytes) (v : β) : List (Bytes × β) :=
  if k ∈ l.map Prod.fst then l else l ++ [(k, v)]

/-- An operation and the number it returns; `none` is undefined. -/
def Spec.step (nul : β) (s : Spec β) : Op β → Option (Spec β × Nat)
  | .set k v => some (⟨true, put s.items k v⟩, 0)
  | .getInsert k => some (⟨true, add s.items k nul⟩, 0)
  | .insert k v => some (⟨true, add s.items k v⟩, if k ∈ s.items.map Prod.fst then 0 else 1)
  | .erase k =>
    if s.used then some (⟨true, s.items.filter (fun x => decide (x.1 ≠ k))⟩, if k ∈ s.items.map Prod.fst then 1 else 0) else none
  | .clear => some (⟨s.used, []⟩, 0)

/-- The same for the table. -/
def step (hc : Bytes → Nat) (nul : β) (o : Obj β) : Op β → Option (Obj β × Nat)
  | .set k v => (o.set hc nul k v).map (·, 0)
  | .getInsert k => (o.findInsert hc k nul).map fun x => (x.1, 0)
  | .insert k v => (o.insert hc k v).map fun x => (x.1, if x.2 then 1 else 0)
  | .erase k => o.erase hc k
  | .clear => some (o.clear, 0)

def Spec.run (nul : β) (s : Spec β) : List (Op β) → Option (Spec β × List Nat)
  | [] => some (s, [])
  | a :: l => (s.step nul a).bind fun x => (Spec.run nul x.1 l).map fun y => (y.1, x.2 :: y.2)

def run (hc : Bytes → Nat) (nul : β) (o : Obj β) : List (Op β) → Option (Obj β × List Nat)
  | [] => some (o, [])
  | a :: l => (step hc nul o a).bind fun x => (run hc nul x.1 l).map fun y => (y.1, x.2 :: y.2)

/-! ### Steps -/

structure Rel (hc : Bytes → Nat) (o : Obj β) (s : Spec β) : Prop where
  inv : Inv hc o
  used : s.used = true ↔ o.hsize ≠ 0
  items : o.contents = s.items

theorem findInsert_rel {hc : Bytes → Nat} {o : Obj β} (h : Inv hc o) (k : Bytes) (v : β) :
    ∃ o' p, o.findInsert hc k v = some (o', p) ∧ Inv hc o' ∧ o'.hsize ≠ 0 ∧ o'.Live p ∧ o'.key p = k ∧
      o'.contents = add o.contents k v ∧ (p = o.n ↔ k ∉ o.contents.map Prod.fst) := by
  obtain ⟨o', p, e, h1, h2, h3, h4, _, _, hh⟩ := findInsert_spec h k v
  refine ⟨o', p, e, h1, h2, h3, h4, ?_⟩
  rcases hh with ⟨hl, _, e2, e3, _⟩ | ⟨hl, _, e2, e3, _⟩
  · have hm : k ∈ o.contents.map Prod.fst := mem_keys.mpr hl
    refine ⟨by rw [add, if_pos hm, e2], ?_⟩
    constructor
    · intro hp; omega
    · intro hk; exact absurd hm hk
  · have hm : k ∉ o.contents.map Prod.fst := by
      rw [mem_keys]; rintro ⟨j, h1, h2⟩; exact hl j h1 h2
    exact ⟨by rw [add, if_neg hm, e2], fun _ => hm, fun _ => e3⟩

theorem put_add (l : List (Bytes × β)) (k : Bytes) (v w : β) :
    (add l k w).map (fun x => if x.1 = k then (x.1, v) else x) = put l k v := by
  unfold add put
  by_cases h : k ∈ l.map Prod.fst
  · rw [if_pos h, if_pos h]
  · rw [if_neg h, if_neg h, List.map_append]
    congr 1
    · conv_rhs => rw [← List.map_id l]
      refine List.map_congr_left fun x hx => ?_
      rw [if_neg (show ¬ x.1 = k from fun he => h (he ▸ List.mem_map_of_mem hx))]
      rfl
    · simp

theorem set_rel {hc : Bytes → Nat} {nul : β} {o : Obj β} (h : Inv hc o) (k : Bytes) (v : β) :
    ∃ o', o.set hc nul k v = some o' ∧ Inv hc o' ∧ o'.hsize ≠ 0 ∧ o'.contents = put o.contents k v := by
  obtain ⟨o', p, e, h1, h2, h3, h4, h5, _⟩ := findInsert_rel h k nul
  obtain ⟨g1, g2⟩ := h1.setVal h3 v
  refine ⟨_, by rw [Obj.set, e]; rfl, g1, h2, ?_⟩
  rw [g2, h4, h5, put_add]

theorem clear_inv {hc : Bytes → Nat} {o : Obj β} (h : Inv hc o) : Inv hc o.clear := by
  refine ⟨?_, ?_, ?_, ?_, rfl, Nat.zero_le _⟩
  · rcases h.pow with ⟨h1, _⟩ | h1
    · exact .inl ⟨h1, rfl⟩
    · exact .inr h1
  · intro j hj; exact absurd hj (Nat.not_lt_zero _)
  · intro b _
    refine ⟨[], rfl, List.nodup_nil, fun j => ?_⟩
    simp only [List.not_mem_nil, false_iff]
    rintro ⟨h1, _⟩
    exact absurd h1.1 (Nat.not_lt_zero _)
  · intro i j hi
    exact absurd hi.1 (Nat.not_lt_zero _)

theorem step_rel {hc : Bytes → Nat} {nul : β} {o : Obj β} {s : Spec β} (h : Rel hc o s) (a : Op β) :
    (step hc nul o a = none ∧ s.step nul a = none) ∨
    ∃ o' s' x, step hc nul o a = some (o', x) ∧ s.step nul a = some (s', x) ∧ Rel hc o' s' := by
  cases a with
  | set k v =>
    obtain ⟨o', e, h1, h2, h3⟩ := set_rel (nul := nul) h.inv k v
    right
    exact ⟨o', _, _, by simp only [step, e]; rfl, rfl, h1, by simp [h2], by rw [h3, h.items]⟩
  | getInsert k =>
    obtain ⟨o', p, e, h1, h2, h3, h4, h5, _⟩ := findInsert_rel h.inv k nul
    right
    exact ⟨o', _, _, by simp only [step, e]; rfl, rfl, h1, by simp [h2], by rw [h5, h.items]⟩
  | insert k v =>
    obtain ⟨o', p, e, h1, h2, h3, h4, h5, h6⟩ := findInsert_rel h.inv k v
    right
    refine ⟨o', ⟨true, add s.items k v⟩, if k ∈ s.items.map Prod.fst then 0 else 1, ?_, rfl, h1, by simp [h2], by rw [h5, h.items]⟩
    simp only [step, Obj.insert, e, Option.map_some, Option.some.injEq, Prod.mk.injEq, true_and]
    rw [h.items] at h6
    by_cases hk : k ∈ s.items.map Prod.fst
    · have : p ≠ o.n := fun hp => h6.mp hp hk
      rw [if_pos hk]; simp [this]
    · have := h6.mpr hk
      rw [if_neg hk]; simp [this]
  | erase k =>
    by_cases h0 : o.hsize = 0
    · left
      have hu : s.used = false := by
        cases hh : s.used with
        | false => rfl
        | true => exact absurd h0 (h.used.mp hh)
      refine ⟨?_, by simp [Spec.step, hu]⟩
      simp [step, Obj.erase, Obj.walk, Obj.read, h0]
    · right
      obtain ⟨o', h1, _, h3, h4, h5⟩ := erase_spec h.inv h0 k
      have hu := h.used.mpr h0
      refine ⟨o', ⟨true, s.items.filter (fun x => decide (x.1 ≠ k))⟩, _, h5, ?_, h1, by simp [h3, h0], by rw [h4, h.items]⟩
      simp only [Spec.step, hu, if_true, h.items]
  | clear =>
    right
    exact ⟨_, _, _, rfl, rfl, clear_inv h.inv, h.used, rfl⟩

theorem run_rel {hc : Bytes → Nat} {nul : β} : ∀ (l : List (Op β)) {o : Obj β} {s : Spec β}, Rel hc o s →
    (run hc nul o l = none ∧ s.run nul l = none) ∨
    ∃ o' s' x, run hc nul o l = some (o', x) ∧ s.run nul l = some (s', x) ∧ Rel hc o' s'
  | [], o, s, h => .inr ⟨o, s, [], rfl, rfl, h⟩
  | a :: l, o, s, h => by
    rcases step_rel (nul := nul) h a with ⟨e1, e2⟩ | ⟨o', s', x, e1, e2, h'⟩
    · left; exact ⟨by rw [run, e1]; rfl, by rw [Spec.run, e2]; rfl⟩
    · rcases run_rel (nul := nul) l h' with ⟨f1, f2⟩ | ⟨o'', s'', y, f1, f2, h''⟩
      · left; exact ⟨by rw [run, e1]; simp [f1], by rw [Spec.run, e2]; simp [f2]⟩
      · right
        exact ⟨o'', s'', x :: y, by rw [run, e1]; simp [f1], by rw [Spec.run, e2]; simp [f2], h''⟩

theorem new_rel (hc : Bytes → Nat) (v : β) : Rel hc (Obj.new v) ⟨false, []⟩ := by
  refine ⟨⟨.inl ⟨rfl, rfl⟩, ?_, ?_, ?_, rfl, Nat.le_refl _⟩, by simp [Obj.new], rfl⟩
  · intro j hj; exact absurd hj (Nat.not_lt_zero _)
  · intro b hb; exact absurd hb (Nat.not_lt_zero _)
  · intro i j hi; exact absurd hi.1 (Nat.not_lt_zero _)

/-! ### Theorems -/

/-- Whatever is done to a new object, it behaves as a list of distinct keys and values in order of insertion: each operation returns
the same, and the operations are undefined only where an erasure comes before every insertion. -/
theorem refines (hc : Bytes → Nat) (nul : β) (l : List (Op β)) :
    (run hc nul (Obj.new nul) l).map (fun x => (x.1.contents, x.2)) =
      (Spec.run nul ⟨false, []⟩ l).map (fun x => (x.1.items, x.2)) := by
  rcases run_rel (nul := nul) l (new_rel hc nul) with ⟨e1, e2⟩ | ⟨o, s, x, e1, e2, h⟩
  · rw [e1, e2]; rfl
  · rw [e1, e2]; simp [h.items]

theorem run_inv {hc : Bytes → Nat} {nul : β} {l : List (Op β)} {o : Obj β} {x : List Nat}
    (h : run hc nul (Obj.new nul) l = some (o, x)) : Inv hc o := by
  rcases run_rel (nul := nul) l (new_rel hc nul) with ⟨e1, _⟩ | ⟨o', s, y, e1, _, h'⟩
  · rw [e1] at h; simp at h
  · rw [e1] at h; cases h; exact h'.inv

/-- A key is looked up in what the object holds. -/
theorem looked_up {hc : Bytes → Nat} {nul : β} {l : List (Op β)} {o : Obj β} {x : List Nat}
    (h : run hc nul (Obj.new nul) l = some (o, x)) (k : Bytes) :
    ∃ r, o.get hc k = some r ∧ (∀ v, r = some v ↔ (k, v) ∈ o.contents) ∧ (r = none ↔ k ∉ o.contents.map Prod.fst) := by
  have hi := run_inv h
  rcases find_spec hi k with ⟨j, e, h1, h2⟩ | ⟨e, h1⟩
  · refine ⟨some (o.val j), by simp [Obj.get, e], ?_, ?_⟩
    · intro v
      rw [mem_contents, Option.some.injEq]
      constructor
      · intro hv; exact ⟨j, h1, h2, hv⟩
      · rintro ⟨i, g1, g2, g3⟩
        have := hi.keys i j g1 h1 (g2.trans h2.symm)
        rw [← this, g3]
    · simp only [reduceCtorEq, false_iff, not_not]
      exact mem_keys.mpr ⟨j, h1, h2⟩
  · refine ⟨none, by simp [Obj.get, e], ?_, ?_⟩
    · intro v
      simp only [reduceCtorEq, false_iff, mem_contents]
      rintro ⟨i, g1, g2, _⟩
      exact h1 i g1 g2
    · simp only [true_iff, mem_keys]
      rintro ⟨i, g1, g2⟩
      exact h1 i g1 g2

/-- Each key is there once, and the size is the number of keys. -/
theorem one_per_key {hc : Bytes → Nat} {nul : β} {l : List (Op β)} {o : Obj β} {x : List Nat}
    (h : run hc nul (Obj.new nul) l = some (o, x)) : (o.contents.map Prod.fst).Nodup ∧ o.size = o.contents.length :=
  ⟨(run_inv h).nodup, (run_inv h).size⟩

/-! ### Listing -/

/-- The loop `for (it = begin(); it.live(); ++it)`. -/
def listing (o : Obj β) : Nat → Option Nat → List Nat
  | f + 1, some i => i :: listing o f (o.fix (o.n + 1) (i + 1))
  | _, _ => []

theorem fix_some {o : Obj β} : ∀ {f i : Nat}, o.n < f + i → ∀ {j : Nat}, (o.fix f i = some j ↔
    i ≤ j ∧ o.Live j ∧ ∀ m, i ≤ m → m < j → ¬ o.Live m)
  | 0, i, hf, j => by
    simp only [Obj.fix, reduceCtorEq, false_iff, Obj.Live]
    rintro ⟨h1, ⟨h2, _⟩, _⟩; omega
  | f + 1, i, hf, j => by
    unfold Obj.fix
    by_cases h1 : o.n ≤ i
    · rw [if_pos h1]
      simp only [reduceCtorEq, false_iff, Obj.Live]
      rintro ⟨h1, ⟨h2, _⟩, _⟩; omega
    · rw [if_neg h1]
      by_cases h2 : o.next i = -2
      · rw [if_pos h2, fix_some (f := f) (i := i + 1) (by omega)]
        constructor
        · rintro ⟨g1, g2, g3⟩
          refine ⟨by omega, g2, fun m hm hmj => ?_⟩
          by_cases hmi : m = i
          · subst hmi; exact fun hh => hh.2 h2
          · exact g3 m (by omega) hmj
        · rintro ⟨g1, g2, g3⟩
          refine ⟨?_, g2, fun m hm hmj => g3 m (by omega) hmj⟩
          by_cases hj : j = i
          · subst hj; exact absurd h2 g2.2
          · omega
      · rw [if_neg h2, Option.some.injEq]
        constructor
        · rintro rfl; exact ⟨Nat.le_refl _, ⟨by omega, h2⟩, fun m _ _ => by omega⟩
        · rintro ⟨g1, g2, g3⟩
          by_contra hne
          exact g3 i (Nat.le_refl _) (by omega) ⟨by omega, h2⟩

theorem listing_range {o : Obj β} : ∀ (d i f : Nat), o.n = i + d → d < f →
    listing o f (o.fix (o.n + 1) i) = (List.range' i d).filter (fun j => decide (o.next j ≠ -2))
  | 0, i, f, hn, hf => by
    have : o.fix (o.n + 1) i = none := by
      unfold Obj.fix; rw [if_pos (by omega)]
    rw [this]
    cases f <;> rfl
  | d + 1, i, f + 1, hn, hf => by
    rw [List.range'_succ, List.filter_cons]
    by_cases h2 : o.next i = -2
    · have e : o.fix (o.n + 1) i = o.fix (o.n + 1) (i + 1) := by
        apply Option.ext
        intro j
        rw [fix_some (by omega), fix_some (by omega)]
        constructor
        · rintro ⟨g1, g2, g3⟩
          refine ⟨?_, g2, fun m hm hmj => g3 m (by omega) hmj⟩
          by_cases hj : j = i
          · subst hj; exact absurd h2 g2.2
          · omega
        · rintro ⟨g1, g2, g3⟩
          refine ⟨by omega, g2, fun m hm hmj => ?_⟩
          by_cases hmi : m = i
          · subst hmi; exact fun hh => hh.2 h2
          · exact g3 m (by omega) hmj
      rw [e, listing_range d (i + 1) (f + 1) (by omega) (by omega)]
      simp [h2]
    · have e : o.fix (o.n + 1) i = some i := by
        rw [fix_some (by omega)]
        exact ⟨Nat.le_refl _, ⟨by omega, h2⟩, fun m _ _ => by omega⟩
      rw [e, listing, listing_range d (i + 1) f (by omega) (by omega)]
      simp [h2]

/-- Going through the object with an iterator gives its keys and values in order. -/
theorem listed (o : Obj β) :
    (listing o (o.n + 1) (o.fix (o.n + 1) 0)).map (fun j => (o.key j, o.val j)) = o.contents := by
  rw [listing_range o.n 0 (o.n + 1) (by omega) (by omega), Obj.contents, ← List.range_eq_range']
  generalize List.range o.n = l
  induction l with
  | nil => rfl
  | cons a l ih =>
    rw [List.filter_cons, List.filterMap_cons]
    by_cases h : o.next a = -2
    · simp only [h, ne_eq, not_true_eq_false, decide_false, if_true]
      simpa using ih
    · simp only [h, ne_eq, not_false_eq_true, decide_true, if_true, if_false, List.map_cons, List.cons.injEq, true_and]
      simpa using ih

/-- The item at an iterator can be erased: nothing else goes, and the iterator goes on where it would have. -/
theorem erased_while_listing {hc : Bytes → Nat} {nul : β} {l : List (Op β)} {o : Obj β} {x : List Nat}
    (h : run hc nul (Obj.new nul) l = some (o, x)) {p : Nat} (hp : p ∈ listing o (o.n + 1) (o.fix (o.n + 1) 0)) :
    ∃ o', o.eraseAt hc p = some o' ∧ o'.contents = o.contents.filter (fun x => decide (x.1 ≠ o.key p)) ∧
      listing o' (o'.n + 1) (o'.fix (o'.n + 1) (p + 1)) = listing o (o.n + 1) (o.fix (o.n + 1) (p + 1)) ∧
      ∀ j, o'.key j = o.key j ∧ o'.val j = o.val j := by
  rw [listing_range o.n 0 (o.n + 1) (by omega) (by omega)] at hp
  simp only [List.mem_filter, List.mem_range'_1, decide_eq_true_eq] at hp
  obtain ⟨o', e, h1, h2, h3, h4, h5, h6⟩ := eraseAt_spec (run_inv h) (p := p) ⟨by omega, hp.2⟩
  refine ⟨o', e, h4, ?_, fun j => by rw [h5, h6]; exact ⟨rfl, rfl⟩⟩
  rw [listing_range (o.n - (p + 1)) (p + 1) (o'.n + 1) (by omega) (by omega),
    listing_range (o.n - (p + 1)) (p + 1) (o.n + 1) (by omega) (by omega)]
  refine List.filter_congr fun j hj => ?_
  have hj := List.mem_range'_1.mp hj
  simp only [ne_eq, h3 j (by omega)]

/-! ### merge -/

theorem mergeFrom_rel {hc : Bytes → Nat} {nul : β} (y : Obj β) (hl : ∀ j < y.n, -2 ≤ y.next j) :
    ∀ (f i : Nat) (o : Obj β), i + f = y.n → Inv hc o →
    ∃ o', y.mergeFrom hc nul f i o = some o' ∧ Inv hc o' ∧
      o'.contents = ((List.range' i f).filterMap
        fun j => if y.next j = -2 then none else some (y.key j, y.val j)).foldl (fun l x => put l x.1 x.2) o.contents
  | 0, i, o, _, h => ⟨o, rfl, h, rfl⟩
  | f + 1, i, o, hi, h => by
    have hlo := hl i (by omega)
    unfold Obj.mergeFrom
    rw [List.range'_succ, List.filterMap_cons]
    by_cases h2 : y.next i = -2
    · rw [if_neg (by omega)]
      simp only [h2, if_true]
      exact mergeFrom_rel y hl f (i + 1) o (by omega) h
    · rw [if_pos (by omega)]
      simp only [h2, if_false]
      obtain ⟨o1, e, h1, _, h3⟩ := set_rel (nul := nul) h (y.key i) (y.val i)
      obtain ⟨o2, e2, h4, h5⟩ := mergeFrom_rel (nul := nul) y hl f (i + 1) o1 (by omega) h1
      exact ⟨o2, by rw [e]; exact e2, h4, by rw [h5, h3]; rfl⟩

/-- Merging puts the keys and values of the other object, in order. -/
theorem merged {hc : Bytes → Nat} {nul : β} {l m : List (Op β)} {o y : Obj β} {a b : List Nat}
    (h : run hc nul (Obj.new nul) l = some (o, a)) (h' : run hc nul (Obj.new nul) m = some (y, b)) :
    ∃ o', o.merge hc nul y = some o' ∧ o'.contents = y.contents.foldl (fun l x => put l x.1 x.2) o.contents := by
  obtain ⟨o', e, _, h2⟩ := mergeFrom_rel (nul := nul) y (run_inv h').low y.n 0 o (by omega) (run_inv h)
  refine ⟨o', e, ?_⟩
  rw [h2, ← List.range_eq_range']
  rfl

/-! ### Size of the table -/

theorem colliding_step {hc : Bytes → Nat} {nul : β} {o : Obj β} (h : Inv hc o) {c : Nat} (hall : ∀ j < o.n, o.next j ≠ -2 ∧ hc (o.key j) = c)
    {k : Bytes} (hk : hc k = c) (hnew : k ∉ o.contents.map Prod.fst) (v : β) :
    ∃ o', o.set hc nul k v = some o' ∧ Inv hc o' ∧ o'.n = o.n + 1 ∧ (∀ j < o'.n, o'.next j ≠ -2 ∧ hc (o'.key j) = c) ∧
      o'.contents = o.contents ++ [(k, v)] ∧
      o'.hsize = if 4 < o.n then o.tableSize * 2 else o.tableSize := by
  obtain ⟨o', p, e, h1, h2, h3, h4, h5, h6, hh⟩ := findInsert_spec h k nul
  obtain ⟨q, eq, _, _, hq⟩ := set_rel (nul := nul) h k v
  rcases hh with ⟨hl, _⟩ | ⟨hl, g2, g3, g4, l, l1, l2, g5⟩
  · exact absurd (mem_keys.mpr hl) hnew
  · obtain ⟨s1, s2⟩ := h1.setVal h3 v
    have hlen : l.length = o.n := by
      have : l.Perm (List.range o.n) := by
        rw [List.perm_ext_iff_of_nodup l1 List.nodup_range]
        intro j
        rw [l2 j, List.mem_range]
        constructor
        · rintro ⟨hj, _⟩; exact hj.1
        · intro hj; exact ⟨⟨hj, (hall j hj).1⟩, by rw [(hall j hj).2, hk]⟩
      rw [this.length_eq, List.length_range]
    have es : o.set hc nul k v = some { o' with val := Function.update o'.val p v } := by rw [Obj.set, e]; rfl
    refine ⟨_, es, s1, g2, ?_, ?_, ?_⟩
    · show ∀ j < o'.n, o'.next j ≠ -2 ∧ hc (o'.key j) = c
      intro j hj
      by_cases hjn : j < o.n
      · exact ⟨fun hh => (hall j hjn).1 ((h5 j hjn).mp hh), by rw [h6 j hjn]; exact (hall j hjn).2⟩
      · have : j = o.n := by omega
        rw [this, ← g4]
        exact ⟨h3.2, by rw [h4]; exact hk⟩
    · rw [es] at eq
      rw [Option.some.inj eq, hq, put, if_neg hnew]
    · show o'.hsize = _
      rw [g5, hlen]

theorem colliding {hc : Bytes → Nat} {nul v : β} {c : Nat} : ∀ (ks : List Bytes) (o : Obj β), Inv hc o →
    (∀ j < o.n, o.next j ≠ -2 ∧ hc (o.key j) = c) → (∀ k ∈ ks, hc k = c) → (o.contents.map Prod.fst ++ ks).Nodup →
    o.tableSize = 8 * 2 ^ (o.n - 5) → ks ≠ [] → ∃ o', run hc nul o (ks.map fun k => .set k v) = some (o', ks.map fun _ => 0) ∧
      o'.n = o.n + ks.length ∧ o'.hsize = 8 * 2 ^ (o.n + ks.length - 5)
  | [], _, _, _, _, _, _, h => absurd rfl h
  | k :: ks, o, h, hall, hks, hnd, ht, _ => by
    have hn : k ∉ o.contents.map Prod.fst := by
      intro hk
      exact (List.nodup_append.mp hnd).2.2 k hk k (by simp) rfl
    obtain ⟨o1, e, h1, h2, h3, h4, h5⟩ := colliding_step (nul := nul) h hall (hks k (by simp)) hn v
    have hsz : o1.hsize = 8 * 2 ^ (o.n + 1 - 5) := by
      rw [h5, ht]
      by_cases h4 : 4 < o.n
      · rw [if_pos h4, show o.n + 1 - 5 = (o.n - 5) + 1 by omega, Nat.pow_succ]; omega
      · rw [if_neg h4, show o.n - 5 = 0 by omega, show o.n + 1 - 5 = 0 by omega]
    have hstep : step hc nul o (.set k v) = some (o1, 0) := by rw [step, e]; rfl
    by_cases hks' : ks = []
    · subst hks'
      exact ⟨o1, by simp [run, hstep], h2, hsz⟩
    · have hpos : o1.hsize ≠ 0 := by
        rw [hsz]; have := Nat.two_pow_pos (o.n + 1 - 5); omega
      obtain ⟨o2, e2, g1, g2⟩ := colliding (nul := nul) (v := v) ks o1 h1 h3 (fun k hk => hks k (by simp [hk]))
        (by rw [h4]; simpa using hnd) (by rw [Obj.tableSize, if_neg hpos, hsz, h2]) hks'
      refine ⟨o2, ?_, by rw [g1, h2, List.length_cons]; omega, by rw [g2, h2, List.length_cons, show o.n + 1 + ks.length = o.n + (ks.length + 1) by omega]⟩
      rw [List.map_cons, run, hstep]
      simp [e2]

/-- Each key beyond the fifth with the same hash code doubles the table, whatever its size. -/
theorem table_doubles {hc : Bytes → Nat} {nul v : β} {c : Nat} {ks : List Bytes} (hne : ks ≠ []) (hnd : ks.Nodup)
    (hks : ∀ k ∈ ks, hc k = c) :
    ∃ o, run hc nul (Obj.new nul) (ks.map fun k => .set k v) = some (o, ks.map fun _ => 0) ∧ o.n = ks.length ∧
      o.hsize = 8 * 2 ^ (ks.length - 5) := by
  obtain ⟨o, e, h1, h2⟩ := colliding (nul := nul) (v := v) ks (Obj.new nul) (new_rel hc nul).inv
    (fun j hj => absurd hj (Nat.not_lt_zero _)) hks (by simpa [Obj.new, Obj.contents] using hnd) rfl hne
  exact ⟨o, e, by simpa [Obj.new] using h1, by simpa [Obj.new] using h2⟩

theorem many_keys (n : Nat) : ∃ (ks : List Bytes) (c : Nat), ks.length = n ∧ ks.Nodup ∧ ∀ k ∈ ks, hashcode k = c := by
  obtain ⟨c, hc⟩ := Finite.exists_infinite_fiber (fun s : Bytes => (⟨hashcode s, hashcode_lt s⟩ : Fin (2 ^ 32)))
  have hs : (((fun s : Bytes => (⟨hashcode s, hashcode_lt s⟩ : Fin (2 ^ 32))) ⁻¹' {c}) : Set Bytes).Infinite := Set.infinite_coe_iff.mp hc
  obtain ⟨t, h1, h2⟩ := hs.exists_subset_card_eq n
  refine ⟨t.toList, c.val, by simp [h2], t.nodup_toList, ?_⟩
  intro k hk
  have := h1 (Finset.mem_coe.mpr (Finset.mem_toList.mp hk))
  exact congrArg Fin.val this

/-- There are objects of any number of keys whose table is exponential in that number. -/
theorem table_exponential (n : Nat) (nul : β) : ∃ ks : List Bytes, ks.length = n + 1 ∧
    ∃ o x, run hashcode nul (Obj.new nul) (ks.map fun k => .set k nul) = some (o, x) ∧ o.contents.length = n + 1 ∧
      o.hsize = 8 * 2 ^ (n - 4) := by
  obtain ⟨ks, c, h1, h2, h3⟩ := many_keys (n + 1)
  have hne : ks ≠ [] := by rintro rfl; simp at h1
  obtain ⟨o, e, g1, g2⟩ := table_doubles (nul := nul) (v := nul) hne h2 h3
  refine ⟨ks, h1, o, _, e, ?_, by rw [g2, h1]; congr 2⟩
  have hr := refines hashcode nul (ks.map fun k => .set k nul)
  have hspec : ∀ (ks : List Bytes) (s : Spec β), (s.items.map Prod.fst ++ ks).Nodup →
      ∃ s' x, s.run nul (ks.map fun k => .set k nul) = some (s', x) ∧ s'.items.length = s.items.length + ks.length := by
    intro ks
    induction ks with
    | nil => intro s _; exact ⟨s, [], rfl, rfl⟩
    | cons k ks ih =>
      intro s hn
      have hk : k ∉ s.items.map Prod.fst := fun hk => (List.nodup_append.mp hn).2.2 k hk k (by simp) rfl
      obtain ⟨s', x, e, hl⟩ := ih ⟨true, s.items ++ [(k, nul)]⟩ (by simpa using hn)
      refine ⟨s', 0 :: x, ?_, by rw [hl]; simp; omega⟩
      simp only [List.map_cons, Spec.run, Spec.step, put, if_neg hk, Option.bind_some, e, Option.map_some]
  obtain ⟨s', x, e', hl⟩ := hspec ks ⟨false, []⟩ (by simpa using h2)
  rw [e, e'] at hr
  simp only [Option.map_some, Option.some.injEq, Prod.mk.injEq] at hr
  rw [hr.1, hl, h1]
  simp

/-! ### Holes -/

/-- The place of an erased item is not used again: setting and erasing a key over and over, which leaves the object empty, takes a
new item each time. -/
theorem places_never_reused (hc : Bytes → Nat) (nul v : β) (k : Bytes) : ∀ m, ∃ o x,
    run hc nul (Obj.new nul) (List.flatten (List.replicate m [Op.set k v, Op.erase k])) = some (o, x) ∧ o.contents = [] ∧ o.n = m ∧ m ≤ o.cap := by
  have key : ∀ m (o : Obj β), Inv hc o → o.contents = [] → ∃ o' x,
      run hc nul o (List.flatten (List.replicate m [Op.set k v, Op.erase k])) = some (o', x) ∧ Inv hc o' ∧ o'.contents = [] ∧ o'.n = o.n + m := by
    intro m
    induction m with
    | zero => intro o h hc; exact ⟨o, [], rfl, h, hc, rfl⟩
    | succ m ih =>
      intro o h hce
      obtain ⟨o1, p, e1, h1, h2, h3, h4, _, _, hh⟩ := findInsert_spec h k nul
      obtain ⟨s1, s2⟩ := h1.setVal h3 v
      obtain ⟨o2, h5, h6, _, h8, h9⟩ := erase_spec s1 h2 k
      rcases hh with ⟨hl, _⟩ | ⟨hl, g2, g3, g4, _⟩
      · have := mem_keys.mpr hl
        rw [hce] at this; simp at this
      · have hc2 : o2.contents = [] := by
          rw [h8, s2, g3, hce, h4]; simp
        obtain ⟨o3, x, e3, i1, i2, i3⟩ := ih o2 h5 hc2
        refine ⟨o3, 0 :: (if k ∈ (Obj.contents { o1 with val := Function.update o1.val p v }).map Prod.fst then 1 else 0) :: x,
          ?_, i1, i2, ?_⟩
        · rw [List.replicate_succ, List.flatten_cons, List.cons_append, run]
          have : step hc nul o (.set k v) = some ({ o1 with val := Function.update o1.val p v }, 0) := by
            rw [step, Obj.set, e1]; rfl
          rw [this, List.cons_append, List.nil_append]
          simp only [Option.bind_some, run, step, h9, e3, Option.map_some]
        · rw [i3, h6]
          show o1.n + m = _
          rw [g2]; omega
  intro m
  obtain ⟨o, x, e, h1, h2, h3⟩ := key m (Obj.new nul) (new_rel hc nul).inv rfl
  have hn : o.n = m := by rw [h3]; simp [Obj.new]
  exact ⟨o, x, e, h2, hn, hn ▸ h1.cap⟩

/-- Erasing from an object into which nothing was ever put is undefined: it reads the empty table. -/
theorem erase_unused (hc : Bytes → Nat) (nul : β) (k : Bytes) (l : List (Op β)) :
    run hc nul (Obj.new nul) (.erase k :: l) = none := by
  simp [run, step, Obj.erase, Obj.walk, Obj.read, Obj.new]

/-! ### Examples -/

/-- A hash function with few values. -/
def small (k : Bytes) : Nat := k.length * 5

/-- Values, order and returned numbers after settings, erasures and insertions, with holes and a rehashing. -/
example : (run small 0 (Obj.new 0) [.set [1] 10, .set [2] 20, .insert [1] 11, .set [3] 30, .erase [2], .insert [2] 21, .set [1] 12,
      .getInsert [4], .set [5] 50, .set [6] 60, .set [7, 7] 70, .erase [9], .set [8] 80]).map
      (fun x => (x.1.contents, x.2, x.1.n, x.1.hsize)) =
    some ([([1], 12), ([3], 30), ([2], 21), ([4], 0), ([5], 50), ([6], 60), ([7, 7], 70), ([8], 80)],
      [0, 0, 0, 0, 1, 1, 0, 0, 0, 0, 0, 0, 0], 9, 32) := by decide +kernel

/-- The hypothesis of `looked_up`, `one_per_key`, `erased_while_listing` and `merged`. -/
example : ∃ o x, run small 0 (Obj.new 0) [.set [1] 10, .set [2] 20, .erase [1], .set [3] 30] = some (o, x) ∧
    listing o (o.n + 1) (o.fix (o.n + 1) 0) = [1, 2] :=
  ⟨_, _, rfl, by decide +kernel⟩

/-- `looked_up` after a rehashing. -/
example : ((run small 0 (Obj.new 0) [.set [1] 1, .set [2] 2, .set [3] 3, .set [4] 4, .set [5] 5, .set [6] 6, .erase [3]]).map
    fun x => [[1], [3], [6], [7]].map (x.1.get small)) = some [some (some 1), some none, some (some 6), some none] := by decide +kernel

/-- Sixteen keys of 32 letters with one hash code. -/
def letters (s : List Nat) : Bytes := s.map fun n => UInt8.ofNat (n + 97)

def blocks : List (Bytes × Bytes) :=
  [(letters [13, 16, 18, 1, 5, 22, 11, 15], letters [21, 24, 13, 2, 25, 0, 12, 21]),
   (letters [21, 6, 16, 7, 7, 17, 20, 11], letters [5, 7, 16, 18, 23, 19, 20, 14]),
   (letters [17, 11, 21, 9, 15, 22, 2, 4], letters [25, 11, 19, 14, 5, 2, 2, 0]),
   (letters [16, 24, 6, 6, 0, 11, 23, 25], letters [16, 24, 6, 2, 0, 7, 23, 21])]

def combine : List (Bytes × Bytes) → List Bytes
  | [] => [[]]
  | (a, b) :: l => (combine l).map (a ++ ·) ++ (combine l).map (b ++ ·)

theorem sixteen : (combine blocks).length = 16 ∧ (combine blocks).Nodup ∧ ∀ k ∈ combine blocks, hashcode k = hashcode (letters [
    13, 16, 18, 1, 5, 22, 11, 15, 21, 6, 16, 7, 7, 17, 20, 11, 17, 11, 21, 9, 15, 22, 2, 4, 16, 24, 6, 6, 0, 11, 23, 25]) := by
  decide +kernel

/-- With them, half a kilobyte of keys, the table has 16384 places. -/
example : ∃ o, run hashcode 0 (Obj.new 0) ((combine blocks).map fun k => .set k 1) = some (o, (combine blocks).map fun _ => 0) ∧
    o.n = 16 ∧ o.hsize = 16384 := by
  obtain ⟨h1, h2, h3⟩ := sixteen
  obtain ⟨o, e, g1, g2⟩ := table_doubles (nul := 0) (v := 1) (fun hh => by rw [hh] at h1; simp at h1) h2 h3
  exact ⟨o, e, by rw [g1, h1], by rw [g2, h1]; decide⟩

end Verif.Props.C59
