import Verif.Json.Table
import Mathlib.Data.List.Nodup
import Mathlib.Data.List.Range
import Mathlib.Data.List.Perm.Subperm

/-!
# The hash table of a `Json` object is sound

The invariant of `Verif/Json/Table.lean`: each chain goes through exactly the items of its bucket.
-/
namespace Verif.Json.Table
open Verif.Key (Bytes)

variable {β : Type}

/-- Starting with `p`, the links go through `l` and end. -/
def Chain (next : Nat → Int) (n : Nat) : Int → List Nat → Prop
  | p, [] => p = -1
  | p, j :: l => p = j ∧ j < n ∧ Chain next n (next j) l

theorem Chain.congr {next next' : Nat → Int} {n n' : Nat} (hn : n ≤ n') :
    ∀ {l : List Nat} {p : Int}, (∀ j ∈ l, next' j = next j) → Chain next n p l → Chain next' n' p l
  | [], _, _, h => h
  | j :: l, _, hj, ⟨h1, h2, h3⟩ => by
    refine ⟨h1, by omega, ?_⟩
    rw [hj j (by simp)]
    exact Chain.congr hn (fun i hi => hj i (by simp [hi])) h3

theorem Chain.lt {next : Nat → Int} {n : Nat} : ∀ {l : List Nat} {p : Int}, Chain next n p l → ∀ j ∈ l, j < n
  | [], _, _, j, hj => by simp at hj
  | i :: l, _, ⟨_, h2, h3⟩, j, hj => by
    rcases List.mem_cons.mp hj with rfl | hj
    · exact h2
    · exact Chain.lt h3 j hj

theorem Chain.ge {next : Nat → Int} {n : Nat} : ∀ {l : List Nat} {p : Int}, Chain next n p l → -1 ≤ p
  | [], _, h => by simp only [Chain] at h; omega
  | i :: l, _, ⟨h1, _, _⟩ => by omega

theorem Chain.live {next : Nat → Int} {n : Nat} : ∀ {l : List Nat} {p : Int}, Chain next n p l → ∀ j ∈ l, -1 ≤ next j
  | [], _, _, j, hj => by simp at hj
  | i :: l, _, ⟨_, _, h3⟩, j, hj => by
    rcases List.mem_cons.mp hj with rfl | hj
    · exact h3.ge
    · exact Chain.live h3 j hj

/-- The value at a location. -/
def Obj.get' (o : Obj β) : Loc → Int
  | .head b => o.hash b
  | .next j => o.next j

/-- The location after following the links through a list. -/
def endLoc : Loc → List Nat → Loc
  | L, [] => L
  | _, j :: l => endLoc (.next j) l

theorem endLoc_next : ∀ (l : List Nat) (j : Nat), ∃ y ∈ j :: l, endLoc (.next j) l = .next y
  | [], j => ⟨j, by simp, rfl⟩
  | i :: l, j => by
    obtain ⟨y, hy, e⟩ := endLoc_next l i
    exact ⟨y, by simp only [List.mem_cons] at hy ⊢; tauto, e⟩

/-- The location is in the arrays. -/
def Obj.ok (o : Obj β) : Loc → Prop
  | .head b => b < o.hsize
  | .next j => j < o.n

theorem Obj.read_eq {o : Obj β} {L : Loc} (h : o.ok L) : o.read L = some (o.get' L) := by
  cases L <;> simp only [Obj.ok] at h <;> simp [Obj.read, Obj.get', h]

theorem endLoc_ok {o : Obj β} : ∀ {l c : List Nat} {L : Loc}, o.ok L → Chain o.next o.n (o.get' L) (l ++ c) →
    o.ok (endLoc L l) ∧ Chain o.next o.n (o.get' (endLoc L l)) c
  | [], _, _, h, hc => ⟨h, hc⟩
  | j :: l, c, _, _, ⟨_, h2, h3⟩ => endLoc_ok (L := .next j) (l := l) h2 h3

theorem walk_spec {o : Obj β} {stop : Nat → Bool} : ∀ {l : List Nat} {L : Loc} {f c : Nat}, o.ok L →
    Chain o.next o.n (o.get' L) l → l.length < f →
    (∃ a j r, l = a ++ j :: r ∧ stop j = true ∧ (∀ x ∈ a, stop x = false) ∧
      o.walk stop f L c = some (endLoc L a, c + a.length)) ∨
    ((∀ x ∈ l, stop x = false) ∧ o.walk stop f L c = some (endLoc L l, c + l.length))
  | [], L, f + 1, c, hL, h, _ => by
    right
    refine ⟨by simp, ?_⟩
    simp only [Chain] at h
    simp [Obj.walk, Obj.read_eq hL, h, endLoc]
  | j :: l, L, f + 1, c, hL, ⟨h1, h2, h3⟩, hf => by
    have hw : o.walk stop (f + 1) L c = if stop j then some (L, c) else o.walk stop f (.next j) (c + 1) := by
      simp [Obj.walk, Obj.read_eq hL, h1, h2]
    rcases hs : stop j with _ | _
    · rcases walk_spec (stop := stop) (l := l) (L := .next j) (f := f) (c := c + 1) h2 h3 (by simpa using hf) with
        ⟨a, i, r, e1, e2, e3, e4⟩ | ⟨e3, e4⟩
      · refine .inl ⟨j :: a, i, r, by simp [e1], e2, ?_, ?_⟩
        · intro x hx
          rcases List.mem_cons.mp hx with rfl | hx
          · exact hs
          · exact e3 x hx
        · rw [hw, hs]
          simp [e4, endLoc]; omega
      · refine .inr ⟨?_, ?_⟩
        · intro x hx
          rcases List.mem_cons.mp hx with rfl | hx
          · exact hs
          · exact e3 x hx
        · rw [hw, hs]
          simp [e4, endLoc]; omega
    · refine .inl ⟨[], j, l, rfl, hs, by simp, ?_⟩
      rw [hw, hs]
      simp [endLoc]
  | _, _, 0, _, _, _, hf => by omega

/-- Writing at the end of a part of a chain replaces the rest. -/
theorem write_chain {o : Obj β} {x : Int} {N : Nat} : ∀ {a r c : List Nat} {L : Loc}, (∀ j, L = .next j → j ∉ a) → a.Nodup →
    Chain o.next N (o.get' L) (a ++ r) → Chain (o.write x (endLoc L a)).next N x c →
    Chain (o.write x (endLoc L a)).next N ((o.write x (endLoc L a)).get' L) (a ++ c)
  | [], r, c, L, _, _, _, h => by
    cases L <;> simpa [endLoc, Obj.write, Obj.get'] using h
  | j :: a, r, c, L, hL, hn, ⟨h1, h2, h3⟩, h => by
    obtain ⟨y, hy, e⟩ := endLoc_next a j
    have hn' := List.nodup_cons.mp hn
    have ih := write_chain (o := o) (x := x) (a := a) (r := r) (c := c) (L := .next j)
      (fun i hi => by cases hi; exact hn'.1) hn'.2 h3 h
    have hg : (o.write x (endLoc L (j :: a))).get' L = j := by
      simp only [endLoc, e, Obj.write]
      cases L with
      | head b => simpa [Obj.get'] using h1
      | next i =>
        have : i ≠ y := fun hh => hL i rfl (hh ▸ hy)
        simpa [Obj.get', Function.update_of_ne this] using h1
    exact ⟨hg, h2, ih⟩

/-! ### The invariant -/

/-- The item is not a hole. -/
def Obj.Live (o : Obj β) (j : Nat) : Prop := j < o.n ∧ o.next j ≠ -2

structure Inv (hc : Bytes → Nat) (o : Obj β) : Prop where
  pow : (o.hsize = 0 ∧ o.n = 0) ∨ ∃ e, o.hsize = 2 ^ e
  low : ∀ j < o.n, -2 ≤ o.next j
  chains : ∀ b < o.hsize, ∃ l, Chain o.next o.n (o.hash b) l ∧ l.Nodup ∧ ∀ j, j ∈ l ↔ o.Live j ∧ o.bucket hc (o.key j) = b
  keys : ∀ i j, o.Live i → o.Live j → o.key i = o.key j → i = j
  size : o.size = o.contents.length
  cap : o.n ≤ o.cap

theorem Obj.bucket_lt {hc : Bytes → Nat} {o : Obj β} {e : Nat} (h : o.hsize = 2 ^ e) (k : Bytes) : o.bucket hc k < o.hsize := by
  unfold Obj.bucket
  rw [h, Nat.and_two_pow_sub_one_eq_mod]
  exact Nat.mod_lt _ (Nat.two_pow_pos e)

theorem Inv.bucket_lt {hc : Bytes → Nat} {o : Obj β} (h : Inv hc o) (h0 : o.hsize ≠ 0) (k : Bytes) : o.bucket hc k < o.hsize := by
  rcases h.pow with ⟨h1, _⟩ | ⟨e, he⟩
  · exact absurd h1 h0
  · exact Obj.bucket_lt he k

theorem nodup_length {l : List Nat} {n : Nat} (hn : l.Nodup) (hl : ∀ j ∈ l, j < n) : l.length ≤ n := by
  have := (List.subperm_of_subset (l₂ := List.range n) hn (fun j hj => List.mem_range.mpr (hl j hj))).length_le
  simpa using this

/-- Where the walk for a key ends. -/
theorem Inv.walk {hc : Bytes → Nat} {o : Obj β} (h : Inv hc o) (h0 : o.hsize ≠ 0) (k : Bytes) :
    ∃ l, Chain o.next o.n (o.hash (o.bucket hc k)) l ∧ l.Nodup ∧ (∀ j, j ∈ l ↔ o.Live j ∧ o.bucket hc (o.key j) = o.bucket hc k) ∧
    ((∃ a j r, l = a ++ j :: r ∧ o.Live j ∧ o.key j = k ∧
        o.walk (fun j => o.key j == k) (o.n + 1) (.head (o.bucket hc k)) 0 = some (endLoc (.head (o.bucket hc k)) a, a.length) ∧
        o.read (endLoc (.head (o.bucket hc k)) a) = some (j : Int)) ∨
      ((∀ j, o.Live j → o.key j ≠ k) ∧
        o.walk (fun j => o.key j == k) (o.n + 1) (.head (o.bucket hc k)) 0 = some (endLoc (.head (o.bucket hc k)) l, l.length) ∧
        o.read (endLoc (.head (o.bucket hc k)) l) = some (-1))) := by
  have hb := h.bucket_lt h0 k
  obtain ⟨l, c1, c2, c3⟩ := h.chains _ hb
  refine ⟨l, c1, c2, c3, ?_⟩
  have hL : o.ok (.head (o.bucket hc k)) := hb
  rcases walk_spec (stop := fun j => o.key j == k) (L := .head (o.bucket hc k)) (f := o.n + 1) (c := 0) hL c1
    (Nat.lt_succ_of_le (nodup_length c2 c1.lt)) with ⟨a, j, r, e1, e2, e3, e4⟩ | ⟨e3, e4⟩
  · left
    refine ⟨a, j, r, e1, ((c3 j).mp (by simp [e1])).1, by simpa using e2, by simpa using e4, ?_⟩
    subst e1
    obtain ⟨g1, g2, _⟩ := endLoc_ok (l := a) (c := j :: r) hL c1
    rw [Obj.read_eq g1, g2]
  · right
    refine ⟨?_, by simpa using e4, ?_⟩
    · intro j hj hk
      have := e3 j ((c3 j).mpr ⟨hj, by rw [hk]⟩)
      simp [hk] at this
    · obtain ⟨g1, g2⟩ := endLoc_ok (l := l) (c := []) hL (by rw [List.append_nil]; exact c1)
      rw [Obj.read_eq g1]
      exact congrArg some g2

/-! ### What an object holds -/

theorem mem_contents {o : Obj β} {k : Bytes} {v : β} : (k, v) ∈ o.contents ↔ ∃ j, o.Live j ∧ o.key j = k ∧ o.val j = v := by
  simp only [Obj.contents, List.mem_filterMap, List.mem_range, Obj.Live]
  constructor
  · rintro ⟨j, h1, h2⟩
    split at h2
    · simp at h2
    · simp only [Option.some.injEq, Prod.mk.injEq] at h2
      exact ⟨j, ⟨h1, by assumption⟩, h2.1, h2.2⟩
  · rintro ⟨j, ⟨h1, h2⟩, rfl, rfl⟩
    exact ⟨j, h1, by simp [h2]⟩

theorem mem_keys {o : Obj β} {k : Bytes} : k ∈ o.contents.map Prod.fst ↔ ∃ j, o.Live j ∧ o.key j = k := by
  simp only [List.mem_map, Prod.exists, exists_and_right, exists_eq_right, mem_contents]
  constructor
  · rintro ⟨v, j, h1, h2, _⟩; exact ⟨j, h1, h2⟩
  · rintro ⟨j, h1, h2⟩; exact ⟨_, j, h1, h2, rfl⟩

theorem filterMap_nodup {α γ : Type} {f : α → Option γ} : ∀ {l : List α}, l.Nodup →
    (∀ a ∈ l, ∀ b ∈ l, ∀ x, f a = some x → f b = some x → a = b) → (l.filterMap f).Nodup
  | [], _, _ => by simp
  | a :: l, hn, hi => by
    have hn' := List.nodup_cons.mp hn
    have ih := filterMap_nodup hn'.2 (fun x hx y hy z h1 h2 => hi x (by simp [hx]) y (by simp [hy]) z h1 h2)
    rw [List.filterMap_cons]
    rcases hf : f a with _ | x
    · exact ih
    · refine List.nodup_cons.mpr ⟨?_, ih⟩
      intro hx
      obtain ⟨b, hb, e⟩ := List.mem_filterMap.mp hx
      have := hi a (by simp) b (by simp [hb]) x hf e
      exact hn'.1 (this ▸ hb)

theorem Inv.nodup {hc : Bytes → Nat} {o : Obj β} (h : Inv hc o) : (o.contents.map Prod.fst).Nodup := by
  unfold Obj.contents
  rw [List.map_filterMap]
  refine filterMap_nodup List.nodup_range ?_
  intro i hi j hj x h1 h2
  have hi' := List.mem_range.mp hi
  have hj' := List.mem_range.mp hj
  split at h1
  · simp at h1
  · split at h2
    · simp at h2
    · simp only [Option.map_some, Option.some.injEq] at h1 h2
      exact h.keys i j ⟨hi', by assumption⟩ ⟨hj', by assumption⟩ (h1.trans h2.symm)

end Verif.Json.Table
