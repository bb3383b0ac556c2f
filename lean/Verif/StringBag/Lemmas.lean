import Verif.StringBag.Model

/-!
# The invariant of a suffix bag
-/
namespace Verif.StringBag
open Verif.Key (Bytes)

variable {w : Nat}

/-- Position of string `p`. -/
abbrev Bag.pos (b : Bag w) (p : Nat) : Nat := (b.info.getD p (0, 0)).1
/-- Length of string `p`. -/
abbrev Bag.len (b : Bag w) (p : Nat) : Nat := (b.info.getD p (0, 0)).2

structure Bag.Ok (b : Bag w) : Prop where
  cap : b.mem.length = b.cap1 + 1
  small : b.mem.length < 2 ^ w
  lo : overhead w ≤ b.size
  hi : b.size ≤ b.mem.length
  wid : b.info.length = width
  reg : ∀ p, 0 < b.len p → overhead w ≤ b.pos p ∧ b.pos p + b.len p ≤ b.size ∧ b.pos p + 8 ≤ b.mem.length
  dis : ∀ p q, p ≠ q → 0 < b.len p → 0 < b.len q → b.pos p + b.len p ≤ b.pos q ∨ b.pos q + b.len q ≤ b.pos p

theorem make_ok {mem : Bytes} (h1 : overhead w ≤ mem.length) (h2 : mem.length < 2 ^ w) (h0 : 0 < mem.length) :
    (make w mem).Ok := by
  have hs : (make w mem).size = overhead w := Nat.mod_eq_of_lt (by omega)
  have hl : ∀ p, (make w mem).len p = 0 := by
    intro p
    show ((List.replicate width (0, 0)).getD p (0, 0)).2 = 0
    rw [List.getD_eq_getElem?_getD, List.getElem?_replicate]
    split <;> rfl
  refine ⟨?_, h2, by omega, by rw [hs]; exact h1, by simp [make], ?_, ?_⟩
  · show mem.length = (mem.length - 1) % 2 ^ w + 1
    rw [Nat.mod_eq_of_lt (by omega)]; omega
  · intro p h; have := hl p; omega
  · intro p q _ h; have := hl p; omega

theorem make_get (mem : Bytes) (p : Nat) : (make w mem).get p = [] := by
  have : ((List.replicate width (0, 0)).getD p (0, 0)) = ((0, 0) : Nat × Nat) := by
    rw [List.getD_eq_getElem?_getD, List.getElem?_replicate]
    split <;> rfl
  simp only [Bag.get, make]
  rw [this]; simp

theorem Bag.Ok.get_length {b : Bag w} (h : b.Ok) (p : Nat) : (b.get p).length = b.len p := by
  show ((b.mem.drop (b.pos p)).take (b.len p)).length = b.len p
  rw [List.length_take, List.length_drop]
  rcases Nat.eq_zero_or_pos (b.len p) with h0 | h0
  · omega
  · have := h.reg p h0; have := h.hi; omega

/-! ### Memory lemmas -/

theorem write_ne {b : Bag w} {pos : Nat} {s : Bytes} (hs : s ≠ []) (h : overhead w ≤ pos ∧ pos + s.length ≤ b.mem.length) :
    b.write pos s = some (b.mem.take pos ++ s ++ b.mem.drop (pos + s.length)) := by
  unfold Bag.write
  rw [if_neg hs, if_pos h]

theorem splice_length {m s : Bytes} {pos : Nat} (h : pos + s.length ≤ m.length) :
    (m.take pos ++ s ++ m.drop (pos + s.length)).length = m.length := by
  simp only [List.length_append, List.length_take, List.length_drop]; omega

theorem splice_read {m s : Bytes} {pos : Nat} (h : pos + s.length ≤ m.length) :
    ((m.take pos ++ s ++ m.drop (pos + s.length)).drop pos).take s.length = s := by
  have : (m.take pos).length = pos := by rw [List.length_take]; omega
  rw [List.append_assoc, List.drop_append_of_le_length (by omega),
    List.drop_eq_nil_of_le (by omega), List.nil_append, List.take_append_of_le_length (by omega),
    List.take_of_length_le (by omega)]

theorem splice_other {m s : Bytes} {pos p n : Nat} (h : pos + s.length ≤ m.length)
    (hd : p + n ≤ pos ∨ pos + s.length ≤ p) :
    ((m.take pos ++ s ++ m.drop (pos + s.length)).drop p).take n = (m.drop p).take n := by
  apply List.ext_getElem?
  intro i
  simp only [List.getElem?_take, List.getElem?_drop]
  by_cases hi : i < n
  · rw [if_pos hi, if_pos hi]
    have hl : (m.take pos).length = pos := by rw [List.length_take]; omega
    rcases hd with hd | hd
    · rw [List.append_assoc, List.getElem?_append_left (by omega), List.getElem?_take, if_pos (by omega)]
    · rw [List.getElem?_append_right (by rw [List.length_append]; omega), List.length_append, hl,
        List.getElem?_drop]
      congr 1; omega
  · rw [if_neg hi, if_neg hi]

theorem getD_set_eq {l : List (Nat × Nat)} {p : Nat} {x : Nat × Nat} (h : p < l.length) :
    (l.set p x).getD p (0, 0) = x := by
  rw [List.getD_eq_getElem?_getD, List.getElem?_set_self h]; rfl

theorem getD_set_ne {l : List (Nat × Nat)} {p q : Nat} {x : Nat × Nat} (h : q ≠ p) :
    (l.set p x).getD q (0, 0) = l.getD q (0, 0) := by
  rw [List.getD_eq_getElem?_getD, List.getElem?_set_ne (Ne.symm h), List.getD_eq_getElem?_getD]

/-- What a successful store at `pos` does. -/
theorem stored {b : Bag w} (hb : b.Ok) {p : Nat} (hp : p < width) {s : Bytes} (hs : s ≠ []) {pos size' : Nat}
    (h1 : overhead w ≤ pos) (h2 : pos + s.length ≤ size') (h3 : b.size ≤ size') (h4 : size' ≤ b.mem.length)
    (h5 : pos + 8 ≤ b.mem.length)
    (hd : ∀ q, q ≠ p → 0 < b.len q → b.pos q + b.len q ≤ pos ∨ pos + s.length ≤ b.pos q) :
    let b' : Bag w :=
      { b with
        mem := b.mem.take pos ++ s ++ b.mem.drop (pos + s.length)
        size := size'
        info := b.info.set p (pos, s.length) }
    b'.Ok ∧ b'.get p = s ∧ ∀ q, q ≠ p → b'.get q = b.get q := by
  intro b'
  have hsl : 0 < s.length := List.length_pos_iff.2 hs
  have hml : b'.mem.length = b.mem.length := splice_length (by omega)
  have hip : b'.info.getD p (0, 0) = (pos, s.length) := getD_set_eq (by rw [hb.wid]; exact hp)
  have hiq : ∀ q, q ≠ p → b'.info.getD q (0, 0) = b.info.getD q (0, 0) := fun q h => getD_set_ne h
  have hpos : ∀ q, q ≠ p → b'.pos q = b.pos q := fun q h => by show (b'.info.getD q (0, 0)).1 = _; rw [hiq q h]
  have hlen : ∀ q, q ≠ p → b'.len q = b.len q := fun q h => by show (b'.info.getD q (0, 0)).2 = _; rw [hiq q h]
  have hpp : b'.pos p = pos := by show (b'.info.getD p (0, 0)).1 = _; rw [hip]
  have hlp : b'.len p = s.length := by show (b'.info.getD p (0, 0)).2 = _; rw [hip]
  refine ⟨⟨by rw [hml]; exact hb.cap, by rw [hml]; exact hb.small, Nat.le_trans hb.lo h3, by rw [hml]; exact h4,
    by show (b.info.set p _).length = _; rw [List.length_set]; exact hb.wid, ?_, ?_⟩, ?_, ?_⟩
  · intro q h0
    rw [hml]
    by_cases hq : q = p
    · subst hq
      rw [hpp, hlp]
      exact ⟨h1, h2, h5⟩
    · rw [hpos q hq, hlen q hq]
      rw [hlen q hq] at h0
      obtain ⟨a, c, d⟩ := hb.reg q h0
      exact ⟨a, Nat.le_trans c h3, d⟩
  · intro q r hqr hq0 hr0
    by_cases hq : q = p
    · subst hq
      have hr : r ≠ q := fun e => hqr e.symm
      rw [hlen r hr] at hr0
      rw [hpp, hlp, hpos r hr, hlen r hr]
      exact (hd r hr hr0).symm
    · rw [hlen q hq] at hq0
      by_cases hr : r = p
      · subst hr
        rw [hpp, hlp, hpos q hq, hlen q hq]
        exact hd q hq hq0
      · rw [hlen r hr] at hr0
        rw [hpos r hr, hlen r hr, hpos q hq, hlen q hq]
        exact hb.dis q r hqr hq0 hr0
  · show (b'.mem.drop (b'.pos p)).take (b'.len p) = s
    rw [hpp, hlp]
    exact splice_read (by omega)
  · intro q hq
    show (b'.mem.drop (b'.pos q)).take (b'.len q) = (b.mem.drop (b.pos q)).take (b.len q)
    rw [hpos q hq, hlen q hq]
    rcases Nat.eq_zero_or_pos (b.len q) with h0 | h0
    · rw [h0]; rfl
    · exact splice_other (by omega) (hd q hq h0)

theorem stored_nil {b : Bag w} (hb : b.Ok) {p : Nat} (hp : p < width) (pos : Nat) :
    let b' : Bag w := { b with info := b.info.set p (pos, 0) }
    b'.Ok ∧ b'.get p = [] ∧ ∀ q, q ≠ p → b'.get q = b.get q := by
  intro b'
  have hip : b'.info.getD p (0, 0) = (pos, 0) := getD_set_eq (by rw [hb.wid]; exact hp)
  have hiq : ∀ q, q ≠ p → b'.info.getD q (0, 0) = b.info.getD q (0, 0) := fun q h => getD_set_ne h
  have hpos : ∀ q, q ≠ p → b'.pos q = b.pos q := fun q h => by show (b'.info.getD q (0, 0)).1 = _; rw [hiq q h]
  have hlen : ∀ q, q ≠ p → b'.len q = b.len q := fun q h => by show (b'.info.getD q (0, 0)).2 = _; rw [hiq q h]
  have hlp : b'.len p = 0 := by show (b'.info.getD p (0, 0)).2 = _; rw [hip]
  refine ⟨⟨hb.cap, hb.small, hb.lo, hb.hi,
    by show (b.info.set p _).length = _; rw [List.length_set]; exact hb.wid, ?_, ?_⟩, ?_, ?_⟩
  · intro q h0
    by_cases hq : q = p
    · subst hq; omega
    · rw [hlen q hq] at h0; rw [hpos q hq, hlen q hq]; exact hb.reg q h0
  · intro q r hqr hq0 hr0
    by_cases hq : q = p
    · subst hq; omega
    · by_cases hr : r = p
      · subst hr; omega
      · rw [hlen r hr] at hr0
        rw [hlen q hq] at hq0
        rw [hpos r hr, hlen r hr, hpos q hq, hlen q hq]
        exact hb.dis q r hqr hq0 hr0
  · show (b'.mem.drop (b'.pos p)).take (b'.len p) = []
    rw [hlp]; rfl
  · intro q hq
    show (b'.mem.drop (b'.pos q)).take (b'.len q) = (b.mem.drop (b.pos q)).take (b.len q)
    rw [hpos q hq, hlen q hq]

/-- The outcome of an assignment. -/
theorem assign_spec {b : Bag w} (hb : b.Ok) {p : Nat} (hp : p < width) (s : Bytes) :
    (∃ b', b.assign p s = some (some b') ∧ b'.Ok ∧ b'.get p = s ∧ (∀ q, q ≠ p → b'.get q = b.get q) ∧
      b'.mem.length = b.mem.length ∧ b'.cap1 = b.cap1 ∧ b'.size ≤ b.size + s.length ∧
      (s.length ≤ (b.get p).length ∨ b.size + max s.length 8 ≤ b.mem.length)) ∨
    (b.assign p s = some none ∧ (b.get p).length < s.length ∧ b.mem.length < b.size + max s.length 8) := by
  have hgl := hb.get_length p
  have hc : b.capacity = b.mem.length := hb.cap.symm
  have hmod : ∀ n, n ≤ b.mem.length → n % 2 ^ w = n := fun n h => Nat.mod_eq_of_lt (by have := hb.small; omega)
  unfold Bag.assign
  dsimp only
  by_cases h1 : b.len p ≥ s.length
  · rw [if_pos h1]
    left
    by_cases hs : s = []
    · subst hs
      have hw : b.write (b.info.getD p (0, 0)).1 [] = some b.mem := by unfold Bag.write; rw [if_pos rfl]
      rw [hw]
      dsimp only
      obtain ⟨a1, a2, a3⟩ := stored_nil hb hp (b.pos p % 2 ^ w)
      have h0 : ([] : Bytes).length % 2 ^ w = 0 := Nat.zero_mod _
      rw [h0]
      exact ⟨_, rfl, a1, a2, a3, rfl, rfl, Nat.le_add_right _ _, .inl (by simp)⟩
    · have hsl : 0 < s.length := List.length_pos_iff.2 hs
      obtain ⟨r1, r2, r3⟩ := hb.reg p (by omega)
      have hhi := hb.hi
      rw [write_ne hs ⟨r1, by omega⟩]
      dsimp only
      rw [hmod (b.info.getD p (0, 0)).1 (by show b.pos p ≤ _; omega), hmod s.length (by omega)]
      obtain ⟨a1, a2, a3⟩ := stored hb hp hs (pos := b.pos p) (size' := b.size) r1 (by omega) (Nat.le_refl _) hhi r3
        (by
          intro q hq h0
          have := hb.dis q p hq h0 (by omega)
          omega)
      exact ⟨_, rfl, a1, a2, a3, splice_length (by omega), rfl, Nat.le_add_right _ _, .inl (by omega)⟩
  · rw [if_neg h1]
    have hs : s ≠ [] := by intro e; subst e; simp at h1
    have hsl : 0 < s.length := List.length_pos_iff.2 hs
    by_cases h2 : b.size + max s.length 8 ≤ b.capacity
    · rw [if_pos h2]
      left
      rw [hc] at h2
      rw [write_ne hs ⟨hb.lo, by omega⟩]
      dsimp only
      rw [hmod (b.size + s.length) (by omega), hmod b.size (by omega), hmod s.length (by omega)]
      obtain ⟨a1, a2, a3⟩ := stored hb hp hs (pos := b.size) (size' := b.size + s.length) hb.lo (Nat.le_refl _)
        (Nat.le_add_right _ _) (by omega) (by omega)
        (by intro q _ h0; have := hb.reg q h0; omega)
      exact ⟨_, rfl, a1, a2, a3, splice_length (by omega), rfl, Nat.le_refl _, .inr h2⟩
    · rw [if_neg h2]
      right
      rw [hc] at h2
      exact ⟨rfl, by omega, by omega⟩

/-! ### The suffixes of a leaf -/

structure Suffixes.Ok (l : Suffixes) : Prop where
  int : ∀ b, l.iksuf = some b → b.Ok
  ext : ∀ b, l.ksuf = some b → b.Ok
  one : l.ksuf = none ∨ l.iksuf = none
  /-- external bags are allocated in powers of two below the largest -/
  cap : ∀ b, l.ksuf = some b → b.mem.length ≤ 32768

theorem copyAll_spec (l : Suffixes) : ∀ (ps : List Nat) (b : Bag 16), b.Ok → ps.Nodup → (∀ q ∈ ps, q < width) →
    b.size + (ps.map fun q => (l.get q).length).sum + 7 ≤ b.mem.length →
    ∃ b', copyAll l ps b = some b' ∧ b'.Ok ∧ (∀ q ∈ ps, b'.get q = l.get q) ∧
      (∀ q, q ∉ ps → b'.get q = b.get q) ∧ b'.mem.length = b.mem.length ∧
      b'.size ≤ b.size + (ps.map fun q => (l.get q).length).sum
  | [], b, hb, _, _, _ => ⟨b, rfl, hb, by simp, fun _ _ => rfl, rfl, by simp⟩
  | p :: ps, b, hb, hnd, hlt, hsz => by
    rw [List.map_cons, List.sum_cons] at hsz ⊢
    rw [List.nodup_cons] at hnd
    rcases assign_spec hb (hlt p List.mem_cons_self) (l.get p) with
      ⟨b1, e, ok1, g1, g2, ml, _, sz, _⟩ | ⟨e, h1, h2⟩
    · obtain ⟨b2, e2, ok2, k1, k2, ml2, sz2⟩ := copyAll_spec l ps b1 ok1 hnd.2
        (fun q h => hlt q (List.mem_cons_of_mem _ h)) (by omega)
      refine ⟨b2, by unfold copyAll; rw [e]; exact e2, ok2, ?_, ?_, by omega, by omega⟩
      · intro q hq
        rcases List.mem_cons.1 hq with rfl | hq
        · rw [k2 q hnd.1, g1]
        · exact k1 q hq
      · intro q hq
        have h1 : q ≠ p := fun e => hq (e ▸ List.mem_cons_self)
        have h2 : q ∉ ps := fun e => hq (List.mem_cons_of_mem _ e)
        rw [k2 q h2, g2 q h1]
    · omega

end Verif.StringBag
