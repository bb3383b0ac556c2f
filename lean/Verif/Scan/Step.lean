import Verif.Scan.Model

/-!
Facts about single steps of a scan: the key buffer, runs, and what one slot does.
-/
namespace Verif.Scan
open Verif.Permuter (Word size)
open Verif.Key (Bytes slice cmp3)
open Verif.Tree
open Verif.Trie (T LV ikeyBytes ikeyBytes_length WF Deep SlotOk slotC contents)
variable {V : Type}

/-! ### The key buffer -/

theorem store_ok {buf : Bytes} {pos : Nat} {b : Bytes} (h : pos + b.length ≤ buf.length) :
    store buf pos b = some (buf.take pos ++ b ++ buf.drop (pos + b.length)) := by
  unfold store; rw [if_pos h]

theorem stored_length {buf : Bytes} {pos : Nat} {b : Bytes} (h : pos + b.length ≤ buf.length) :
    (buf.take pos ++ b ++ buf.drop (pos + b.length)).length = buf.length := by
  simp only [List.length_append, List.length_take, List.length_drop]; omega

theorem stored_take {buf : Bytes} {pos : Nat} {b : Bytes} (h : pos + b.length ≤ buf.length) {n : Nat}
    (hn : n ≤ pos) : (buf.take pos ++ b ++ buf.drop (pos + b.length)).take n = buf.take n := by
  rw [List.append_assoc, List.take_append_of_le_length (by simp; omega), List.take_take]
  congr 1; omega

theorem stored_upto {buf : Bytes} {pos : Nat} {b : Bytes} (h : pos + b.length ≤ buf.length) :
    (buf.take pos ++ b ++ buf.drop (pos + b.length)).take (pos + b.length) = buf.take pos ++ b := by
  rw [List.take_left']
  simp only [List.length_append, List.length_take]; omega

/-- Where a layer's keys are stored: the layer starts at `off` and its keys have at most `r`
bytes. -/
def Room (B off r : Nat) : Prop := B % 8 = 0 ∧ off % 8 = 0 ∧ off + r ≤ B ∧ off + 8 ≤ B

theorem Room.sub {B off r : Nat} (h : Room B off r) (hr : 8 < r) : Room B (off + 8) (r - 8) := by
  unfold Room at *; omega

/-! ### Runs -/

/-- From `c` the scan gets to `c'` and calls the visitor with `L` on the way. -/
inductive Runs (d : Dir) (eq : Bool) : Cfg V → List (Bytes × V) → Cfg V → Prop
  | refl (c) : Runs d eq c [] c
  | tau {c c1 c2 L} (h : step d eq c = .tau c1) (hr : Runs d eq c1 L c2) : Runs d eq c L c2
  | visit {c c1 c2 L k v} (h : step d eq c = .visit k v c1) (hr : Runs d eq c1 L c2) :
      Runs d eq c ((k, v) :: L) c2

theorem Runs.trans {d : Dir} {eq : Bool} {a b c : Cfg V} {L M : List (Bytes × V)} (h1 : Runs d eq a L b)
    (h2 : Runs d eq b M c) : Runs d eq a (L ++ M) c := by
  induction h1 with
  | refl => exact h2
  | tau h _ ih => exact .tau h (ih h2)
  | visit h _ ih => exact .visit h (ih h2)

theorem Runs.one {d : Dir} {eq : Bool} {a b : Cfg V} (h : step d eq a = .tau b) : Runs d eq a [] b :=
  .tau h (.refl _)

/-- What a visitor makes of a list of keys and values. -/
def feed {σ : Type} (vis : σ → Bytes → V → σ × Bool) : List (Bytes × V) → σ → Nat → Res σ
  | [], st, n => .fin st n
  | (k, v) :: L, st, n =>
    let r := vis st k v
    if r.2 then feed vis L r.1 (n + 1) else .fin r.1 (n + 1)

theorem exec_of_runs {σ : Type} {d : Dir} {eq : Bool} (vis : σ → Bytes → V → σ × Bool) {c c' : Cfg V}
    {L : List (Bytes × V)} (h : Runs d eq c L c') (hd : step d eq c' = .done) :
    ∃ N, ∀ n, N ≤ n → ∀ st cnt, exec d eq vis n c st cnt = feed vis L st cnt := by
  induction h with
  | refl c =>
    refine ⟨1, fun n hn st cnt => ?_⟩
    obtain ⟨m, rfl⟩ : ∃ m, n = m + 1 := ⟨n - 1, by omega⟩
    simp [exec, hd, feed]
  | tau h _ ih =>
    obtain ⟨N, hN⟩ := ih hd
    refine ⟨N + 1, fun n hn st cnt => ?_⟩
    obtain ⟨m, rfl⟩ : ∃ m, n = m + 1 := ⟨n - 1, by omega⟩
    rw [exec, h]
    exact hN m (by omega) st cnt
  | visit h _ ih =>
    obtain ⟨N, hN⟩ := ih hd
    refine ⟨N + 1, fun n hn st cnt => ?_⟩
    obtain ⟨m, rfl⟩ : ∃ m, n = m + 1 := ⟨n - 1, by omega⟩
    rw [exec, h, feed]
    dsimp only
    split
    · exact hN m (by omega) _ _
    · rfl

/-! ### What a scan preserves while it is in a layer -/

/-- The bytes before the layer. -/
def pre (c : Cfg V) : Bytes := c.key.buf.take c.key.off

/-- Prepend a prefix to all keys. -/
def under (p : Bytes) (L : List (Bytes × V)) : List (Bytes × V) := L.map fun e => (p ++ e.1, e.2)

theorem under_append (p : Bytes) (L M : List (Bytes × V)) : under p (L ++ M) = under p L ++ under p M := by
  simp [under]

theorem under_under (p q : Bytes) (L : List (Bytes × V)) : under p (under q L) = under (p ++ q) L := by
  simp [under, List.append_assoc]

/-- Same stack, same place in the key, same bytes before it. -/
structure Fr (c c' : Cfg V) : Prop where
  stack : c'.stack = c.stack
  off : c'.key.off = c.key.off
  len : c'.key.buf.length = c.key.buf.length
  pre : pre c' = pre c

theorem Fr.refl (c : Cfg V) : Fr c c := ⟨rfl, rfl, rfl, rfl⟩
theorem Fr.trans {a b c : Cfg V} (h : Fr a b) (h2 : Fr b c) : Fr a c :=
  ⟨h2.stack.trans h.stack, h2.off.trans h.off, h2.len.trans h.len, h2.pre.trans h.pre⟩

/-- The order in which the scan meets things. -/
def Dir.ord {β : Type} : Dir → List β → List β
  | .fwd, l => l
  | .rev, l => l.reverse

theorem ord_singleton {β : Type} (d : Dir) (x : β) : d.ord [x] = [x] := by cases d <;> rfl
theorem ord_map {β γ : Type} (d : Dir) (f : β → γ) (l : List β) : d.ord (l.map f) = (d.ord l).map f := by
  cases d
  · rfl
  · simp [Dir.ord]
theorem ord_under (d : Dir) (p : Bytes) (L : List (Bytes × V)) : d.ord (under p L) = under p (d.ord L) :=
  ord_map d _ L

/-- The scan has not passed this slot yet. -/
def Dir.wants (d : Dir) (ub : Bool) (x : LKey) (s : Slot (LV V)) : Prop :=
  match d with
  | .fwd => KLt x.key s.key
  | .rev => ub = true ∨ KLt s.key x.key

instance (d : Dir) (ub : Bool) (x : LKey) (s : Slot (LV V)) : Decidable (d.wants ub x s) := by
  unfold Dir.wants; cases d <;> infer_instance

theorem isDup_iff (d : Dir) (ub : Bool) (x : LKey) (s : Slot (LV V)) :
    d.isDup ub x s = true ↔ ¬ d.wants ub x s := by
  have h1 := compare_neg x s
  have h2 := compare_pos x s
  cases d with
  | fwd =>
    simp only [Dir.isDup, Dir.wants, decide_eq_true_eq]
    rw [← h1]; omega
  | rev =>
    simp only [Dir.isDup, Dir.wants, Bool.and_eq_true, decide_eq_true_eq, Bool.not_eq_true', not_or,
      Bool.not_eq_true]
    rw [← h2]
    constructor
    · rintro ⟨a, b⟩; exact ⟨b, by omega⟩
    · rintro ⟨a, b⟩; exact ⟨by omega, a⟩

theorem not_wants_self (d : Dir) {x : LKey} {s : Slot (LV V)} (h : x.key = s.key) : ¬ d.wants false x s := by
  cases d <;> simp [Dir.wants, h, KLt.irrefl]

/-- From a `down` configuration the scan runs through the whole layer `n` and comes out at
its end. -/
def Enter (d : Dir) (eq : Bool) (r : Nat) (n : T V) : Prop :=
  ∀ c : Cfg V, c.root = n → c.mode = .down → Room c.key.buf.length (c.key.off + 8) r → c.ub = false →
    ∃ c', Runs d eq c (under (c.key.buf.take (c.key.off + 8)) (d.ord (contents n))) c' ∧ c'.mode = .up ∧
      c'.stack = c.stack ∧ c'.key.off = c.key.off + 8 ∧ c'.key.buf.length = c.key.buf.length ∧
      c'.key.buf.take (c.key.off + 8) = c.key.buf.take (c.key.off + 8) ∧ c'.ub = false

theorem leafLower_at {l : Leaf (LV V)} {x : LKey} (h : SSorted (leafEntries l.1 l.2)) {j : Nat}
    (hj : j < size l.1) (hx : (slotAt l.2 (Permuter.get l.1 j)).key = x.key) :
    leafLower x l.1 l.2 = (j, some (Permuter.get l.1 j)) := by
  obtain ⟨A, B, h1, hA, hB, hc⟩ := leafLower_spec x h
  have hlen := leafEntries_length l.1 l.2
  have hget : (leafEntries l.1 l.2)[j]? = some (slotAt l.2 (Permuter.get l.1 j)) := by
    rw [List.getElem?_eq_getElem (by omega), leafEntries_get]
  have hno : ∀ s ∈ A ++ B, s.key ≠ x.key := by
    intro s hs
    rcases List.mem_append.mp hs with hs | hs
    · exact (hA s hs).ne
    · exact (hB s hs).ne.symm
  rcases hc with ⟨h2, h3⟩ | ⟨h2, h3, h4, h5⟩
  · rw [h3] at hget
    exact absurd hx (hno _ (List.mem_of_getElem? hget))
  · have : j = A.length := by
      rw [h5] at hget
      rcases Nat.lt_trichotomy j A.length with c | c | c
      · rw [List.getElem?_append_left c] at hget
        exact absurd hx (hno _ (List.mem_append_left _ (List.mem_of_getElem? hget)))
      · exact c
      · rw [List.getElem?_append_right (by omega)] at hget
        obtain ⟨m, hm⟩ : ∃ m, j - A.length = m + 1 := ⟨j - A.length - 1, by omega⟩
        rw [hm, List.getElem?_cons_succ] at hget
        exact absurd hx (hno _ (List.mem_append_right _ (List.mem_of_getElem? hget)))
    subst this
    exact Prod.ext h1 h2

theorem lowerPos_at (d : Dir) {l : Leaf (LV V)} {x : LKey} (h : SSorted (leafEntries l.1 l.2)) {j : Nat}
    (hj : j < size l.1) (hx : (slotAt l.2 (Permuter.get l.1 j)).key = x.key) :
    d.lowerPos x l = ((j : Int), some (Permuter.get l.1 j)) := by
  unfold Dir.lowerPos
  rw [leafLower_at h hj hx]
  cases d <;> simp

theorem lower_at (d : Dir) {l : Leaf (LV V)} {x : LKey} (h : SSorted (leafEntries l.1 l.2)) {j : Nat}
    (hj : j < size l.1) (hx : (slotAt l.2 (Permuter.get l.1 j)).key = x.key) :
    d.lower false x l = (j : Int) := by
  unfold Dir.lower
  cases d
  · simp only; rw [lowerPos_at .fwd h hj hx]
  · simp only [Bool.false_eq_true, if_false]; rw [lowerPos_at .rev h hj hx]

theorem stable_at (d : Dir) {A : List (Leaf (LV V))} {l : Leaf (LV V)} {B : List (Leaf (LV V))} {x : LKey}
    (h : ∀ l2 B', B = l2 :: B' → x.ikey < ikeyBound l2 ∨ (x.ikey = ikeyBound l2 ∧ x.len = 0)) :
    d.stable x (A ++ l :: B) A.length = A.length := by
  cases d with
  | fwd => rfl
  | rev =>
    simp only [Dir.stable]
    have e : (A ++ l :: B).drop (A.length + 1) = B := by
      rw [show A ++ l :: B = (A ++ [l]) ++ B by simp]
      rw [List.drop_left' (by simp)]
    rw [e]
    cases B with
    | nil => rfl
    | cons l2 B' =>
      simp only [revStable]
      rw [if_pos]
      rcases h l2 B' rfl with h | h
      · rcases cmp3_cases x.ikey (ikeyBound l2) with c | c | c <;> omega
      · rcases cmp3_cases x.ikey (ikeyBound l2) with c | c | c <;> omega

theorem get_mid {β : Type} (A : List β) (l : β) (B : List β) : (A ++ l :: B)[A.length]? = some l := by simp

/-- All about one layer that the scan needs. -/
structure LayerOk (d : Dir) (eq : Bool) (r : Nat) (t : T V) : Prop where
  wf : WF t
  deep : ∃ ne, Deep r ne t
  enter : ∀ s ∈ entries t, ∀ n, s.lv = some (.layer n) → Enter d eq (r - 8) n

theorem entries_at {t : T V} {A : List (Leaf (LV V))} {l : Leaf (LV V)} {B : List (Leaf (LV V))}
    (hl : leavesOf t = A ++ l :: B) :
    entries t = (A.flatMap fun l => leafEntries l.1 l.2) ++ leafEntries l.1 l.2
      ++ B.flatMap fun l => leafEntries l.1 l.2 := by
  rw [entries_leavesOf, hl]; simp

theorem slot_mem {t : T V} {A : List (Leaf (LV V))} {l : Leaf (LV V)} {B : List (Leaf (LV V))}
    (hl : leavesOf t = A ++ l :: B) {j : Nat} (hj : j < size l.1) :
    slotAt l.2 (Permuter.get l.1 j) ∈ leafEntries l.1 l.2 ∧ slotAt l.2 (Permuter.get l.1 j) ∈ entries t := by
  have h1 : slotAt l.2 (Permuter.get l.1 j) ∈ leafEntries l.1 l.2 := by
    rw [← leafEntries_get l.1 l.2 j (by rw [leafEntries_length]; exact hj)]
    exact List.getElem_mem _
  refine ⟨h1, ?_⟩
  rw [entries_at hl]; simp [h1]

theorem leaf_at {t : T V} (hw : WF t) {A : List (Leaf (LV V))} {l : Leaf (LV V)} {B : List (Leaf (LV V))}
    (hl : leavesOf t = A ++ l :: B) : ∃ lo hi, LAt none Trie.top A l B lo hi := by
  have := inv_lchain t hw.inv
  rw [hl] at this
  exact this.at (by simp)

/-- A configuration in `find_next` at position `ki` of the leaf after `A`. -/
structure AtPos (t : T V) (A : List (Leaf (LV V))) (ki : Int) (c : Cfg V) : Prop where
  root : c.root = t
  i : c.i = A.length
  mode : c.mode = .findNext
  ki : c.ki = ki

/-- The buffer after the suffix of slot `s` may have been copied to it. -/
theorem suffix_step {r : Nat} {s : Slot (LV V)} {k : SKey} (hs : s.klx = 64 → 8 + s.suf.length ≤ r)
    (room : Room k.buf.length k.off r) :
    ∃ b keylen, (if s.klx = 64 then k.storeSuffix s.suf else some (k, s.klx)) = some ({ k with buf := b }, keylen) ∧
      b.length = k.buf.length ∧ b.take (k.off + 8) = k.buf.take (k.off + 8) ∧
      (s.klx = 64 → keylen = 8 + s.suf.length ∧ (b.drop (k.off + 8)).take s.suf.length = s.suf) ∧
      (s.klx ≠ 64 → keylen = s.klx) := by
  by_cases c : s.klx = 64
  · rw [if_pos c]
    have hr : k.off + 8 + s.suf.length ≤ k.buf.length := by
      have := hs c; unfold Room at room; omega
    unfold SKey.storeSuffix
    rw [store_ok hr]
    refine ⟨_, _, rfl, stored_length hr, stored_take hr (Nat.le_refl _), ?_, fun h => absurd c h⟩
    intro _
    refine ⟨rfl, ?_⟩
    rw [List.append_assoc, List.drop_left' (by rw [List.length_take]; omega), List.take_left]
  · rw [if_neg c]
    exact ⟨k.buf, s.klx, rfl, rfl, rfl, fun h => absurd h c, fun _ => rfl⟩

theorem take_take_of_le {b b' : Bytes} {m n : Nat} (h : b.take n = b'.take n) (hm : m ≤ n) :
    b.take m = b'.take m := by
  have := congrArg (List.take m) h
  rw [List.take_take, List.take_take, Nat.min_eq_left hm] at this
  exact this

/-- One slot: what the scan does when it stands at position `j` of a leaf. -/
theorem slot_step {d : Dir} {eq : Bool} {r : Nat} {t : T V} (ok : LayerOk d eq r t)
    {A : List (Leaf (LV V))} {l : Leaf (LV V)} {B : List (Leaf (LV V))} (hl : leavesOf t = A ++ l :: B)
    {c : Cfg V} {j : Nat} (hj : j < size l.1) (at' : AtPos t A j c) (room : Room c.key.buf.length c.key.off r) :
    let s := slotAt l.2 (Permuter.get l.1 j)
    (¬ d.wants c.ub c.key.lk s → ∃ c1, Runs d eq c [] c1 ∧ Fr c c1 ∧ AtPos t A (d.next j) c1 ∧
        c1.key.lk = c.key.lk ∧ c1.ub = c.ub) ∧
    (d.wants c.ub c.key.lk s → ∃ c1, Runs d eq c (under (pre c) (d.ord (slotC s))) c1 ∧ Fr c c1 ∧
        AtPos t A (d.next j) c1 ∧ c1.key.lk.key = s.key ∧ c1.ub = false) := by
  intro s
  obtain ⟨hs1, hs2⟩ := slot_mem hl hj
  obtain ⟨lo, hi, hla⟩ := leaf_at ok.wf hl
  obtain ⟨ne, hdeep⟩ := ok.deep
  have hsd := hdeep.slot hs2
  have hleaf : ∀ c : Cfg V, AtPos t A j c → (leavesOf c.root)[c.i]? = some l := by
    intro c h; rw [h.root, h.i, hl, get_mid]
  -- the first part, for any configuration at this place
  have skip : ∀ c : Cfg V, AtPos t A j c → Room c.key.buf.length c.key.off r → ¬ d.wants c.ub c.key.lk s →
      ∃ c1, Runs d eq c [] c1 ∧ Fr c c1 ∧ AtPos t A (d.next j) c1 ∧ c1.key.lk = c.key.lk ∧ c1.ub = c.ub := by
    intro c hat hroom hw
    obtain ⟨b, keylen, hb, b1, b2, _, _⟩ := suffix_step (s := s) hsd.suf hroom
    refine ⟨{ c with key := { c.key with buf := b }, ki := d.next c.ki }, .one ?_, ?_, ?_, ?_, ?_⟩
    · unfold step
      rw [hat.mode]
      simp only [findNext]
      rw [hleaf c hat]
      simp only
      rw [if_pos (by rw [hat.ki]; omega)]
      rw [show Permuter.get l.1 c.ki.toNat = Permuter.get l.1 j by rw [hat.ki]; rfl]
      have := (isDup_iff d c.ub ({ c.key with buf := b } : SKey).lk s).mpr hw
      simp only [s] at hb this
      rw [hb]
      simp only [this, if_true]
      rw [hat.mode]
    · exact ⟨rfl, rfl, b1, take_take_of_le b2 (Nat.le_add_right _ 8)⟩
    · exact ⟨hat.root, hat.i, hat.mode, by simp only; rw [hat.ki]⟩
    · rfl
    · rfl
  refine ⟨skip c at' room, ?_⟩
  intro hw
  obtain ⟨b, keylen, hb, b1, b2, b3, b4⟩ := suffix_step (s := s) (k := c.key) hsd.suf room
  have hro : c.key.off + 8 ≤ c.key.buf.length := room.2.2.2
  have hst : store b c.key.off (ikeyBytes s.ikey) = some (b.take c.key.off ++ ikeyBytes s.ikey ++ b.drop (c.key.off + 8)) := by
    rw [store_ok (by rw [ikeyBytes_length]; omega), ikeyBytes_length]
  obtain ⟨b', hb'⟩ : ∃ b', b' = b.take c.key.off ++ ikeyBytes s.ikey ++ b.drop (c.key.off + 8) := ⟨_, rfl⟩
  have hst8 : c.key.off + (ikeyBytes s.ikey).length ≤ b.length := by rw [ikeyBytes_length]; omega
  have l' : b'.length = c.key.buf.length := by
    have := stored_length hst8
    rw [ikeyBytes_length] at this
    rw [hb', this, b1]
  have t' : b'.take c.key.off = c.key.buf.take c.key.off := by
    have := stored_take hst8 (Nat.le_refl c.key.off)
    rw [ikeyBytes_length] at this
    rw [hb', this, take_take_of_le b2 (by omega)]
  have t8 : b'.take (c.key.off + 8) = pre c ++ ikeyBytes s.ikey := by
    have := stored_upto hst8
    rw [ikeyBytes_length] at this
    rw [hb', this, take_take_of_le b2 (by omega)]; rfl
  have d8 : b'.drop (c.key.off + 8) = b.drop (c.key.off + 8) := by
    rw [hb', List.drop_left']
    simp only [List.length_append, List.length_take, ikeyBytes_length]; omega
  rw [← hb'] at hst
  have hndup : d.isDup c.ub ({ c.key with buf := b } : SKey).lk s = false := by
    have := isDup_iff d c.ub ({ c.key with buf := b } : SKey).lk s
    cases hdup : d.isDup c.ub ({ c.key with buf := b } : SKey).lk s with
    | false => rfl
    | true => exact absurd hw (this.mp hdup)
  have hstep : step d eq c =
      (if s.klx > 127 then
        match s.lv with
        | some (.layer n) => .tau { c with key := { c.key with buf := b', ikey := s.ikey }, ub := false, root := n, i := 0, stack := (c.root, c.i) :: c.stack, mode := .down }
        | _ => .fail
      else
        match s.lv with
        | some (.val v) => .tau { c with key := { c.key with buf := b', ikey := s.ikey, len := keylen }, ub := false, mode := .emit v }
        | _ => .fail) := by
    conv => lhs; unfold step
    rw [at'.mode]
    simp only [findNext]
    rw [hleaf c at']
    simp only
    rw [if_pos (by rw [at'.ki]; omega)]
    rw [show Permuter.get l.1 c.ki.toNat = Permuter.get l.1 j by rw [at'.ki]; rfl]
    simp only [s] at hb hndup hst ⊢
    rw [hb]
    simp only [hndup, Bool.false_eq_true, if_false, SKey.storeIkey, hst, Option.map_some]
    rcases (slotAt l.2 (Permuter.get l.1 j)).lv with _ | (v | n) <;> rfl
  have hval : ∀ v, s.klx ≤ 127 → s.lv = some (.val v) → keylen = (if s.klx ≤ 8 then s.klx else 8 + s.suf.length) →
      ((s.klx ≤ 8) ∨ (s.klx = 64 ∧ s.suf ≠ [])) →
      ∃ c1, Runs d eq c (under (pre c) (d.ord (slotC s))) c1 ∧ Fr c c1 ∧
        AtPos t A (d.next j) c1 ∧ c1.key.lk.key = s.key ∧ c1.ub = false := by
    intro v h127 hv hkl hkind
    rw [if_neg (by omega), hv] at hstep
    dsimp only at hstep
    have hfull : ({ c.key with buf := b', ikey := s.ikey, len := keylen } : SKey).full
        = some (pre c ++ (if s.klx ≤ 8 then (ikeyBytes s.ikey).take s.klx else ikeyBytes s.ikey ++ s.suf)) := by
      unfold SKey.full
      dsimp only
      have hpl : (pre c).length = c.key.off := by unfold pre; rw [List.length_take]; omega
      by_cases c8 : s.klx ≤ 8
      · rw [if_pos c8] at hkl
        rw [if_pos (by rw [l', hkl]; omega), if_pos c8, hkl]
        have : b'.take (c.key.off + s.klx) = (pre c ++ ikeyBytes s.ikey).take (c.key.off + s.klx) := by
          rw [← t8, List.take_take]; congr 1; omega
        rw [this]
        conv => lhs; rw [show c.key.off + s.klx = (pre c).length + s.klx by rw [hpl]]
        rw [List.take_length_add_append]
      · rw [if_neg c8] at hkl
        have h64 : s.klx = 64 := by omega
        have hsuf : 8 + s.suf.length ≤ r := hsd.suf h64
        have := room.2.2.1
        rw [if_pos (by rw [l', hkl]; omega), if_neg c8, hkl]
        have hb3 := (b3 h64).2
        have e : b' = (pre c ++ ikeyBytes s.ikey) ++ b'.drop (c.key.off + 8) := by
          rw [← t8, List.take_append_drop]
        have hpl2 : (pre c ++ ikeyBytes s.ikey).length = c.key.off + 8 := by
          rw [List.length_append, hpl, ikeyBytes_length]
        rw [e, ← List.append_assoc, show c.key.off + (8 + s.suf.length) = (pre c ++ ikeyBytes s.ikey).length + s.suf.length by rw [hpl2]; omega]
        rw [List.take_length_add_append, d8, hb3]
    refine ⟨{ c with key := { c.key with buf := b', ikey := s.ikey, len := keylen }, ub := false, ki := d.next c.ki, mode := .findNext }, ?_, ?_, ?_, ?_, rfl⟩
    · rw [Trie.slotC_val hv, ord_singleton]
      refine .tau hstep (.visit ?_ (.refl _))
      · simp only [step]
        rw [hfull]
    · exact ⟨rfl, rfl, l', t'⟩
    · exact ⟨at'.root, at'.i, rfl, by simp only; rw [at'.ki]⟩
    · simp only [SKey.lk, LKey.key, Slot.key, Prod.mk.injEq, true_and]
      rw [hkl]
      split
      · rfl
      · have hk : s.klx = 64 ∧ s.suf ≠ [] := by
          rcases hkind with h | h
          · omega
          · exact h
        have := List.length_pos_iff.mpr hk.2
        omega
  rcases ok.wf.ok s hs2 with ⟨h1, _, v, h4⟩ | ⟨h1, _, h4, v, h5⟩ | ⟨h1, ⟨bb, h2, h3⟩, n, h4⟩
  · exact hval v (by omega) h4 (by rw [if_pos h1]; exact b4 (by omega)) (.inl h1)
  · exact hval v (by omega) h5 (by rw [if_neg (by omega)]; exact (b3 h1).1) (.inr ⟨h1, h4⟩)
  · rw [if_pos (by omega), h4] at hstep
    dsimp only at hstep
    obtain ⟨hr8, hdn⟩ := hsd.sub n h4
    obtain ⟨c2, q1, q2, q3, q4, q5, q6, q7⟩ := ok.enter s hs2 n h4
      { c with key := { c.key with buf := b', ikey := s.ikey }, ub := false, root := n, i := 0, stack := (c.root, c.i) :: c.stack, mode := .down }
      rfl rfl (by dsimp only; rw [l']; exact room.sub hr8) rfl
    dsimp only at q1 q3 q4 q5 q6
    rw [t8] at q1 q6
    -- back up
    have hunshift : c2.key.unshift = some { c2.key with off := c.key.off, len := 9, ikey := s.ikey } := by
      unfold SKey.unshift
      rw [if_pos (by rw [q4, q5, l']; omega), q4, Nat.add_sub_cancel]
      have hpl : (pre c).length = c.key.off := by unfold pre; rw [List.length_take]; omega
      have : (c2.key.buf.drop c.key.off).take 8 = ikeyBytes s.ikey := by
        rw [List.take_drop, q6, List.drop_left' hpl]
      rw [this, ← h3, Trie.slice_ikeyBytes]
    have hnext : ∀ l2 B', B = l2 :: B' → s.ikey < ikeyBound l2 ∨ (s.ikey = ikeyBound l2 ∧ 9 = 0) := by
      intro l2 B' hB
      have := (hla.inv.range s hs1).2
      rw [hla.hi_eq l2 B' hB] at this
      exact .inl this
    have hstab : d.stable ⟨s.ikey, 9⟩ (A ++ l :: B) A.length = A.length := stable_at d hnext
    have hxk : (slotAt l.2 (Permuter.get l.1 j)).key = (⟨s.ikey, 9⟩ : LKey).key := by
      show s.key = _
      simp only [Slot.key, LKey.key, h1]; rfl
    have hlow : d.lower false ⟨s.ikey, 9⟩ l = (j : Int) := lower_at d hla.inv.sorted hj hxk
    obtain ⟨c3, hc3⟩ : ∃ c3 : Cfg V, c3 = { c2 with key := { c2.key with off := c.key.off, len := 9, ikey := s.ikey }, root := t, i := A.length, ki := (j : Int), stack := c.stack, mode := .findNext } := ⟨_, rfl⟩
    have hstep2 : step d eq c2 = .tau c3 := by
      unfold step
      rw [q2]
      simp only
      rw [q3]
      simp only
      rw [hunshift]
      simp only
      rw [if_neg (by simp), at'.root, at'.i, hl]
      simp only [SKey.lk]
      rw [hstab, get_mid]
      simp only
      rw [q7, hlow, hc3, q7]
    have hat3 : AtPos t A j c3 := by rw [hc3]; exact ⟨rfl, rfl, rfl, rfl⟩
    have hroom3 : Room c3.key.buf.length c3.key.off r := by
      rw [hc3]; dsimp only; rw [q5, l']; exact room
    have hdup3 : ¬ d.wants c3.ub c3.key.lk s := by
      rw [hc3]; dsimp only; rw [q7]
      exact not_wants_self d hxk.symm
    obtain ⟨c4, r1, r2, r3, r4, r5⟩ := skip c3 hat3 hroom3 hdup3
    have hfr3 : Fr c c3 := by
      rw [hc3]
      refine ⟨rfl, rfl, by dsimp only; rw [q5, l'], ?_⟩
      have hpl : (pre c).length = c.key.off := by unfold pre; rw [List.length_take]; omega
      show c2.key.buf.take c.key.off = _
      have := congrArg (List.take c.key.off) q6
      rw [List.take_take, Nat.min_eq_left (by omega), List.take_left' hpl] at this
      exact this
    refine ⟨c4, ?_, hfr3.trans r2, r3, ?_, ?_⟩
    · rw [Trie.slotC_layer h4]
      have e : (List.map (fun e => (ikeyBytes s.ikey ++ e.1, e.2)) (contents n)) = under (ikeyBytes s.ikey) (contents n) := rfl
      rw [e, ord_under, under_under]
      have := (Runs.tau hstep q1).trans (Runs.tau hstep2 r1)
      simpa using this
    · rw [r4, hc3]; exact hxk.symm
    · rw [r5, hc3]; exact q7

end Verif.Scan
