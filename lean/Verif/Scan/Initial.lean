import Verif.Scan.Walk

/-!
The first phase of a scan: going down to the start key.
-/
namespace Verif.Scan
open Verif.Permuter (Word size)
open Verif.Key (Bytes slice cmp3 LexLt)
open Verif.Tree
open Verif.Trie (T LV ikeyBytes ikeyBytes_length WF Deep SlotOk slotC contents lkey)
variable {V : Type}

theorem cmpBytes_spec (a b : Bytes) : (cmpBytes a b < 0 ↔ LexLt a b) ∧ (cmpBytes a b = 0 ↔ a = b) ∧
    (0 < cmpBytes a b ↔ LexLt b a) := by
  induction a generalizing b with
  | nil => cases b <;> simp [cmpBytes]
  | cons x a ih =>
    cases b with
    | nil => simp [cmpBytes]
    | cons y b =>
      simp only [cmpBytes, Key.lexLt_cons_cons, List.cons.injEq]
      by_cases h : x = y
      · subst h
        simp only [if_true, true_and, UInt8.lt_irrefl, false_or]
        exact ih b
      · rw [if_neg h]
        have h' : ¬ y = x := fun e => h e.symm
        simp only [h, h', false_and, or_false]
        by_cases h2 : x < y
        · have : ¬ y < x := UInt8.lt_asymm h2
          simp [h2, this]
        · have : y < x := UInt8.lt_of_le_of_ne (UInt8.not_lt.mp h2) h'
          simp [h2, this]

/-- Keys a scan from `x` reports. -/
def Dir.after (d : Dir) (eq : Bool) (x k : Bytes) : Prop :=
  (match d with
    | .fwd => LexLt x k
    | .rev => LexLt k x) ∨ (k = x ∧ eq = true)

open Classical in
/-- The pairs a scan from `x` reports. -/
noncomputable def Dir.pick (d : Dir) (eq : Bool) (x : Bytes) (L : List (Bytes × V)) : List (Bytes × V) :=
  L.filter fun e => decide (d.after eq x e.1)

theorem pick_append (d : Dir) (eq : Bool) (x : Bytes) (L M : List (Bytes × V)) :
    d.pick eq x (L ++ M) = d.pick eq x L ++ d.pick eq x M := by simp [Dir.pick]

theorem pick_all {d : Dir} {eq : Bool} {x : Bytes} {L : List (Bytes × V)} (h : ∀ e ∈ L, d.after eq x e.1) :
    d.pick eq x L = L := by
  unfold Dir.pick; rw [List.filter_eq_self]; intro s hs; simpa using h s hs

theorem pick_none {d : Dir} {eq : Bool} {x : Bytes} {L : List (Bytes × V)} (h : ∀ e ∈ L, ¬ d.after eq x e.1) :
    d.pick eq x L = [] := by
  unfold Dir.pick; rw [List.filter_eq_nil_iff]; intro s hs; simpa using h s hs

theorem after_append (d : Dir) (eq : Bool) (p x k : Bytes) : d.after eq (p ++ x) (p ++ k) ↔ d.after eq x k := by
  cases d <;> simp [Dir.after, Key.lexLt_append_left]

theorem pick_under (d : Dir) (eq : Bool) (p x : Bytes) (L : List (Bytes × V)) :
    d.pick eq (p ++ x) (under p L) = under p (d.pick eq x L) := by
  unfold Dir.pick under
  rw [List.filter_map]
  congr 1
  apply List.filter_congr
  intro e _
  simp [after_append]

/-- The slots the scan meets after the start key. -/
def Dir.todo (d : Dir) (lo hi : List (Slot (LV V))) : List (Slot (LV V)) :=
  match d with
  | .fwd => hi
  | .rev => lo

theorem pick_contents {r : Nat} {ne : Bool} {t : T V} (hw : WF t) (hd : Deep r ne t) {x : Bytes}
    {Lo M Hi : List (Slot (LV V))} (he : entries t = Lo ++ M ++ Hi) (hlo : AllBelow (lkey x) Lo)
    (hhi : AllAbove (lkey x) Hi) (d : Dir) (eq : Bool) :
    d.ord (d.pick eq x (contents t))
      = d.ord (d.pick eq x (M.flatMap slotC)) ++ d.ord ((d.todo Lo Hi).flatMap slotC) := by
  have hL : ∀ e ∈ Lo.flatMap slotC, LexLt e.1 x := by
    intro e he'
    obtain ⟨s, hs, h⟩ := List.mem_flatMap.mp he'
    have := hlo s hs
    rw [← Trie.slotC_key' hw hd (by rw [he]; simp [hs]) h] at this
    exact Trie.lexLt_of_klt this
  have hH : ∀ e ∈ Hi.flatMap slotC, LexLt x e.1 := by
    intro e he'
    obtain ⟨s, hs, h⟩ := List.mem_flatMap.mp he'
    have := hhi s hs
    rw [← Trie.slotC_key' hw hd (by rw [he]; simp [hs]) h] at this
    exact Trie.lexLt_of_klt this
  rw [Trie.contents_eq, he, List.flatMap_append, List.flatMap_append, pick_append, pick_append]
  cases d with
  | fwd =>
    rw [pick_none (L := Lo.flatMap slotC), pick_all (L := Hi.flatMap slotC)]
    · simp [Dir.ord, Dir.todo]
    · exact fun e he => .inl (hH e he)
    · rintro e he' (h | ⟨h, _⟩)
      · exact Key.lexLt_asymm (hL e he') h
      · exact Key.lexLt_irrefl _ (h ▸ hL e he')
  | rev =>
    rw [pick_none (L := Hi.flatMap slotC), pick_all (L := Lo.flatMap slotC)]
    · simp [Dir.ord, Dir.todo]
    · exact fun e he => .inl (hL e he)
    · rintro e he' (h | ⟨h, _⟩)
      · exact Key.lexLt_asymm (hH e he') h
      · exact Key.lexLt_irrefl _ (h ▸ hH e he')

/-- Position from which the walk goes on. -/
def Dir.go (d : Dir) (p m : Nat) : Int :=
  match d with
  | .fwd => ((p + m : Nat) : Int)
  | .rev => (p : Int) - 1

theorem finish {d : Dir} {eq : Bool} {r : Nat} {t : T V} (ok : LayerOk d eq r t)
    {A : List (Leaf (LV V))} {l : Leaf (LV V)} {B : List (Leaf (LV V))} (hl : leavesOf t = A ++ l :: B)
    {P M Q : List (Slot (LV V))} (he : leafEntries l.1 l.2 = P ++ M ++ Q) {x : LKey}
    (hlo : AllBelow x (ents A ++ P)) (hhi : AllAbove x (Q ++ ents B)) (hb : A ≠ [] → ikeyBound l ≤ x.ikey)
    {c : Cfg V} (hat : AtPos t A (d.go P.length M.length) c) (room : Room c.key.buf.length c.key.off r)
    (hub : c.ub = false) (hk : c.key.lk.key = x.key) :
    Ends d eq c (d.todo (ents A ++ P) (Q ++ ents B)) := by
  have hlen : size l.1 = P.length + M.length + Q.length := by
    rw [← leafEntries_length l.1 l.2, he]; simp; omega
  cases d with
  | fwd =>
    have := walk_fwd ok B A l hl (P.length + M.length) c (by omega) hat room hub
    rw [he, List.drop_left' (by simp), sel_all] at this
    · exact this
    · intro s hs
      show KLt c.key.lk.key s.key
      rw [hk]; exact hhi s hs
  | rev =>
    have := walk_rev ok A.length A B l rfl hl P.length c (by omega) hat room
      (fun _ hA => by
        have := hb hA
        rw [show c.key.lk.ikey = x.ikey from congrArg Prod.fst hk]
        exact this)
    rw [he, List.append_assoc P, List.take_left, sel_all] at this
    · exact this
    · intro s hs
      show _ ∨ _
      rw [hk]; exact .inr (hlo s hs)

/-- Coming back from the layer in slot `j`. -/
theorem up_step {d : Dir} {eq : Bool} {r : Nat} {t : T V} (ok : LayerOk d eq r t)
    {A : List (Leaf (LV V))} {l : Leaf (LV V)} {B : List (Leaf (LV V))} (hl : leavesOf t = A ++ l :: B)
    {j : Nat} (hj : j < size l.1) {c : Cfg V} (hm : c.mode = .up) {st : List (T V × Nat)}
    (hst : c.stack = (t, A.length) :: st) {off : Nat} (hoff : c.key.off = off + 8) (hub : c.ub = false)
    (room : Room c.key.buf.length off r)
    (h128 : (slotAt l.2 (Permuter.get l.1 j)).klx = 128)
    (hik : slice ((c.key.buf.drop off).take 8) = (slotAt l.2 (Permuter.get l.1 j)).ikey) :
    ∃ c1, Runs d eq c [] c1 ∧ c1.stack = st ∧ c1.key.off = off ∧ c1.key.buf.length = c.key.buf.length ∧
      c1.key.buf.take off = c.key.buf.take off ∧ AtPos t A (d.next j) c1 ∧
      c1.key.lk.key = (slotAt l.2 (Permuter.get l.1 j)).key ∧ c1.ub = false := by
  obtain ⟨hs1, hs2⟩ := slot_mem hl hj
  obtain ⟨s, hs⟩ : ∃ s, s = slotAt l.2 (Permuter.get l.1 j) := ⟨_, rfl⟩
  rw [← hs] at hs1 hs2 h128 hik ⊢
  obtain ⟨lo, hi, hla⟩ := leaf_at ok.wf hl
  have hunshift : c.key.unshift = some { c.key with off := off, len := 9, ikey := s.ikey } := by
    unfold SKey.unshift
    rw [if_pos (by have := room.2.2.2; omega), hoff, Nat.add_sub_cancel, hik]
  have hnext : ∀ l2 B', B = l2 :: B' → s.ikey < ikeyBound l2 ∨ (s.ikey = ikeyBound l2 ∧ 9 = 0) := by
    intro l2 B' hB
    have := (hla.inv.range s hs1).2
    rw [hla.hi_eq l2 B' hB] at this
    exact .inl this
  have hstab : d.stable ⟨s.ikey, 9⟩ (A ++ l :: B) A.length = A.length := stable_at d hnext
  have hxk : s.key = (⟨s.ikey, 9⟩ : LKey).key := by
    simp only [Slot.key, LKey.key, h128]; rfl
  have hlow : d.lower false ⟨s.ikey, 9⟩ l = (j : Int) := lower_at d hla.inv.sorted hj (by rw [← hs]; exact hxk)
  obtain ⟨c3, hc3⟩ : ∃ c3 : Cfg V, c3 = { c with key := { c.key with off := off, len := 9, ikey := s.ikey }, root := t, i := A.length, ki := (j : Int), stack := st, mode := .findNext } := ⟨_, rfl⟩
  have hstep2 : step d eq c = .tau c3 := by
    unfold step
    rw [hm]
    simp only
    rw [hst]
    simp only
    rw [hunshift]
    simp only
    rw [if_neg (by simp), hl]
    simp only [SKey.lk]
    rw [hstab, get_mid]
    simp only
    rw [hub, hlow, hc3, hub]
  have hat3 : AtPos t A j c3 := by rw [hc3]; exact ⟨rfl, rfl, rfl, rfl⟩
  have hroom3 : Room c3.key.buf.length c3.key.off r := by rw [hc3]; exact room
  have hdup3 : ¬ d.wants c3.ub c3.key.lk s := by
    rw [hc3]; dsimp only; rw [hub]
    exact not_wants_self d hxk.symm
  obtain ⟨c4, r1, r2, r3, r4, r5⟩ := (slot_step ok hl hj hat3 hroom3).1 (by rw [← hs]; exact hdup3)
  refine ⟨c4, .tau hstep2 r1, ?_, ?_, ?_, ?_, r3, ?_, ?_⟩
  · rw [r2.stack, hc3]
  · rw [r2.off, hc3]
  · rw [r2.len, hc3]
  · have := r2.pre
    unfold pre at this
    rw [r2.off, hc3] at this
    exact this
  · rw [r4, hc3]; exact hxk.symm
  · rw [r5, hc3]; exact hub

/-- The part of the key buffer that holds the start key of the current layer. -/
structure Holds (c : Cfg V) (x : Bytes) : Prop where
  fits : c.key.off + x.length ≤ c.key.buf.length
  bytes : (c.key.buf.drop c.key.off).take x.length = x
  len : c.key.len = x.length
  ikey : c.key.ikey = slice x

theorem Holds.take {c : Cfg V} {x : Bytes} (h : Holds c x) {n : Nat} (hn : n ≤ x.length) :
    c.key.buf.take (c.key.off + n) = pre c ++ x.take n := by
  have h1 : c.key.buf = pre c ++ c.key.buf.drop c.key.off := by unfold pre; rw [List.take_append_drop]
  have hl : (pre c).length = c.key.off := by
    unfold pre; rw [List.length_take]; have := h.fits; omega
  have h2 : x.take n = (c.key.buf.drop c.key.off).take n := by
    conv => lhs; rw [← h.bytes]
    rw [List.take_take, Nat.min_eq_left hn]
  rw [h2]
  conv => lhs; rw [h1, ← hl]
  rw [List.take_length_add_append, hl]

theorem Holds.drop {c : Cfg V} {x : Bytes} (h : Holds c x) (n : Nat) :
    (c.key.buf.drop (c.key.off + n)).take (x.length - n) = x.drop n := by
  conv => rhs; rw [← h.bytes]
  rw [List.drop_take, List.drop_drop]

theorem initial_run {d : Dir} {eq : Bool} {t : T V} (hw : WF t) : ∀ {r : Nat} {ne : Bool}, Deep r ne t →
    ∀ (c : Cfg V) (x : Bytes), c.root = t → c.mode = .initial → c.ub = false →
      Room c.key.buf.length c.key.off r → Holds c x →
      ∃ c', Runs d eq c (under (pre c) (d.ord (d.pick eq x (contents t)))) c' ∧ Fr c c' ∧ c'.mode = .up ∧
        c'.ub = false := by
  induction hw with
  | mk t inv hok hsub ih =>
    intro r ne hd c x hroot hmode hub room hx
    have hw : WF t := ⟨_, inv, hok, hsub⟩
    have ok : LayerOk d eq r t := enter_all hw hd
    obtain ⟨A, l, B, hl, h1, h2, h3⟩ := reachIdx_spec (slice x) t inv (Trie.lkey_top x)
    obtain ⟨lo, hi, hla⟩ := leaf_at hw hl
    have hlk : c.key.lk = lkey x := by unfold SKey.lk lkey; rw [hx.len, hx.ikey]
    obtain ⟨P, Q, p1, p2, p3, p4⟩ := leafLower_spec (lkey x) hla.inv.sorted
    have hA : AllBelow (lkey x) (ents A ++ P) := by
      intro s hs
      rcases List.mem_append.mp hs with hs | hs
      · obtain ⟨a, ha, hs⟩ := List.mem_flatMap.mp hs
        obtain ⟨b, q1, q2⟩ := hla.left a ha s hs
        have hne : A ≠ [] := List.ne_nil_of_mem ha
        rw [hla.lo_eq hne] at q1
        have := h2 (.inl hne)
        simp only [Option.some.injEq] at q1
        exact .inl (by show s.ikey < slice x; omega)
      · exact p2 s hs
    have hB : AllAbove (lkey x) (Q ++ ents B) := by
      intro s hs
      rcases List.mem_append.mp hs with hs | hs
      · exact p3 s hs
      · obtain ⟨a, ha, hs⟩ := List.mem_flatMap.mp hs
        obtain ⟨b, q1, q2⟩ := hla.right a ha s hs
        obtain ⟨l2, B', rfl⟩ := List.exists_cons_of_ne_nil (List.ne_nil_of_mem ha)
        rw [hla.hi_eq l2 B' rfl] at q1
        have := h3 l2 B' rfl
        simp only [Option.some.injEq] at q1
        exact .inl (by show slice x < s.ikey; omega)
    have hbound : A ≠ [] → ikeyBound l ≤ (lkey x).ikey := fun h => h2 (.inl h)
    -- putting things together
    have conclude : ∀ (M : List (Slot (LV V))), leafEntries l.1 l.2 = P ++ M ++ Q → ∀ c1 : Cfg V,
        Runs d eq c (under (pre c) (d.ord (d.pick eq x (M.flatMap slotC)))) c1 → Fr c c1 →
        AtPos t A (d.go P.length M.length) c1 → c1.ub = false → c1.key.lk.key = (lkey x).key →
        ∃ c', Runs d eq c (under (pre c) (d.ord (d.pick eq x (contents t)))) c' ∧ Fr c c' ∧ c'.mode = .up ∧
          c'.ub = false := by
      intro M hM c1 g1 g2 g3 g4 g5
      obtain ⟨c2, e1, e2, e3, e4⟩ := finish ok hl hM hA hB hbound g3 (by rw [g2.len, g2.off]; exact room) g4 g5
      refine ⟨c2, ?_, g2.trans e2, e3, e4⟩
      have he : entries t = (ents A ++ P) ++ M ++ (Q ++ ents B) := by
        rw [entries_at hl, hM]; simp [ents]
      rw [pick_contents hw hd he hA hB d eq, under_append]
      rw [g2.pre] at e1
      exact g1.trans e1
    have hstep0 : ∀ p : Option Nat, (leafLower (lkey x) l.1 l.2).2 = p → d.lowerPos c.key.lk l =
        ((match d with | .fwd => (P.length : Int) | .rev => (P.length : Int) - (if p.isNone then 1 else 0)), p) := by
      intro p hp
      rw [hlk]
      unfold Dir.lowerPos
      cases d <;> simp [p1, hp]
    rcases p4 with ⟨q1, q2⟩ | ⟨q1, q2, q3, q4⟩
    · -- nothing there
      refine conclude [] (by simpa using q2) { c with i := A.length, ki := d.go P.length 0, mode := .findNext } ?_ ⟨rfl, rfl, rfl, rfl⟩
        ⟨hroot, rfl, rfl, rfl⟩ hub (by rw [← hlk])
      have : under (pre c) (d.ord (d.pick eq x (([] : List (Slot (LV V))).flatMap slotC))) = [] := by
        cases d <;> rfl
      rw [this]
      refine .one ?_
      unfold step
      rw [hmode]
      simp only [findInitial, hx.ikey, hroot, h1, hl, get_mid, hstep0 none q1]
      cases d <;> simp [Dir.go]
    · obtain ⟨s, hs⟩ : ∃ s, s = slotAt l.2 (Permuter.get l.1 P.length) := ⟨_, rfl⟩
      rw [← hs] at q2 q4
      have hgo : d.next (P.length : Int) = d.go P.length 1 := by cases d <;> simp [Dir.next, Dir.go]
      have hM : leafEntries l.1 l.2 = P ++ [s] ++ Q := by rw [q4]; simp
      have hmem : s ∈ entries t := by rw [hs]; exact (slot_mem hl q3).2
      have hsd := hd.slot hmem
      have hik : s.ikey = slice x := congrArg Prod.fst q2
      have hle : min s.klx 9 = min x.length 9 := congrArg Prod.snd q2
      have hpos : d.lowerPos c.key.lk l = ((P.length : Int), some (Permuter.get l.1 P.length)) := by
        rw [hstep0 _ q1]; cases d <;> simp
      have hC : [s].flatMap slotC = slotC s := by simp
      -- the slot is skipped
      have skip : step d eq c = .tau { c with i := A.length, ki := d.next (P.length : Int), mode := .findNext } →
          d.pick eq x (slotC s) = [] →
          ∃ c', Runs d eq c (under (pre c) (d.ord (d.pick eq x (contents t)))) c' ∧ Fr c c' ∧ c'.mode = .up ∧
            c'.ub = false := by
        intro hst hp
        refine conclude [s] hM { c with i := A.length, ki := d.next (P.length : Int), mode := .findNext } ?_
          ⟨rfl, rfl, rfl, rfl⟩ ⟨hroot, rfl, rfl, hgo⟩ hub (by rw [← hlk])
        rw [hC, hp]
        have : under (pre c) (d.ord ([] : List (Bytes × V))) = [] := by cases d <;> rfl
        rw [this]
        exact .one hst
      -- the slot is reported
      have report : ∀ (key : SKey) (v : V) (k : Bytes), step d eq c = .tau { c with key := key, i := A.length, ki := (P.length : Int), mode := .emit v } →
          key.off = c.key.off → key.buf.length = c.key.buf.length → key.buf.take c.key.off = pre c →
          key.full = some (pre c ++ k) → key.lk.key = (lkey x).key → slotC s = [(k, v)] → d.after eq x k →
          ∃ c', Runs d eq c (under (pre c) (d.ord (d.pick eq x (contents t)))) c' ∧ Fr c c' ∧ c'.mode = .up ∧
            c'.ub = false := by
        intro key v k hst ho hlen hpre hfull hkey hsl haf
        refine conclude [s] hM { c with key := key, i := A.length, ki := d.next (P.length : Int), mode := .findNext } ?_
          ⟨rfl, ho, hlen, by unfold pre; dsimp only; rw [ho, hpre]; rfl⟩ ⟨hroot, rfl, rfl, hgo⟩ hub hkey
        rw [hC, hsl, pick_all (by simpa using haf), ord_singleton]
        refine .tau hst (.visit ?_ (.refl _))
        simp only [step]
        rw [hfull]
      have hstep : step d eq c = (if s.klx > 127 then
          match s.lv, c.key.shift with
          | some (.layer n), some key =>
            .tau { c with key := key, root := n, stack := (c.root, A.length) :: c.stack, mode := .initial }
          | _, _ => .fail
        else if s.klx = 64 then
          match c.key.suffix with
          | none => .fail
          | some suf =>
            if d.suffixMatch (cmpBytes s.suf suf) eq then
              match c.key.storeSuffix s.suf, s.lv with
              | some (key, keylen), some (.val v) =>
                .tau { c with key := { key with len := keylen }, i := A.length, ki := (P.length : Int), mode := .emit v }
              | _, _ => .fail
            else .tau { c with i := A.length, ki := d.next (P.length : Int), mode := .findNext }
        else if eq then
          match s.lv with
          | some (.val v) => .tau { c with i := A.length, ki := (P.length : Int), mode := .emit v }
          | _ => .fail
        else .tau { c with i := A.length, ki := d.next (P.length : Int), mode := .findNext }) := by
        conv => lhs; unfold step
        rw [hmode]
        simp only [findInitial, hx.ikey, hroot, h1, hl, get_mid, hpos]
        rw [← hs]
        rfl
      rcases hok s hmem with ⟨k1, _, v, k4⟩ | ⟨k1, _, k4, v, k5⟩ | ⟨k1, _, n, k4⟩
      · -- whole key in the slot
        have hxl : x.length = s.klx := by omega
        have hkx : (ikeyBytes s.ikey).take s.klx = x := by
          rw [hik, Trie.ikeyBytes_slice, ← hxl, Trie.pad8_take (by omega)]
        have hsl : slotC s = [(x, v)] := by rw [Trie.slotC_val k4, if_pos k1, hkx]
        rw [if_neg (by omega), if_neg (by omega), k4] at hstep
        by_cases heq : eq = true
        · rw [if_pos heq] at hstep
          dsimp only at hstep
          refine report c.key v x hstep rfl rfl rfl ?_ (by rw [← hlk]) hsl (.inr ⟨rfl, heq⟩)
          unfold SKey.full
          rw [hx.len, if_pos hx.fits, hx.take (Nat.le_refl _), List.take_length]
        · rw [if_neg heq] at hstep
          refine skip hstep ?_
          rw [hsl]
          apply pick_none
          simp only [List.mem_singleton, forall_eq]
          rintro (h | ⟨_, h⟩)
          · cases d <;> exact Key.lexLt_irrefl _ h
          · exact heq h
      · -- a suffix
        have hxl : 8 < x.length := by omega
        have hx8 : ikeyBytes s.ikey = x.take 8 := by
          rw [hik, Trie.ikeyBytes_slice, Trie.pad8_full (by omega)]
        have hsl : slotC s = [(x.take 8 ++ s.suf, v)] := by
          rw [Trie.slotC_val k5, if_neg (by omega), hx8]
        have hsuf : c.key.suffix = some (x.drop 8) := by
          unfold SKey.suffix
          rw [hx.len, if_pos ⟨hxl, hx.fits⟩, hx.drop 8]
        have hcmp := cmpBytes_spec s.suf (x.drop 8)
        have haf : d.suffixMatch (cmpBytes s.suf (x.drop 8)) eq = true ↔ d.after eq x (x.take 8 ++ s.suf) := by
          have : d.after eq x (x.take 8 ++ s.suf) ↔ d.after eq (x.drop 8) s.suf := by
            conv => lhs; rw [← List.take_append_drop 8 x]
            rw [List.take_left' (by simp; omega)]
            exact after_append d eq _ _ _
          rw [this]
          cases d with
          | fwd => simp [Dir.suffixMatch, Dir.after, hcmp.2.2, hcmp.2.1]
          | rev => simp [Dir.suffixMatch, Dir.after, hcmp.1, hcmp.2.1]
        rw [if_neg (by omega), if_pos k1, hsuf] at hstep
        dsimp only at hstep
        by_cases hmat : d.suffixMatch (cmpBytes s.suf (x.drop 8)) eq = true
        · have hr : c.key.off + 8 + s.suf.length ≤ c.key.buf.length := by
            have := hsd.suf k1; have := room.2.2.1; omega
          rw [if_pos hmat, SKey.storeSuffix, store_ok hr, k5] at hstep
          simp only [Option.map_some] at hstep
          refine report _ v (x.take 8 ++ s.suf) hstep rfl (stored_length hr) ?_ ?_ ?_ hsl (haf.mp hmat)
          · exact stored_take hr (by omega)
          · unfold SKey.full
            dsimp only
            rw [stored_length hr, if_pos (by omega), show c.key.off + (8 + s.suf.length) = c.key.off + 8 + s.suf.length by omega,
              stored_upto hr, hx.take (by omega), List.append_assoc]
          · have := List.length_pos_iff.mpr k4
            simp only [SKey.lk, LKey.key, lkey, hx.ikey]
            congr 1; omega
        · rw [if_neg hmat] at hstep
          refine skip hstep ?_
          rw [hsl]
          apply pick_none
          simpa using fun h => hmat (haf.mpr h)
      · -- a layer
        have hxl : 8 < x.length := by omega
        have hx8 : ikeyBytes s.ikey = x.take 8 := by
          rw [hik, Trie.ikeyBytes_slice, Trie.pad8_full (by omega)]
        have hr8 := hsd.sub n k4
        have hshift : c.key.shift = some { c.key with off := c.key.off + 8, len := x.length - 8, ikey := slice (x.drop 8) } := by
          unfold SKey.shift
          rw [hx.len, if_pos ⟨hxl, hx.fits⟩, hx.drop 8]
        rw [if_pos (by omega), k4, hshift] at hstep
        dsimp only at hstep
        obtain ⟨c2, e1, e2, e3, e4⟩ := ih s hmem n k4 hr8.2
          { c with key := { c.key with off := c.key.off + 8, len := x.length - 8, ikey := slice (x.drop 8) }, root := n, stack := (c.root, A.length) :: c.stack, mode := .initial }
          (x.drop 8) rfl rfl hub (room.sub hr8.1)
          ⟨by have := hx.fits; simp only [List.length_drop]; omega,
           by simp only [List.length_drop]; exact hx.drop 8, by simp, rfl⟩
        have hp8 : c.key.buf.take (c.key.off + 8) = pre c ++ x.take 8 := hx.take (by omega)
        have hp2 : c2.key.buf.take (c.key.off + 8) = pre c ++ x.take 8 := by
          have := e2.pre
          unfold pre at this
          rw [e2.off] at this
          dsimp only at this
          rw [this]; exact hp8
        have hpl : (pre c).length = c.key.off := by
          unfold pre; rw [List.length_take]; have := hx.fits; omega
        have hstk : c2.stack = (t, A.length) :: c.stack := by rw [e2.stack]; dsimp only; rw [hroot]
        have hlen2 : c2.key.buf.length = c.key.buf.length := e2.len
        obtain ⟨c3, f1, f2, f3, f4, f5, f6, f7, f8⟩ := up_step ok hl q3 e3 hstk e2.off e4
          (by rw [hlen2]; exact room) (by rw [← hs]; exact k1)
          (by
            rw [← hs, List.take_drop, hp2, List.drop_left' hpl, Key.slice_take8, hik])
        refine conclude [s] hM c3 ?_ ⟨f2, f3, f4.trans hlen2, ?_⟩ (by rw [List.length_singleton, ← hgo]; exact f6) f8 (by rw [f7, ← hs]; exact q2)
        · rw [hC, Trie.slotC_layer k4, hx8]
          show Runs d eq c (under (pre c) (d.ord (d.pick eq x (under (x.take 8) (contents n))))) c3
          have : d.pick eq x (under (x.take 8) (contents n)) = under (x.take 8) (d.pick eq (x.drop 8) (contents n)) := by
            conv => lhs; rw [← List.take_append_drop 8 x]
            rw [List.take_left' (by simp; omega)]
            exact pick_under d eq _ _ _
          rw [this, ord_under, under_under]
          unfold pre at e1
          dsimp only at e1
          rw [hp8] at e1
          have := (Runs.tau hstep e1).trans f1
          simpa using this
        · unfold pre
          rw [f3, f5]
          have := congrArg (List.take c.key.off) hp2
          rw [List.take_take, Nat.min_eq_left (by omega), List.take_left' hpl] at this
          exact this

end Verif.Scan
