import Verif.Scan.Step

/-!
Walking through the leaves of a layer, and through whole layers.
-/
namespace Verif.Scan
open Verif.Permuter (Word size)
open Verif.Key (Bytes slice cmp3)
open Verif.Tree
open Verif.Trie (T LV ikeyBytes ikeyBytes_length WF Deep SlotOk slotC contents)
variable {V : Type}

/-- Entries of a list of leaves. -/
def ents (ls : List (Leaf (LV V))) : List (Slot (LV V)) := ls.flatMap fun l => leafEntries l.1 l.2

theorem ents_append (a b : List (Leaf (LV V))) : ents (a ++ b) = ents a ++ ents b := by simp [ents]
theorem ents_cons (l : Leaf (LV V)) (b : List (Leaf (LV V))) : ents (l :: b) = leafEntries l.1 l.2 ++ ents b := by
  simp [ents]

/-- The slots the scan has not passed. -/
def Dir.sel (d : Dir) (ub : Bool) (x : LKey) (L : List (Slot (LV V))) : List (Slot (LV V)) :=
  L.filter fun s => decide (d.wants ub x s)

theorem sel_append (d : Dir) (ub : Bool) (x : LKey) (L M : List (Slot (LV V))) :
    d.sel ub x (L ++ M) = d.sel ub x L ++ d.sel ub x M := by simp [Dir.sel]

theorem sel_all {d : Dir} {ub : Bool} {x : LKey} {L : List (Slot (LV V))} (h : ∀ s ∈ L, d.wants ub x s) :
    d.sel ub x L = L := by
  unfold Dir.sel; rw [List.filter_eq_self]; intro s hs; simpa using h s hs

theorem sel_none {d : Dir} {ub : Bool} {x : LKey} {L : List (Slot (LV V))} (h : ∀ s ∈ L, ¬ d.wants ub x s) :
    d.sel ub x L = [] := by
  unfold Dir.sel; rw [List.filter_eq_nil_iff]; intro s hs; simpa using h s hs

/-- The contents of slots in scan order, with the bytes before the layer. -/
def Dir.out (d : Dir) (p : Bytes) (L : List (Slot (LV V))) : List (Bytes × V) := under p (d.ord (L.flatMap slotC))

theorem out_fwd_append (p : Bytes) (L M : List (Slot (LV V))) :
    Dir.fwd.out p (L ++ M) = Dir.fwd.out p L ++ Dir.fwd.out p M := by
  simp [Dir.out, Dir.ord, under_append]

theorem out_rev_append (p : Bytes) (L M : List (Slot (LV V))) :
    Dir.rev.out p (L ++ M) = Dir.rev.out p M ++ Dir.rev.out p L := by
  simp [Dir.out, Dir.ord, under_append]

theorem out_one (d : Dir) (p : Bytes) (s : Slot (LV V)) : d.out p [s] = under p (d.ord (slotC s)) := by
  simp [Dir.out]

theorem out_nil (d : Dir) (p : Bytes) : d.out p ([] : List (Slot (LV V))) = [] := by
  cases d <;> rfl

theorem leafEntries_drop {l : Leaf (LV V)} {j : Nat} (hj : j < size l.1) :
    (leafEntries l.1 l.2).drop j = slotAt l.2 (Permuter.get l.1 j) :: (leafEntries l.1 l.2).drop (j + 1) := by
  rw [List.drop_eq_getElem_cons (by rw [leafEntries_length]; exact hj), leafEntries_get]

theorem leafEntries_take {l : Leaf (LV V)} {j : Nat} (hj : j < size l.1) :
    (leafEntries l.1 l.2).take (j + 1) = (leafEntries l.1 l.2).take j ++ [slotAt l.2 (Permuter.get l.1 j)] := by
  rw [List.take_succ_eq_append_getElem (by rw [leafEntries_length]; exact hj), leafEntries_get]

/-- What the walk ends with. -/
def Ends (d : Dir) (eq : Bool) (c : Cfg V) (L : List (Slot (LV V))) : Prop :=
  ∃ c', Runs d eq c (d.out (pre c) L) c' ∧ Fr c c' ∧ c'.mode = .up ∧ c'.ub = false

theorem Ends.tau {d : Dir} {eq : Bool} {c c1 : Cfg V} {L : List (Slot (LV V))} (h : step d eq c = .tau c1)
    (hf : Fr c c1) (he : Ends d eq c1 L) : Ends d eq c L := by
  obtain ⟨c', h1, h2, h3, h4⟩ := he
  rw [hf.pre] at h1
  exact ⟨c', .tau h h1, hf.trans h2, h3, h4⟩

theorem sorted_at {t : T V} (hw : WF t) {A : List (Leaf (LV V))} {l : Leaf (LV V)} {B : List (Leaf (LV V))}
    (hl : leavesOf t = A ++ l :: B) : SSorted (ents A ++ leafEntries l.1 l.2 ++ ents B) := by
  have := hw.inv.sorted_range.1
  rwa [entries_at hl] at this

/-- Ascending walk through the rest of one leaf. -/
theorem walk_fwd_leaf {eq : Bool} {r : Nat} {t : T V} (ok : LayerOk .fwd eq r t) {A B : List (Leaf (LV V))}
    {l : Leaf (LV V)} (hl : leavesOf t = A ++ l :: B)
    (hend : ∀ c : Cfg V, AtPos t A (size l.1) c → Room c.key.buf.length c.key.off r → c.ub = false →
      Ends .fwd eq c (Dir.fwd.sel c.ub c.key.lk (ents B))) :
    ∀ (m j : Nat) (c : Cfg V), m = size l.1 - j → j ≤ size l.1 → AtPos t A j c →
      Room c.key.buf.length c.key.off r → c.ub = false →
      Ends .fwd eq c (Dir.fwd.sel c.ub c.key.lk ((leafEntries l.1 l.2).drop j ++ ents B)) := by
  intro m
  induction m with
  | zero =>
    intro j c hm hj hat room hub
    obtain rfl : j = size l.1 := by omega
    have hd : (leafEntries l.1 l.2).drop (size l.1) = [] := by
      rw [List.drop_eq_nil_iff, leafEntries_length]; omega
    rw [hd, List.nil_append]
    exact hend c hat room hub
  | succ m ih =>
    intro j c hm hj hat room hub
    have hj' : j < size l.1 := by omega
    obtain ⟨h1, h2⟩ := slot_step ok hl hj' hat room
    rw [leafEntries_drop hj', List.cons_append]
    by_cases hw : Dir.fwd.wants c.ub c.key.lk (slotAt l.2 (Permuter.get l.1 j))
    · obtain ⟨c1, r1, r2, r3, r4, r5⟩ := h2 hw
      obtain ⟨c2, s1, s2, s3, s4⟩ := ih (j + 1) c1 (by omega) (by omega) r3 (by rw [r2.len, r2.off]; exact room) r5
      have hrest : ∀ s ∈ (leafEntries l.1 l.2).drop (j + 1) ++ ents B,
          KLt (slotAt l.2 (Permuter.get l.1 j)).key s.key := by
        have hso := sorted_at ok.wf hl
        rw [← List.take_append_drop j (leafEntries l.1 l.2), leafEntries_drop hj', List.append_assoc, List.append_assoc,
          ← List.append_assoc, SSorted, List.pairwise_append] at hso
        simpa using (List.pairwise_cons.mp hso.2.1).1
      have e1 : Dir.fwd.sel c.ub c.key.lk ((leafEntries l.1 l.2).drop (j + 1) ++ ents B)
          = (leafEntries l.1 l.2).drop (j + 1) ++ ents B := sel_all fun s hs => KLt.trans hw (hrest s hs)
      have e2 : Dir.fwd.sel c1.ub c1.key.lk ((leafEntries l.1 l.2).drop (j + 1) ++ ents B)
          = (leafEntries l.1 l.2).drop (j + 1) ++ ents B := sel_all fun s hs => by
        show KLt c1.key.lk.key s.key
        rw [r4]; exact hrest s hs
      rw [e2] at s1
      refine ⟨c2, ?_, r2.trans s2, s3, s4⟩
      rw [show ∀ L, Dir.fwd.sel c.ub c.key.lk (slotAt l.2 (Permuter.get l.1 j) :: L)
        = [slotAt l.2 (Permuter.get l.1 j)] ++ Dir.fwd.sel c.ub c.key.lk L by
          intro L; unfold Dir.sel; rw [List.filter_cons_of_pos (by simpa using hw)]; rfl, e1, out_fwd_append, out_one]
      rw [r2.pre] at s1
      exact r1.trans s1
    · obtain ⟨c1, r1, r2, r3, r4, r5⟩ := h1 hw
      obtain ⟨c2, s1, s2, s3, s4⟩ := ih (j + 1) c1 (by omega) (by omega) r3 (by rw [r2.len, r2.off]; exact room)
        (by rw [r5]; exact hub)
      refine ⟨c2, ?_, r2.trans s2, s3, s4⟩
      rw [show ∀ L, Dir.fwd.sel c.ub c.key.lk (slotAt l.2 (Permuter.get l.1 j) :: L) = Dir.fwd.sel c.ub c.key.lk L by
          intro L; unfold Dir.sel; rw [List.filter_cons_of_neg (by simpa using hw)]]
      rw [r2.pre, r4, r5] at s1
      simpa using r1.trans s1

/-- Ascending walk. -/
theorem walk_fwd {eq : Bool} {r : Nat} {t : T V} (ok : LayerOk .fwd eq r t) (B : List (Leaf (LV V))) :
    ∀ (A : List (Leaf (LV V))) (l : Leaf (LV V)), leavesOf t = A ++ l :: B →
    ∀ (j : Nat) (c : Cfg V), j ≤ size l.1 → AtPos t A j c →
      Room c.key.buf.length c.key.off r → c.ub = false →
      Ends .fwd eq c (Dir.fwd.sel c.ub c.key.lk ((leafEntries l.1 l.2).drop j ++ ents B)) := by
  induction B with
  | nil =>
    intro A l hl j c
    refine walk_fwd_leaf ok hl ?_ _ j c rfl
    intro c hat room hub
    refine ⟨{ c with mode := .up }, ?_, ⟨rfl, rfl, rfl, rfl⟩, rfl, hub⟩
    simp only [ents, List.flatMap_nil, Dir.sel, List.filter_nil, out_nil]
    refine .one ?_
    unfold step
    rw [hat.mode]
    simp only [findNext, hat.root, hat.i, hl, get_mid, hat.ki]
    rw [if_neg (by omega)]
    have : (A ++ [l])[A.length + 1]? = none := by simp
    rw [this]
  | cons l2 B ihB =>
    intro A l hl j c
    refine walk_fwd_leaf ok hl ?_ _ j c rfl
    intro c hat room hub
    have hl2 : leavesOf t = (A ++ [l]) ++ l2 :: B := by rw [hl]; simp
    obtain ⟨lo, hi, hla⟩ := leaf_at ok.wf hl2
    obtain ⟨P, Q, p1, p2, p3, p4⟩ := leafLower_spec c.key.lk hla.inv.sorted
    have hle : P.length ≤ size l2.1 := by
      rw [← leafEntries_length l2.1 l2.2]
      rcases p4 with ⟨_, e⟩ | ⟨_, _, _, e⟩ <;> rw [e] <;> simp
    have hstep : step .fwd eq c = .tau { c with i := c.i + 1, ki := (P.length : Int) } := by
      unfold step
      rw [hat.mode]
      simp only [findNext, hat.root, hat.i, hl, get_mid, hat.ki]
      rw [if_neg (by omega)]
      have : (A ++ l :: l2 :: B)[A.length + 1]? = some l2 := by
        rw [show A ++ l :: l2 :: B = (A ++ [l]) ++ l2 :: B by simp, show A.length + 1 = (A ++ [l]).length by simp, get_mid]
      rw [this]
      simp only [Dir.lower, Dir.lowerPos, p1, hat.mode]
    have hE := ihB (A ++ [l]) l2 hl2 P.length { c with i := c.i + 1, ki := (P.length : Int) } hle
      ⟨hat.root, by simp [hat.i], hat.mode, rfl⟩ room hub
    dsimp only at hE
    have : Dir.fwd.sel c.ub c.key.lk (ents (l2 :: B))
        = Dir.fwd.sel c.ub c.key.lk ((leafEntries l2.1 l2.2).drop P.length ++ ents B) := by
      rw [ents_cons, sel_append, sel_append]
      congr 1
      have hPQ : ∃ Q', leafEntries l2.1 l2.2 = P ++ Q' := by
        rcases p4 with ⟨_, e⟩ | ⟨_, _, _, e⟩ <;> exact ⟨_, e⟩
      obtain ⟨Q', e⟩ := hPQ
      rw [e, List.drop_left, sel_append, sel_none (L := P), List.nil_append]
      intro s hs h
      exact KLt.asymm (p2 s hs) h
    rw [this]
    exact Ends.tau hstep ⟨rfl, rfl, rfl, rfl⟩ hE

/-- Descending walk through the rest of one leaf. -/
theorem walk_rev_leaf {eq : Bool} {r : Nat} {t : T V} (ok : LayerOk .rev eq r t) {A B : List (Leaf (LV V))}
    {l : Leaf (LV V)} (hl : leavesOf t = A ++ l :: B)
    (hend : ∀ c : Cfg V, AtPos t A (-1) c → Room c.key.buf.length c.key.off r →
      (c.ub = false → A ≠ [] → ikeyBound l ≤ c.key.lk.ikey) →
      Ends .rev eq c (Dir.rev.sel c.ub c.key.lk (ents A))) :
    ∀ (j : Nat) (c : Cfg V), j ≤ size l.1 → AtPos t A ((j : Int) - 1) c →
      Room c.key.buf.length c.key.off r → (c.ub = false → A ≠ [] → ikeyBound l ≤ c.key.lk.ikey) →
      Ends .rev eq c (Dir.rev.sel c.ub c.key.lk (ents A ++ (leafEntries l.1 l.2).take j)) := by
  intro j
  induction j with
  | zero =>
    intro c hj hat room hb
    rw [List.take_zero, List.append_nil]
    exact hend c hat room hb
  | succ j ih =>
    intro c hj hat room hb
    have hj' : j < size l.1 := by omega
    have hat' : AtPos t A j c := ⟨hat.root, hat.i, hat.mode, by rw [hat.ki]; omega⟩
    obtain ⟨h1, h2⟩ := slot_step ok hl hj' hat' room
    rw [leafEntries_take hj', ← List.append_assoc]
    by_cases hw : Dir.rev.wants c.ub c.key.lk (slotAt l.2 (Permuter.get l.1 j))
    · obtain ⟨c1, r1, r2, r3, r4, r5⟩ := h2 hw
      have hb1 : c1.ub = false → A ≠ [] → ikeyBound l ≤ c1.key.lk.ikey := by
        intro _ hA
        obtain ⟨lo, hi, hla⟩ := leaf_at ok.wf hl
        have := (hla.inv.range _ (slot_mem hl hj').1).1
        rw [hla.lo_eq hA, loLe_some] at this
        have h3 : c1.key.lk.ikey = (slotAt l.2 (Permuter.get l.1 j)).ikey := congrArg Prod.fst r4
        omega
      obtain ⟨c2, s1, s2, s3, s4⟩ := ih c1 (by omega) r3 (by rw [r2.len, r2.off]; exact room) hb1
      have hrest : ∀ s ∈ ents A ++ (leafEntries l.1 l.2).take j,
          KLt s.key (slotAt l.2 (Permuter.get l.1 j)).key := by
        have hso := sorted_at ok.wf hl
        rw [← List.take_append_drop (j + 1) (leafEntries l.1 l.2), leafEntries_take hj',
          ← List.append_assoc, ← List.append_assoc, List.append_assoc, SSorted, List.pairwise_append] at hso
        intro s hs
        exact (List.pairwise_append.mp hso.1).2.2 s hs _ (by simp)
      have e1 : Dir.rev.sel c.ub c.key.lk (ents A ++ (leafEntries l.1 l.2).take j)
          = ents A ++ (leafEntries l.1 l.2).take j := sel_all fun s hs => by
        rcases hw with hw | hw
        · exact .inl hw
        · exact .inr (KLt.trans (hrest s hs) hw)
      have e2 : Dir.rev.sel c1.ub c1.key.lk (ents A ++ (leafEntries l.1 l.2).take j)
          = ents A ++ (leafEntries l.1 l.2).take j := sel_all fun s hs => by
        refine .inr ?_
        rw [r4]; exact hrest s hs
      rw [e2] at s1
      refine ⟨c2, ?_, r2.trans s2, s3, s4⟩
      rw [sel_append, sel_all (L := [slotAt l.2 (Permuter.get l.1 j)]) (by simpa using hw), e1, out_rev_append, out_one]
      rw [r2.pre] at s1
      exact r1.trans s1
    · obtain ⟨c1, r1, r2, r3, r4, r5⟩ := h1 hw
      obtain ⟨c2, s1, s2, s3, s4⟩ := ih c1 (by omega) r3 (by rw [r2.len, r2.off]; exact room) (by rw [r5, r4]; exact hb)
      refine ⟨c2, ?_, r2.trans s2, s3, s4⟩
      rw [sel_append, sel_none (L := [slotAt l.2 (Permuter.get l.1 j)]) (by simpa using hw), List.append_nil]
      rw [r2.pre, r4, r5] at s1
      simpa using r1.trans s1

/-- Descending walk. -/
theorem walk_rev {eq : Bool} {r : Nat} {t : T V} (ok : LayerOk .rev eq r t) :
    ∀ (n : Nat) (A B : List (Leaf (LV V))) (l : Leaf (LV V)), A.length = n → leavesOf t = A ++ l :: B →
    ∀ (j : Nat) (c : Cfg V), j ≤ size l.1 → AtPos t A ((j : Int) - 1) c →
      Room c.key.buf.length c.key.off r → (c.ub = false → A ≠ [] → ikeyBound l ≤ c.key.lk.ikey) →
      Ends .rev eq c (Dir.rev.sel c.ub c.key.lk (ents A ++ (leafEntries l.1 l.2).take j)) := by
  intro n
  induction n with
  | zero =>
    intro A B l hA hl
    refine walk_rev_leaf ok hl ?_
    intro c hat room hb
    obtain rfl : A = [] := List.length_eq_zero_iff.mp hA
    have h8 : c.key.off + (ikeyBytes (ikeyBound l)).length ≤ c.key.buf.length := by
      rw [ikeyBytes_length]; exact room.2.2.2
    obtain ⟨b, hb'⟩ : ∃ b, b = c.key.buf.take c.key.off ++ ikeyBytes (ikeyBound l)
      ++ c.key.buf.drop (c.key.off + (ikeyBytes (ikeyBound l)).length) := ⟨_, rfl⟩
    refine ⟨{ c with key := { c.key with buf := b, ikey := ikeyBound l, len := 0 }, ub := false, mode := .up }, ?_,
      ⟨rfl, rfl, ?_, ?_⟩, rfl, rfl⟩
    · simp only [ents, List.flatMap_nil, Dir.sel, List.filter_nil, out_nil]
      refine .one ?_
      unfold step
      rw [hat.mode]
      simp only [findNext, hat.root, hat.i, hl, get_mid, hat.ki]
      rw [if_neg (by omega)]
      simp only [SKey.storeIkey, store_ok h8, Option.map_some, List.length_nil, if_true, hb']
    · dsimp only; rw [hb', stored_length h8]
    · show b.take c.key.off = _
      rw [hb', stored_take h8 (Nat.le_refl _)]; rfl
  | succ n ih =>
    intro A B l hA hl
    refine walk_rev_leaf ok hl ?_
    intro c hat room hb
    obtain ⟨A1, l1, rfl⟩ : ∃ A1 l1, A = A1 ++ [l1] := by
      have : A ≠ [] := by rintro rfl; simp at hA
      exact ⟨A.dropLast, A.getLast this, (List.dropLast_concat_getLast this).symm⟩
    have hA1 : A1.length = n := by simpa using hA
    have hl1 : leavesOf t = A1 ++ l1 :: (l :: B) := by rw [hl]; simp
    obtain ⟨lo, hi, hla⟩ := leaf_at ok.wf hl
    obtain ⟨lo1, hi1, hla1⟩ := leaf_at ok.wf hl1
    have hlo := hla.lo_eq (by simp)
    have hhi1 := hla1.hi_eq l B rfl
    have h8 : c.key.off + (ikeyBytes (ikeyBound l)).length ≤ c.key.buf.length := by
      rw [ikeyBytes_length]; exact room.2.2.2
    obtain ⟨b, hb'⟩ : ∃ b, b = c.key.buf.take c.key.off ++ ikeyBytes (ikeyBound l)
      ++ c.key.buf.drop (c.key.off + (ikeyBytes (ikeyBound l)).length) := ⟨_, rfl⟩
    -- all entries to the left are below the new key
    have hleft : ∀ s ∈ ents (A1 ++ [l1]), s.ikey < ikeyBound l := by
      intro s hs
      unfold ents at hs
      obtain ⟨a, ha, hs⟩ := List.mem_flatMap.mp hs
      obtain ⟨b, h1, h2⟩ := hla.left a ha s hs
      rw [hlo] at h1
      simp only [Option.some.injEq] at h1
      omega
    have hkey : ∀ s ∈ ents (A1 ++ [l1]), KLt s.key (⟨ikeyBound l, 0⟩ : LKey).key := fun s hs => .inl (hleft s hs)
    have hlower : ∀ ub, Dir.rev.lower ub ⟨ikeyBound l, 0⟩ l1 = (size l1.1 : Int) - 1 := by
      intro ub
      unfold Dir.lower
      cases ub
      · obtain ⟨P, Q, p1, p2, p3, p4⟩ := leafLower_spec (⟨ikeyBound l, 0⟩ : LKey) hla1.inv.sorted
        have hno : ∀ s ∈ leafEntries l1.1 l1.2, KLt s.key (⟨ikeyBound l, 0⟩ : LKey).key :=
          fun s hs => hkey s (by rw [ents_append]; simp [ents, hs])
        rcases p4 with ⟨q1, q2⟩ | ⟨q1, q2, q3, q4⟩
        · have hQ : Q = [] := by
            rw [List.eq_nil_iff_forall_not_mem]
            intro s hs
            exact KLt.asymm (p3 s hs) (hno s (by rw [q2]; simp [hs]))
          have : size l1.1 = P.length := by
            rw [← leafEntries_length l1.1 l1.2, q2, hQ]; simp
          simp [Dir.lowerPos, p1, q1, this]
        · exact absurd q2 (KLt.ne (hno _ (by rw [q4]; simp)))
      · simp
    have hstab : Dir.rev.stable ⟨ikeyBound l, 0⟩ (A1 ++ [l1] ++ l :: B) A1.length = A1.length := by
      rw [show A1 ++ [l1] ++ l :: B = A1 ++ l1 :: (l :: B) by simp]
      apply stable_at
      intro l2 B' e
      simp only [List.cons.injEq] at e
      rw [← e.1]
      exact .inr ⟨rfl, rfl⟩
    obtain ⟨c1, hc1⟩ : ∃ c1 : Cfg V, c1 = { c with key := { c.key with buf := b, ikey := ikeyBound l, len := 0 }, i := A1.length, ki := (size l1.1 : Int) - 1 } := ⟨_, rfl⟩
    have hstep : step .rev eq c = .tau c1 := by
      unfold step
      rw [hat.mode]
      simp only [findNext, hat.root, hat.i, hl, get_mid, hat.ki]
      rw [if_neg (by omega)]
      simp only [SKey.storeIkey, store_ok h8, Option.map_some, ← hb', SKey.lk]
      rw [if_neg (by simp)]
      rw [show (A1 ++ [l1]).length - 1 = A1.length by simp, hstab]
      have : (A1 ++ [l1] ++ l :: B)[A1.length]? = some l1 := by
        rw [show A1 ++ [l1] ++ l :: B = A1 ++ l1 :: (l :: B) by simp, get_mid]
      rw [this]
      simp only [hlower, hc1, hat.mode, hat.root]
    have hfr : Fr c c1 := by
      rw [hc1]
      refine ⟨rfl, rfl, ?_, ?_⟩
      · dsimp only; rw [hb', stored_length h8]
      · show b.take c.key.off = _
        rw [hb', stored_take h8 (Nat.le_refl _)]; rfl
    have hlk1 : c1.key.lk = ⟨ikeyBound l, 0⟩ := by rw [hc1]; rfl
    have hE := ih A1 (l :: B) l1 hA1 hl1 (size l1.1) c1 (Nat.le_refl _)
      (by rw [hc1]; exact ⟨hat.root, rfl, hat.mode, rfl⟩) (by rw [hfr.len, hfr.off]; exact room)
      (by
        intro _ hne
        rw [hlk1]
        have h1 := hla1.lo_eq hne
        have := hla1.nonempty _ hhi1
        rw [h1, loLt_some] at this
        exact Nat.le_of_lt this)
    have hall : ents A1 ++ (leafEntries l1.1 l1.2).take (size l1.1) = ents (A1 ++ [l1]) := by
      rw [List.take_of_length_le (by rw [leafEntries_length]; exact Nat.le_refl _), ents_append]
      simp [ents]
    rw [hall, sel_all (d := .rev) (fun s hs => show _ ∨ _ from .inr (by rw [hlk1]; exact hkey s hs))] at hE
    rw [sel_all (fun s hs => by
      cases hub : c.ub with
      | true => exact .inl rfl
      | false =>
        have := hb hub (by simp)
        have := hleft s hs
        exact .inr (.inl (by
          show s.ikey < c.key.lk.ikey
          omega)))]
    exact Ends.tau hstep hfr hE

/-! ### Whole layers -/

theorem contents_out (d : Dir) (t : T V) (p : Bytes) : d.out p (entries t) = under p (d.ord (contents t)) := by
  rw [Trie.contents_eq]; rfl

theorem enter_of_ok {d : Dir} {eq : Bool} {r : Nat} {t : T V} (ok : LayerOk d eq r t) (hd : Deep r true t) :
    Enter d eq r t := by
  intro c hroot hmode room hub
  cases d with
  | fwd =>
    obtain ⟨A, l, B, hl, h1, h2, h3⟩ := reachIdx_spec 0 t ok.wf.inv ⟨trivial, by simp [Trie.top]⟩
    obtain ⟨lo, hi, hla⟩ := leaf_at ok.wf hl
    obtain ⟨P, Q, p1, p2, p3, p4⟩ := leafLower_spec (⟨0, 0⟩ : LKey) hla.inv.sorted
    have hA : ents A = [] := by
      rw [List.eq_nil_iff_forall_not_mem]
      intro s hs
      obtain ⟨a, ha, hs⟩ := List.mem_flatMap.mp hs
      obtain ⟨b, q1, q2⟩ := hla.left a ha s hs
      have hne : A ≠ [] := List.ne_nil_of_mem ha
      rw [hla.lo_eq hne] at q1
      have := h2 (.inl hne)
      simp only [Option.some.injEq] at q1
      omega
    have hP : P = [] := by
      rw [List.eq_nil_iff_forall_not_mem]
      intro s hs
      have := p2 s hs
      simp [KLt, LKey.key] at this
    have hstep : step .fwd eq c = .tau { c with key := { c.key with ikey := 0, len := 0, off := c.key.off + 8 }, i := A.length, ki := 0, mode := .findNext } := by
      unfold step
      rw [hmode]
      simp only [hroot, h1, hl, get_mid, Dir.lower, Dir.lowerPos, SKey.lk, p1, hP]
      rfl
    obtain ⟨c', g1, g2, g3, g4⟩ := walk_fwd ok B A l hl 0
      { c with key := { c.key with ikey := 0, len := 0, off := c.key.off + 8 }, i := A.length, ki := 0, mode := .findNext }
      (Nat.zero_le _) ⟨hroot, rfl, rfl, rfl⟩ room hub
    refine ⟨c', .tau hstep ?_, g3, g2.stack, g2.off, g2.len, ?_, g4⟩
    · rw [← contents_out, entries_at hl]
      rw [List.drop_zero] at g1
      rw [sel_all] at g1
      · rw [show (A.flatMap fun l => leafEntries l.1 l.2) = [] from hA, List.nil_append]; exact g1
      · intro s hs
        have hs' : s ∈ entries t := by
          rw [entries_at hl, List.append_assoc]; exact List.mem_append_right _ hs
        have := (hd.slot hs').nonempty rfl
        simp only [Dir.wants, SKey.lk, LKey.key, KLt, Slot.key]
        omega
    · have := g2.pre
      unfold pre at this
      dsimp only at this
      rw [g2.off] at this
      exact this
  | rev =>
    obtain ⟨A, l, B, hl, h1, h2, h3⟩ := reachIdx_spec (2 ^ 64 - 1) t ok.wf.inv ⟨trivial, by simp [Trie.top]⟩
    have hB : B = [] := by
      cases B with
      | nil => rfl
      | cons l2 B' =>
        exfalso
        have h4 := h3 l2 B' rfl
        obtain ⟨lo, hi, hla⟩ := leaf_at ok.wf (A := A ++ [l]) (l := l2) (B := B') (by rw [hl]; simp)
        rcases hla.lt_top _ (hla.lo_eq (by simp)) with h | h
        · simp only [Trie.top, ltHi_some] at h
          omega
        · simp at h
    subst hB
    have hstep : step .rev eq c = .tau { c with key := { c.key with ikey := 2 ^ 64 - 1, len := 9, off := c.key.off + 8 }, i := A.length, ki := (size l.1 : Int) - 1, ub := true, mode := .findNext } := by
      unfold step
      rw [hmode]
      simp only [hroot, h1, hl, get_mid, Dir.lower, if_true]
    obtain ⟨c', g1, g2, g3, g4⟩ := walk_rev ok A.length A [] l rfl hl (size l.1)
      { c with key := { c.key with ikey := 2 ^ 64 - 1, len := 9, off := c.key.off + 8 }, i := A.length, ki := (size l.1 : Int) - 1, ub := true, mode := .findNext }
      (Nat.le_refl _) ⟨hroot, rfl, rfl, rfl⟩ room (by simp)
    refine ⟨c', .tau hstep ?_, g3, g2.stack, g2.off, g2.len, ?_, g4⟩
    · rw [← contents_out, entries_at hl]
      rw [List.take_of_length_le (by rw [leafEntries_length]; exact Nat.le_refl _),
        sel_all (d := .rev) (fun s _ => show _ ∨ _ from .inl rfl)] at g1
      simpa [ents, pre] using g1
    · have := g2.pre
      unfold pre at this
      dsimp only at this
      rw [g2.off] at this
      exact this

/-- Every layer of the tree can be scanned. -/
theorem enter_all {d : Dir} {eq : Bool} {t : T V} (hw : WF t) :
    ∀ {r : Nat} {ne : Bool}, Deep r ne t → LayerOk d eq r t := by
  induction hw with
  | mk t inv ok sub ih =>
    intro r ne hd
    refine ⟨⟨_, inv, ok, sub⟩, ⟨ne, hd⟩, ?_⟩
    intro s hs n hn
    have h := (hd.sub s hs n hn).2
    exact enter_of_ok (ih s hs n hn h) h

end Verif.Scan
