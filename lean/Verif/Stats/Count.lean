import Verif.Stats.Model

/-!
What the statistics count.
-/
namespace Verif.Stats
open Verif.Permuter (Word used)
open Verif.Key (Bytes)
open Verif.Tree
open Verif.Trie
variable {V : Type}

/-- A key with its layer and whether it is stored with a suffix. -/
structure Item (V : Type) where
  key : Bytes
  val : V
  layer : Nat
  suf : Bool

/-- The item seen from the layer above. -/
def Item.lift (ikey : Nat) (e : Item V) : Item V := ⟨ikeyBytes ikey ++ e.key, e.val, e.layer + 1, e.suf⟩

mutual
/-- All keys of a table, as `contents`, with their places. -/
def full : T V → List (Item V)
  | .null => []
  | .leaf perm slots => (used perm).flatMap fun p => (fullSlots slots).getD p []
  | .inode _ _ kids => fullL kids
def fullL : List (Node (LV V)) → List (Item V)
  | [] => []
  | c :: cs => full c ++ fullL cs
def fullSlots : List (Slot (LV V)) → List (List (Item V))
  | [] => []
  | s :: r => fullSlot s :: fullSlots r
def fullSlot : Slot (LV V) → List (Item V)
  | ⟨ikey, klx, suf, lv⟩ => fullOpt ikey klx suf lv
def fullOpt (ikey klx : Nat) (suf : Bytes) : Option (LV V) → List (Item V)
  | none => []
  | some x => fullLV ikey klx suf x
def fullLV (ikey klx : Nat) (suf : Bytes) : LV V → List (Item V)
  | .val v => [⟨if klx ≤ 8 then (ikeyBytes ikey).take klx else ikeyBytes ikey ++ suf, v, 0, klx == 64⟩]
  | .layer n => (full n).map (Item.lift ikey)
end

theorem fullSlot_val {s : Slot (LV V)} {v : V} (h : s.lv = some (.val v)) :
    fullSlot s = [⟨if s.klx ≤ 8 then (ikeyBytes s.ikey).take s.klx else ikeyBytes s.ikey ++ s.suf, v, 0, s.klx == 64⟩] := by
  obtain ⟨ikey, klx, suf, lv⟩ := s
  simp only at h
  subst h
  simp [fullSlot, fullOpt, fullLV]

theorem fullSlot_layer {s : Slot (LV V)} {n : T V} (h : s.lv = some (.layer n)) :
    fullSlot s = (full n).map (Item.lift s.ikey) := by
  obtain ⟨ikey, klx, suf, lv⟩ := s
  simp only at h
  subst h
  simp [fullSlot, fullOpt, fullLV]

theorem nestedSlot_val {s : Slot (LV V)} {v : V} (h : s.lv = some (.val v)) : nestedSlot s = [] := by
  obtain ⟨ikey, klx, suf, lv⟩ := s
  simp only at h
  subst h
  simp [nestedSlot, nestedOpt, nestedLV]

theorem nestedSlot_layer {s : Slot (LV V)} {n : T V} (h : s.lv = some (.layer n)) :
    nestedSlot s = n :: nested n := by
  obtain ⟨ikey, klx, suf, lv⟩ := s
  simp only at h
  subst h
  simp [nestedSlot, nestedOpt, nestedLV]

theorem fullSlots_getD (slots : List (Slot (LV V))) (p : Nat) :
    (fullSlots slots).getD p [] = fullSlot (slotAt slots p) := by
  induction slots generalizing p with
  | nil => simp [fullSlots, slotAt, fullSlot, fullOpt, default]
  | cons s r ih =>
    cases p with
    | zero => simp [fullSlots, slotAt]
    | succ p => simpa [fullSlots, slotAt] using ih p

theorem nestedSlots_getD (slots : List (Slot (LV V))) (p : Nat) :
    (nestedSlots slots).getD p [] = nestedSlot (slotAt slots p) := by
  induction slots generalizing p with
  | nil => simp [nestedSlots, slotAt, nestedSlot, nestedOpt, default]
  | cons s r ih =>
    cases p with
    | zero => simp [nestedSlots, slotAt]
    | succ p => simpa [nestedSlots, slotAt] using ih p

theorem walkSlots_getD (slots : List (Slot (LV V))) (p layer : Nat) (a : Rep × Nat) :
    (walkSlots slots).getD p (fun layer a => some (noteKey layer 0 [] a)) layer a
      = walkSlot (slotAt slots p) layer a := by
  induction slots generalizing p with
  | nil => simp [walkSlots, slotAt, walkSlot, default]
  | cons s r ih =>
    cases p with
    | zero => simp [walkSlots, slotAt]
    | succ p => simpa [walkSlots, slotAt] using ih p

theorem treeSlots_getD (slots : List (Slot (LV V))) (p height : Nat) (c : Nat → Nat) :
    (treeSlots slots).getD p (fun height c => some (inc c height 1)) height c
      = treeSlot (slotAt slots p) height c := by
  induction slots generalizing p with
  | nil => simp [treeSlots, slotAt, treeSlot, treeOpt, default]
  | cons s r ih =>
    cases p with
    | zero => simp [treeSlots, slotAt]
    | succ p => simpa [treeSlots, slotAt] using ih p

theorem full_eq (t : T V) : full t = (entries t).flatMap fullSlot := by
  induction t using Node.ind with
  | h0 => simp [full, entries]
  | h1 p s =>
    simp only [full, entries, leafEntries, List.flatMap_map]
    congr 1
    funext q
    exact fullSlots_getD s q
  | h2 ht keys kids ih =>
    simp only [full, entries]
    induction kids with
    | nil => simp [fullL, entriesL]
    | cons c cs ihc =>
      simp only [fullL, entriesL, List.flatMap_append]
      rw [ih c (by simp), ihc (fun d hd => ih d (by simp [hd]))]

theorem nested_eq (t : T V) : nested t = (entries t).flatMap nestedSlot := by
  induction t using Node.ind with
  | h0 => simp [nested, entries]
  | h1 p s =>
    simp only [nested, entries, leafEntries, List.flatMap_map]
    congr 1
    funext q
    exact nestedSlots_getD s q
  | h2 ht keys kids ih =>
    simp only [nested, entries]
    induction kids with
    | nil => simp [nestedL, entriesL]
    | cons c cs ihc =>
      simp only [nestedL, entriesL, List.flatMap_append]
      rw [ih c (by simp), ihc (fun d hd => ih d (by simp [hd]))]

theorem flatMap_congr' {α β : Type} {f g : α → List β} : ∀ {l : List α}, (∀ x ∈ l, f x = g x) → l.flatMap f = l.flatMap g
  | [], _ => rfl
  | x :: xs, h => by
    rw [List.flatMap_cons, List.flatMap_cons, h x (by simp), flatMap_congr' fun y hy => h y (by simp [hy])]

/-- Without the places the items are the contents. -/
theorem full_contents {t : T V} (hw : WF t) : (full t).map (fun e => (e.key, e.val)) = contents t := by
  induction hw with
  | mk t inv ok sub ih =>
    rw [full_eq, contents_eq, List.map_flatMap]
    apply flatMap_congr'
    intro s hs
    rcases ok s hs with ⟨h1, -, v', h4⟩ | ⟨h1, -, h4, v', h5⟩ | ⟨h1, -, n, h4⟩
    · rw [fullSlot_val h4, slotC_val h4]; simp
    · rw [fullSlot_val h5, slotC_val h5]; simp
    · rw [fullSlot_layer h4, slotC_layer h4, ← ih s hs n h4, List.map_map, List.map_map]
      rfl

/-! ### The report is a sum -/

instance : Add Rep := ⟨fun a b => {
  size := a.size + b.size, l1size := a.l1size + b.l1size, l1sum := a.l1sum + b.l1sum,
  l1count := a.l1count + b.l1count, byLayer := fun i => a.byLayer i + b.byLayer i,
  byLength := fun i => a.byLength i + b.byLength i }⟩

theorem Rep.add_def (a b : Rep) : a + b = {
    size := a.size + b.size, l1size := a.l1size + b.l1size, l1sum := a.l1sum + b.l1sum,
    l1count := a.l1count + b.l1count, byLayer := fun i => a.byLayer i + b.byLayer i,
    byLength := fun i => a.byLength i + b.byLength i } := rfl

/-- Length of a key as the report sees it, from layer `layer` on. -/
def Item.seen (e : Item V) : Nat := e.key.length + if e.suf then 55 else 0

/-- What a part of the table with these keys and this number of nested layers adds to the report. -/
def tot (layer : Nat) (F : List (Item V)) (c : Nat) : Rep where
  size := F.length
  l1size := F.countP fun e => e.layer == 0
  l1sum := F.countP fun e => e.layer != 0
  l1count := c
  byLayer i := F.countP fun e => layer + e.layer == i
  byLength i := F.countP fun e => 8 * layer + e.seen == i

theorem tot_nil (layer : Nat) (r : Rep) : r + tot layer ([] : List (Item V)) 0 = r := by
  rw [Rep.add_def]; simp [tot]

theorem tot_append (layer : Nat) (r : Rep) (F G : List (Item V)) (c d : Nat) :
    r + tot layer (F ++ G) (c + d) = r + tot layer F c + tot layer G d := by
  simp only [Rep.add_def, tot, List.length_append, List.countP_append]
  ext <;> simp <;> omega

theorem countP_split (F : List (Item V)) :
    F.length = (F.countP fun e => e.layer == 0) + F.countP fun e => e.layer != 0 := by
  have := List.length_eq_countP_add_countP (fun e : Item V => e.layer == 0) (l := F)
  rw [this]
  congr 1
  apply List.countP_congr
  intro e _
  simp

theorem noteLeaf_zero (layer : Nat) (r : Rep) : noteLeaf layer (r, 0) = r := by
  unfold noteLeaf inc
  ext <;> simp

/-- What one slot adds. -/
theorem walkSlot_spec {s : Slot (LV V)} (hok : SlotOk s) (layer : Nat) (a : Rep × Nat)
    (ih : ∀ n, s.lv = some (.layer n) → ∀ layer r, walk n layer r = some (r + tot layer (full n) (nested n).length)) :
    ∃ a', walkSlot s layer a = some a' ∧
      noteLeaf layer a' = noteLeaf layer a + tot layer (fullSlot s) (nestedSlot s).length := by
  rcases hok with ⟨h1, ⟨b, h2, h3⟩, v, h4⟩ | ⟨h1, ⟨b, h2, h3⟩, h4, v, h5⟩ | ⟨h1, -, n, h4⟩
  · refine ⟨noteKey layer s.klx s.suf a, ?_, ?_⟩
    · obtain ⟨ikey, klx, suf, lv⟩ := s
      simp only at h1
      simp only [walkSlot]
      rw [if_neg (by omega)]
    · rw [fullSlot_val h4, nestedSlot_val h4]
      have e1 : ¬ s.klx = 64 := by omega
      have e2 : min s.klx 8 = s.klx := by omega
      ext <;> simp [noteKey, noteLeaf, inc, tot, Rep.add_def, Item.seen, h1, e1, e2, ikeyBytes_length,
        List.countP_cons] <;> grind
  · refine ⟨noteKey layer s.klx s.suf a, ?_, ?_⟩
    · obtain ⟨ikey, klx, suf, lv⟩ := s
      simp only at h1
      simp only [walkSlot]
      rw [if_neg (by omega)]
    · rw [fullSlot_val h5, nestedSlot_val h5]
      have e1 : ¬ s.klx ≤ 8 := by omega
      ext <;> simp [noteKey, noteLeaf, inc, tot, Rep.add_def, Item.seen, h1, ikeyBytes_length,
        List.countP_cons] <;> grind
  · have hw := ih n h4 (layer + 1) { a.1 with l1size := 0 }
    generalize hr : ({ a.1 with l1size := 0 } : Rep) + tot (layer + 1) (full n) (nested n).length = r at hw
    refine ⟨({ r with l1sum := r.l1sum + r.l1size, l1size := a.1.l1size, l1count := r.l1count + 1 }, a.2), ?_, ?_⟩
    · obtain ⟨ikey, klx, suf, lv⟩ := s
      simp only at h1 h4
      subst h4
      simp only [walkSlot, walkOpt, walkLV]
      rw [if_pos (by omega), hw, Option.map_some]
    · subst hr
      rw [fullSlot_layer h4, nestedSlot_layer h4]
      have hsp := countP_split (full n)
      have e0 : ∀ F : List (Item V), (F.map (Item.lift s.ikey)).countP (fun e => e.layer == 0) = 0 := by
        intro F; rw [List.countP_map, List.countP_eq_zero]; simp [Item.lift]
      have e1 : ∀ F : List (Item V), (F.map (Item.lift s.ikey)).countP (fun e => e.layer != 0) = F.length := by
        intro F; rw [List.countP_map, List.countP_eq_length]; simp [Item.lift]
      have e2 : ∀ i, ((full n).map (Item.lift s.ikey)).countP (fun e => layer + e.layer == i)
          = (full n).countP (fun e => layer + 1 + e.layer == i) := by
        intro i; rw [List.countP_map]; congr 1; funext e; simp [Item.lift, Nat.add_comm, Nat.add_left_comm]
      have e3 : ∀ i, ((full n).map (Item.lift s.ikey)).countP (fun e => 8 * layer + e.seen == i)
          = (full n).countP (fun e => 8 * (layer + 1) + e.seen == i) := by
        intro i; rw [List.countP_map]; congr 1; funext e
        have : 8 * layer + (Item.lift s.ikey e).seen = 8 * (layer + 1) + e.seen := by
          obtain ⟨k, v, l, b⟩ := e
          cases b <;> simp [Item.lift, Item.seen, ikeyBytes_length] <;> omega
        simp [this]
      ext
      all_goals simp only [noteLeaf, inc, tot, Rep.add_def, e0, e1, e2, e3, List.length_map, List.length_cons]
      all_goals grind

theorem walk_slots (perm : List Nat) (slots : List (Slot (LV V))) (layer : Nat) : ∀ a : Rep × Nat,
    (∀ s ∈ perm.map (slotAt slots), SlotOk s) →
    (∀ s ∈ perm.map (slotAt slots), ∀ n, s.lv = some (.layer n) →
      ∀ layer r, walk n layer r = some (r + tot layer (full n) (nested n).length)) →
    ∃ a', perm.foldlM (fun a p => walkSlot (slotAt slots p) layer a) a = some a' ∧
      noteLeaf layer a' = noteLeaf layer a + tot layer ((perm.map (slotAt slots)).flatMap fullSlot)
        ((perm.map (slotAt slots)).flatMap nestedSlot).length := by
  induction perm with
  | nil => intro a _ _; exact ⟨a, rfl, (tot_nil _ _).symm⟩
  | cons p ps ih =>
    intro a hok hih
    obtain ⟨a1, h1, h2⟩ := walkSlot_spec (hok (slotAt slots p) (by simp)) layer a (hih _ (by simp))
    obtain ⟨a2, h3, h4⟩ := ih a1 (fun s hs => hok s (by simp only [List.map_cons, List.mem_cons]; exact .inr hs))
      (fun s hs => hih s (by simp only [List.map_cons, List.mem_cons]; exact .inr hs))
    refine ⟨a2, ?_, ?_⟩
    · rw [List.foldlM_cons, h1]; exact h3
    · rw [h4, h2, List.map_cons, List.flatMap_cons, List.flatMap_cons, List.length_append, tot_append]

theorem walk_spec {t : T V} (hw : WF t) : ∀ layer r,
    walk t layer r = some (r + tot layer (full t) (nested t).length) := by
  induction hw with
  | mk t inv ok sub ih =>
    clear inv sub
    induction t using Node.ind with
    | h0 => intro layer r; simp only [walk, full, nested, List.length_nil, tot_nil]
    | h1 perm slots =>
      intro layer r
      obtain ⟨a', h1, h2⟩ := walk_slots (used perm) slots layer (r, 0) ok ih
      simp only [walk, walkSlots_getD]
      rw [h1, Option.map_some, h2, noteLeaf_zero, full_eq, nested_eq]
      rfl
    | h2 ht keys kids ihk =>
      simp only [walk, full, nested]
      simp only [entries] at ok ih
      induction kids with
      | nil => intro layer r; simp only [walkL, fullL, nestedL, List.length_nil, tot_nil]
      | cons c cs ihc =>
        intro layer r
        simp only [entriesL, List.mem_append] at ok ih
        simp only [walkL, fullL, nestedL, List.length_append]
        rw [ihk c (by simp) (fun s hs => ok s (.inl hs)) (fun s hs => ih s (.inl hs)), Option.bind_some,
          ihc (fun d hd => ihk d (by simp [hd])) (fun s hs => ok s (.inr hs)) (fun s hs => ih s (.inr hs)),
          tot_append]

/-! ### Where lookups find the items -/

theorem mem_full_contents {t : T V} (hw : WF t) {e : Item V} (he : e ∈ full t) : (e.key, e.val) ∈ contents t := by
  rw [← full_contents hw]
  exact List.mem_map.mpr ⟨e, he, rfl⟩

theorem place_full {r : Nat} {ne : Bool} {t : T V} (hw : WF t) (hd : Deep r ne t) : ∀ e ∈ full t,
    place e.key t = some (e.layer, e.suf) := by
  induction hw generalizing r ne with
  | mk t inv ok sub ih =>
    have hw : WF t := ⟨_, inv, ok, sub⟩
    intro e h
    rw [full_eq, List.mem_flatMap] at h
    obtain ⟨s, hs, he⟩ := h
    have hc : (e.key, e.val) ∈ slotC s := by
      rcases ok s hs with ⟨h1, -, v', h4⟩ | ⟨h1, -, h4, v', h5⟩ | ⟨h1, -, n, h4⟩
      · rw [fullSlot_val h4, List.mem_singleton] at he
        rw [slotC_val h4, he]; simp
      · rw [fullSlot_val h5, List.mem_singleton] at he
        rw [slotC_val h5, he]; simp
      · rw [fullSlot_layer h4] at he
        obtain ⟨e', he', rfl⟩ := List.mem_map.mp he
        rw [slotC_layer h4]
        exact List.mem_map.mpr ⟨_, mem_full_contents (sub s hs n h4) he', rfl⟩
    have hkey := slotC_key' hw hd hs hc
    have hm := matching_self hw hs hkey
    rw [place, find_spec _ inv, hm]
    simp only [List.head?_cons]
    rcases ok s hs with ⟨h1, -, v', h4⟩ | ⟨h1, -, h4, v', h5⟩ | ⟨h1, -, n, h4⟩
    · rw [fullSlot_val h4, List.mem_singleton] at he
      have e1 : (s.klx == 64) = false := by simp; omega
      rw [if_pos (by omega), he, e1]
    · rw [fullSlot_val h5, List.mem_singleton] at he
      have e2 : e.key.drop 8 = s.suf := by
        rw [he]; simp only
        rw [if_neg (show ¬ s.klx ≤ 8 by omega), List.drop_left' (ikeyBytes_length _)]
      rw [if_neg (by omega), if_neg (by omega), e2, if_pos rfl, he]
      simp [h1]
    · rw [fullSlot_layer h4] at he
      obtain ⟨e', he', rfl⟩ := List.mem_map.mp he
      obtain ⟨d1, d2⟩ := hd.sub s hs n h4
      have hne := List.length_pos_iff.mpr (contents_nonempty (sub s hs n h4) d2 _ (mem_full_contents (sub s hs n h4) he'))
      have hl : 8 < (Item.lift s.ikey e').key.length := by
        simp only [Item.lift, List.length_append, ikeyBytes_length]; simp only at hne; omega
      rw [if_neg (by omega), if_pos h1, dif_pos hl, h4]
      simp only
      have : (Item.lift s.ikey e').key.drop 8 = e'.key := List.drop_left' (ikeyBytes_length _)
      rw [this, ih s hs n h4 d2 e' he']
      rfl

/-! ### Heights -/

theorem tree_slot {s : Slot (LV V)} (hok : SlotOk s) (height : Nat) (c : Nat → Nat)
    (ih : ∀ n, s.lv = some (.layer n) → ∀ height c, ∃ L : List Nat,
      tree n height c = some (fun i => c i + L.count i) ∧ L.length = (full n).length) :
    ∃ L : List Nat, treeSlot s height c = some (fun i => c i + L.count i) ∧ L.length = (fullSlot s).length := by
  have key : some (inc c height 1) = some (fun i => c i + [height].count i) := by
    congr 1; funext i; unfold inc; simp only [List.count_singleton]; grind
  rcases hok with ⟨h1, -, v, h4⟩ | ⟨h1, -, -, v, h4⟩ | ⟨h1, -, n, h4⟩
  · refine ⟨[height], ?_, by rw [fullSlot_val h4]; simp⟩
    obtain ⟨ikey, klx, suf, lv⟩ := s
    simp only at h1 h4
    subst h4
    simp only [treeSlot, treeOpt, treeLV]
    rw [if_neg (by omega), key]
  · refine ⟨[height], ?_, by rw [fullSlot_val h4]; simp⟩
    obtain ⟨ikey, klx, suf, lv⟩ := s
    simp only at h1 h4
    subst h4
    simp only [treeSlot, treeOpt, treeLV]
    rw [if_neg (by omega), key]
  · obtain ⟨L, h5, h6⟩ := ih n h4 (height + 1) c
    refine ⟨L, ?_, by rw [fullSlot_layer h4, h6]; simp⟩
    obtain ⟨ikey, klx, suf, lv⟩ := s
    simp only at h1 h4
    subst h4
    simp only [treeSlot, treeOpt, treeLV]
    rw [if_pos (by omega), h5]

theorem tree_slots (perm : List Nat) (slots : List (Slot (LV V))) (height : Nat) : ∀ c : Nat → Nat,
    (∀ s ∈ perm.map (slotAt slots), SlotOk s) →
    (∀ s ∈ perm.map (slotAt slots), ∀ n, s.lv = some (.layer n) → ∀ height c, ∃ L : List Nat,
      tree n height c = some (fun i => c i + L.count i) ∧ L.length = (full n).length) →
    ∃ L : List Nat, perm.foldlM (fun c p => treeSlot (slotAt slots p) height c) c = some (fun i => c i + L.count i) ∧
      L.length = ((perm.map (slotAt slots)).flatMap fullSlot).length := by
  induction perm with
  | nil => intro c _ _; exact ⟨[], by simp, rfl⟩
  | cons p ps ih =>
    intro c hok hih
    obtain ⟨L1, h1, h2⟩ := tree_slot (hok (slotAt slots p) (by simp)) height c (hih _ (by simp))
    obtain ⟨L2, h3, h4⟩ := ih _ (fun s hs => hok s (by simp only [List.map_cons, List.mem_cons]; exact .inr hs))
      (fun s hs => hih s (by simp only [List.map_cons, List.mem_cons]; exact .inr hs))
    refine ⟨L1 ++ L2, ?_, ?_⟩
    · rw [List.foldlM_cons, h1]
      simp only [List.count_append, ← Nat.add_assoc]
      exact h3
    · rw [List.map_cons, List.flatMap_cons, List.length_append, List.length_append, h2, h4]

theorem tree_spec {t : T V} (hw : WF t) : ∀ height c, ∃ L : List Nat,
    tree t height c = some (fun i => c i + L.count i) ∧ L.length = (full t).length := by
  induction hw with
  | mk t inv ok sub ih =>
    clear inv sub
    induction t using Node.ind with
    | h0 => intro height c; exact ⟨[], by simp [tree], by simp [full]⟩
    | h1 perm slots =>
      intro height c
      obtain ⟨L, h1, h2⟩ := tree_slots (used perm) slots height c ok ih
      refine ⟨L, ?_, ?_⟩
      · simp only [tree, treeSlots_getD]; exact h1
      · rw [h2, full_eq]; rfl
    | h2 ht keys kids ihk =>
      simp only [tree, full]
      simp only [entries] at ok ih
      suffices H : ∀ height c, ∃ L : List Nat,
          treeL kids height c = some (fun i => c i + L.count i) ∧ L.length = (fullL kids).length from
        fun height c => H (height + 1) c
      induction kids with
      | nil => intro height c; exact ⟨[], by simp [treeL], by simp [fullL]⟩
      | cons k ks ihc =>
        intro height c
        simp only [entriesL, List.mem_append] at ok ih
        obtain ⟨L1, h1, h2⟩ := ihk k (by simp) (fun s hs => ok s (.inl hs)) (fun s hs => ih s (.inl hs)) height c
        obtain ⟨L2, h3, h4⟩ := ihc (fun d hd => ihk d (by simp [hd])) (fun s hs => ok s (.inr hs))
          (fun s hs => ih s (.inr hs)) height (fun i => c i + L1.count i)
        refine ⟨L1 ++ L2, ?_, ?_⟩
        · simp only [treeL]
          rw [h1, Option.bind_some, h3]
          simp only [List.count_append, ← Nat.add_assoc]
        · simp only [fullL, List.length_append]
          rw [h2, h4]

end Verif.Stats
