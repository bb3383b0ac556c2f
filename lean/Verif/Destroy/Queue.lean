import Verif.Destroy.Model

/-!
The traversal frees every object of the tree once.
-/
namespace Verif.Destroy
open Verif.Permuter (Word used)
open Verif.Tree
open Verif.Trie (T LV)

/-- Each node's link leads to the next one. -/
def Linked (link : Nat → Option Nat) : List Nat → Prop
  | [] => True
  | [_] => True
  | a :: b :: r => link a = some b ∧ Linked link (b :: r)

/-- The queue in memory. -/
structure Chained (s : St) (q : List Nat) : Prop where
  head : s.workq = q.head?
  last : s.tail = q.getLast?
  link : Linked s.link q

theorem Linked.congr {f g : Nat → Option Nat} : ∀ {q : List Nat}, (∀ x ∈ q.dropLast, f x = g x) → Linked f q → Linked g q
  | [], _, _ => trivial
  | [_], _, _ => trivial
  | a :: b :: r, h, hl => by
    refine ⟨?_, Linked.congr (fun x hx => h x ?_) hl.2⟩
    · rw [← h a (by simp [List.dropLast])]; exact hl.1
    · simp only [List.dropLast, List.mem_cons]; exact .inr hx

theorem Linked.snoc {f : Nat → Option Nat} : ∀ {q : List Nat} {m n : Nat}, Linked f (q ++ [m]) → f m = some n →
    Linked f (q ++ [m, n])
  | [], _, _, _, h2 => ⟨h2, trivial⟩
  | [_], _, _, h1, h2 => ⟨h1.1, h2, trivial⟩
  | _ :: _ :: _, _, _, h1, h2 => ⟨h1.1, Linked.snoc (q := _ :: _) h1.2 h2⟩

/-- The nodes are there and not freed. -/
def Ready (h : Heap) (s : St) (q : List Nat) : Prop := ∀ x ∈ q, x ∉ s.freed ∧ ∃ y, h x = some y

theorem enqueue_spec {h : Heap} {s : St} {q : List Nat} {n : Nat} (hc : Chained s q) (hr : Ready h s q)
    (hn : n ∉ s.freed) (hy : ∃ y, h n = some y) (hd : (q ++ [n]).Nodup) :
    ∃ s', enqueue h s n = some s' ∧ Chained s' (q ++ [n]) ∧ s'.freed = s.freed := by
  obtain ⟨y, hy⟩ := hy
  have ht : touch h n s = some y := by unfold touch; rw [if_neg hn, hy]
  unfold enqueue
  rw [ht, Option.bind_some]
  rcases List.eq_nil_or_concat q with rfl | ⟨q', m, rfl⟩
  · have : s.tail = none := by rw [hc.last]; rfl
    rw [this]
    exact ⟨_, rfl, ⟨rfl, rfl, trivial⟩, rfl⟩
  · rw [List.concat_eq_append] at hc hr hd ⊢
    have hm : s.tail = some m := by rw [hc.last]; simp
    obtain ⟨h1, z, h2⟩ := hr m (by simp)
    have ht2 : touch h m s = some z := by unfold touch; rw [if_neg h1, h2]
    rw [hm]
    simp only [ht2, Option.map_some]
    refine ⟨_, rfl, ⟨?_, by simp, ?_⟩, rfl⟩
    · simp only [hc.head]
      cases q' <;> simp
    · simp only [List.append_assoc, List.cons_append, List.nil_append]
      apply Linked.snoc
      · refine Linked.congr ?_ hc.link
        intro x hx
        rw [List.dropLast_concat] at hx
        have : x ≠ m := by
          rintro rfl
          rw [List.nodup_append, List.nodup_append] at hd
          exact hd.1.2.2 x hx x (by simp) rfl
        simp [this]
      · simp

theorem enqueueL_spec {h : Heap} : ∀ (ns : List Nat) {s : St} {q : List Nat}, Chained s q → Ready h s (q ++ ns) →
    (q ++ ns).Nodup → ∃ s', ns.foldlM (enqueue h) s = some s' ∧ Chained s' (q ++ ns) ∧ s'.freed = s.freed
  | [], s, q, hc, _, _ => ⟨s, rfl, by simpa using hc, rfl⟩
  | n :: ns, s, q, hc, hr, hd => by
    have e : q ++ n :: ns = (q ++ [n]) ++ ns := by simp
    obtain ⟨h1, h2⟩ := hr n (by simp)
    obtain ⟨s1, h3, h4, h5⟩ := enqueue_spec hc (fun x hx => hr x (by simp [hx])) h1 h2
      (by rw [e] at hd; exact (List.nodup_append.mp hd).1)
    obtain ⟨s2, h6, h7, h8⟩ := enqueueL_spec ns h4 (by rw [← e]; intro x hx; rw [h5]; exact hr x hx) (by rw [← e]; exact hd)
    refine ⟨s2, ?_, by rw [e]; exact h7, by rw [h8, h5]⟩
    rw [List.foldlM_cons, h3]
    exact h6

theorem freeL_spec : ∀ (xs : List Nat) {s : St}, (s.freed ++ xs).Nodup →
    xs.foldlM free s = some { s with freed := s.freed ++ xs }
  | [], s, _ => by simp
  | x :: xs, s, hd => by
    have e : s.freed ++ x :: xs = (s.freed ++ [x]) ++ xs := by simp
    have hx : x ∉ s.freed := by
      rw [List.nodup_append] at hd
      intro h
      exact hd.2.2 x h x (by simp) rfl
    rw [List.foldlM_cons]
    simp only [free, if_neg hx]
    show List.foldlM free { s with freed := s.freed ++ [x] } xs = _
    rw [freeL_spec xs (by rw [e] at hd; exact hd), e]

/-- The first node of the queue is taken off. -/
theorem pop_spec {s : St} {n : Nat} {q : List Nat} (hc : Chained s (n :: q)) (hd : (n :: q).Nodup) :
    ∃ s', pop n s = s' ∧ Chained s' q ∧ s'.freed = s.freed := by
  unfold pop
  cases q with
  | nil =>
    have : s.tail = some n := by rw [hc.last]; rfl
    rw [if_neg (by simp [this])]
    exact ⟨_, rfl, ⟨rfl, rfl, trivial⟩, rfl⟩
  | cons b r =>
    have : s.tail ≠ some n := by
      rw [hc.last]
      intro h
      have hm : n ∈ b :: r := by
        have := List.mem_of_getLast? (l := b :: r) (a := n) (by simpa using h)
        exact this
      exact (List.nodup_cons.mp hd).1 hm
    rw [if_pos this]
    refine ⟨_, rfl, ⟨?_, ?_, hc.link.2⟩, rfl⟩
    · simpa using hc.link.1
    · have := hc.last
      simpa using this

/-! ### Trees -/

theorem objsL_append : ∀ a b : List Shape, objsL (a ++ b) = objsL a ++ objsL b
  | [], _ => rfl
  | k :: ks, b => by simp only [List.cons_append, objsL, objsL_append ks b, List.append_assoc]

theorem sizeL_append : ∀ a b : List Shape, sizeL (a ++ b) = sizeL a + sizeL b
  | [], b => by simp [sizeL]
  | k :: ks, b => by simp only [List.cons_append, sizeL, sizeL_append ks b, Nat.add_assoc]

theorem HeldL_append {h : Heap} : ∀ {a b : List Shape}, HeldL h (a ++ b) ↔ HeldL h a ∧ HeldL h b
  | [], b => by simp [HeldL]
  | k :: ks, b => by simp only [List.cons_append, HeldL, HeldL_append (a := ks), and_assoc]

theorem id_mem_objs (k : Shape) : k.id ∈ k.objs := by cases k; simp [Shape.id, Shape.objs]

theorem ids_sublist : ∀ q : List Shape, (q.map Shape.id).Sublist (objsL q)
  | [] => List.Sublist.slnil
  | k :: ks => by
    simp only [List.map_cons, objsL]
    have := (List.singleton_sublist.mpr (id_mem_objs k)).append (ids_sublist ks)
    simpa using this

theorem HeldL.node {h : Heap} : ∀ {q : List Shape}, HeldL h q → ∀ x ∈ q.map Shape.id, ∃ y, h x = some y
  | [], _, _, hx => by simp at hx
  | .node id bag kids :: ks, hh, x, hx => by
    rcases List.mem_cons.mp hx with rfl | hx
    · obtain ⟨⟨y, hy, _⟩, _⟩ := hh.1
      exact ⟨y, hy⟩
    · exact HeldL.node hh.2 x hx

/-- The loop frees every object of the trees in the queue, once. -/
theorem loop_spec {h : Heap} : ∀ (fuel : Nat) {s : St} {q : List Shape}, Chained s (q.map Shape.id) → HeldL h q →
    (s.freed ++ objsL q).Nodup → sizeL q ≤ fuel →
    ∃ s', loop h fuel s = some s' ∧ s'.freed.Perm (s.freed ++ objsL q)
  | fuel, s, [], hc, _, _, _ => by
    have : s.workq = none := by rw [hc.head]; rfl
    refine ⟨s, ?_, by simp [objsL]⟩
    unfold loop
    simp [this]
  | 0, s, .node id bag kids :: q, _, _, _, hf => by simp [sizeL, Shape.size] at hf
  | fuel + 1, s, .node id bag kids :: q, hc, hh, hd, hf => by
    have hw : s.workq = some id := by rw [hc.head]; rfl
    obtain ⟨⟨⟨x, hx, hp, hparts⟩, hk⟩, hq⟩ := hh
    simp only [objsL, Shape.objs] at hd ⊢
    have hid : id ∉ s.freed := by
      intro hm
      exact (List.nodup_append.mp hd).2.2 id hm id (by simp) rfl
    have ht : touch h id s = some x := by unfold touch; rw [if_neg hid, hx]
    have hdq : ((Shape.node id bag kids :: q).map Shape.id).Nodup :=
      List.Nodup.sublist ((ids_sublist _).trans (List.sublist_append_right s.freed _)) (by
        simpa only [objsL, Shape.objs] using hd)
    obtain ⟨s1, h1, h2, h3⟩ := pop_spec hc hdq
    -- the rest of the objects
    have hrest : (s.freed ++ ((id :: bag) ++ objsL (q ++ kids))).Nodup := by
      refine (List.Perm.nodup_iff ?_).mp hd
      apply List.Perm.append_left
      rw [objsL_append, List.append_assoc]
      apply List.Perm.append_left
      exact List.perm_append_comm
    have hsub : (q.map Shape.id ++ kids.map Shape.id).Sublist (objsL (q ++ kids)) := by
      rw [← List.map_append]; exact ids_sublist _
    have hdk : (q.map Shape.id ++ kids.map Shape.id).Nodup :=
      List.Nodup.sublist (hsub.trans ((List.sublist_append_right (id :: bag) _).trans
        (List.sublist_append_right s.freed _))) hrest
    have hready : Ready h s1 (q.map Shape.id ++ kids.map Shape.id) := by
      intro y hy
      refine ⟨?_, ?_⟩
      · rw [h3]
        intro hm
        exact (List.nodup_append.mp hrest).2.2 y hm y (List.mem_append_right _ (hsub.subset hy)) rfl
      · rw [← List.map_append] at hy
        exact HeldL.node (HeldL_append.mpr ⟨hq, hk⟩) y hy
    obtain ⟨s2, h4, h5, h6⟩ := enqueueL_spec (h := h) (kids.map Shape.id) h2 hready hdk
    have hpd : (s2.freed ++ parts id x).Nodup := by
      rw [h6, h3]
      refine (List.Perm.nodup_iff (List.Perm.append_left _ hparts.symm)).mp ?_
      exact List.Nodup.sublist (List.Sublist.append_left (List.sublist_append_left _ _) _) hrest
    have h7 := freeL_spec (parts id x) hpd
    have hq2 : Chained { s2 with freed := s2.freed ++ parts id x } ((q ++ kids).map Shape.id) := by
      rw [List.map_append]; exact ⟨h5.head, h5.last, h5.link⟩
    have hd2 : ((s2.freed ++ parts id x) ++ objsL (q ++ kids)).Nodup := by
      rw [h6, h3]
      refine (List.Perm.nodup_iff ?_).mp hrest
      rw [List.append_assoc]
      apply List.Perm.append_left
      exact List.Perm.append_right _ hparts.symm
    have hf2 : sizeL (q ++ kids) ≤ fuel := by
      rw [sizeL_append]
      simp only [sizeL, Shape.size] at hf
      omega
    obtain ⟨s3, h8, h9⟩ := loop_spec fuel hq2 (HeldL_append.mpr ⟨hq, hk⟩) hd2 hf2
    refine ⟨s3, ?_, ?_⟩
    · simp only [Shape.id] at h1
      unfold loop
      simp only [hw, ht, Option.bind_some]
      rw [h1, hp, h4, Option.bind_some, h7, Option.bind_some]
      exact h8
    · refine h9.trans ?_
      simp only [h6, h3]
      rw [List.append_assoc]
      apply List.Perm.append_left
      rw [objsL_append]
      refine (List.Perm.append_right _ hparts).trans ?_
      rw [List.append_assoc]
      apply List.Perm.append_left
      exact List.perm_append_comm

mutual
theorem Stored.held {V : Type} {h : Heap} : ∀ {t : T V} {sh : Shape}, Stored h t sh → sh.Held h
  | _, _, .leaf perm slots id hs bag shs hn hk => by
    refine ⟨⟨_, hn, ?_, ?_⟩, hk.held.2⟩
    · simp only [pointers]
      rw [← hk.held.1, List.filterMap_map]
      rfl
    · simp only [parts]
      exact List.perm_append_comm
  | _, _, .inode ht keys kids id ps shs hn hk => by
    refine ⟨⟨_, hn, ?_, ?_⟩, hk.held.2⟩
    · simp only [pointers]
      exact hk.held.1
    · simp [parts]
theorem InSlots.held {V : Type} {h : Heap} : ∀ {l : List (Slot (LV V) × HSlot)} {shs : List Shape}, InSlots h l shs →
    (l.filterMap fun e => if 127 < e.2.klx then some e.2.ptr else none) = shs.map Shape.id ∧ HeldL h shs
  | _, _, .nil => ⟨rfl, trivial⟩
  | _, _, .val s q r shs hx hv hr => by
    refine ⟨?_, hr.held.2⟩
    rw [List.filterMap_cons_none (by simp only; rw [if_neg (by omega)])]
    exact hr.held.1
  | _, _, .layer s q n sh r shs hx hv hl hp hn hr => by
    refine ⟨?_, hn.held, hr.held.2⟩
    rw [List.filterMap_cons_some (b := q.ptr) (by simp only; rw [if_pos (by omega)]), hr.held.1, hp]
    rfl
theorem InKids.held {V : Type} {h : Heap} : ∀ {kids : List (T V)} {ps : List (Option Nat)} {shs : List Shape},
    InKids h kids ps shs → ps.filterMap id = shs.map Shape.id ∧ HeldL h shs
  | _, _, _, .nil => ⟨rfl, trivial⟩
  | _, _, _, .null kids ps shs hr => ⟨hr.held.1, hr.held.2⟩
  | _, _, _, .kid c sh kids ps shs hc hr => by
    refine ⟨?_, hc.held, hr.held.2⟩
    rw [List.filterMap_cons_some (f := id) (a := some sh.id) (b := sh.id) rfl, hr.held.1]
    rfl
end

end Verif.Destroy
