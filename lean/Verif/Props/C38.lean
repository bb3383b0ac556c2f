import Verif.Destroy.Queue
import Verif.Trie.Inv

/-!
# C38: destroying a table releases every node exactly once
-/
namespace Verif.Props.C38
open Verif.Permuter (Word used)
open Verif.Tree
open Verif.Trie
open Verif.Destroy
variable {V : Type}

theorem chase_more {isRoot : Nat → Bool} {parent : Nat → Option Nat} {r : Nat} : ∀ {k f n : Nat}, k ≤ f →
    chase isRoot parent k n = some r → chase isRoot parent f n = some r
  | 0, f, n, _, h => by
    unfold chase at h ⊢
    split at h
    · next c => rw [if_pos c]; exact h
    · cases h
  | k + 1, 0, n, hf, h => by omega
  | k + 1, f + 1, n, hf, h => by
    unfold chase at h ⊢
    split at h
    · next c => rw [if_pos c]; exact h
    · next c => rw [if_neg c]; exact chase_more (by omega) h

/-- What `destroy` does with any tree of nodes in memory: it ends without undefined behaviour, and the
objects it has handed to the allocator are those of the tree that the pointers lead to and the
callback, each once. -/
theorem destroy_tree {h : Heap} {isRoot : Nat → Bool} {parent : Nat → Option Nat} {sh : Shape} {root cb k : Nat}
    (held : sh.Held h) (distinct : (cb :: sh.objs).Nodup) (hroot : chase isRoot parent k root = some sh.id) :
    ∀ fuel, max k sh.size ≤ fuel → ∃ s, destroy h isRoot parent root cb fuel = some s ∧
      s.freed.Nodup ∧ ∀ x, x ∈ s.freed ↔ x = cb ∨ x ∈ sh.objs := by
  intro fuel hf
  have hc := chase_more (f := fuel) (by omega) hroot
  have hn : ∃ y, h sh.id = some y := HeldL.node (q := [sh]) ⟨held, trivial⟩ sh.id (by simp)
  have hnd := List.nodup_cons.mp distinct
  have e1 : objsL [sh] = sh.objs := by simp [objsL]
  have e2 : sizeL [sh] = sh.size := by simp [sizeL]
  obtain ⟨s1, h1, h2, h3⟩ := enqueue_spec (h := h) (s := { link := parent }) (q := []) (n := sh.id)
    ⟨rfl, rfl, trivial⟩ (by intro x hx; simp at hx) (by simp) hn (by simp)
  simp only at h3
  obtain ⟨s2, h4, h5⟩ := loop_spec (h := h) fuel (s := s1) (q := [sh]) (by simpa using h2) ⟨held, trivial⟩
    (by rw [h3, e1]; simpa using hnd.2) (by rw [e2]; omega)
  rw [h3, e1, List.nil_append] at h5
  have hcb : cb ∉ s2.freed := fun hm => hnd.1 (h5.mem_iff.mp hm)
  refine ⟨{ s2 with freed := s2.freed ++ [cb] }, ?_, ?_, ?_⟩
  · unfold destroy
    rw [hc, Option.bind_some, h1, Option.bind_some, h4, Option.bind_some]
    unfold free
    rw [if_neg hcb]
  · simp only
    rw [List.nodup_append]
    refine ⟨h5.nodup_iff.mpr hnd.2, by simp, ?_⟩
    intro a ha b hb
    simp only [List.mem_singleton] at hb
    rintro rfl
    exact hcb (hb ▸ ha)
  · intro x
    simp only [List.mem_append, List.mem_singleton, h5.mem_iff]
    exact or_comm

/-- For every table `t`, however it is laid out in memory: if the nodes and suffix bags of `t`, in all
its layers, are the objects `sh.objs`, all different, and the table's pointer leads to the root, then
`destroy` ends and frees each of them exactly once, and nothing else but the callback. -/
theorem frees_once {h : Heap} {isRoot : Nat → Bool} {parent : Nat → Option Nat} {t : T V} {sh : Shape} {root cb k : Nat}
    (stored : Stored h t sh) (distinct : (cb :: sh.objs).Nodup) (hroot : chase isRoot parent k root = some sh.id) :
    ∃ N, ∀ fuel, N ≤ fuel → ∃ s, destroy h isRoot parent root cb fuel = some s ∧
      ∀ x, s.freed.count x = if x = cb ∨ x ∈ sh.objs then 1 else 0 := by
  refine ⟨max k sh.size, fun fuel hf => ?_⟩
  obtain ⟨s, h1, h2, h3⟩ := destroy_tree stored.held distinct hroot fuel hf
  refine ⟨s, h1, fun x => ?_⟩
  split
  · next c => rw [h2.count, if_pos ((h3 x).mpr c)]
  · next c => exact List.count_eq_zero.mpr (fun hm => c ((h3 x).mp hm))

/-! ### Every table can be laid out -/

/-- Lists of numbers in a range. -/
def Within (a b : Nat) (l : List Nat) : Prop := ∀ x ∈ l, a ≤ x ∧ x < b

/-- A layout of `t` in the addresses from `a` on, up to `b`. -/
def Lays (t : T V) (a : Nat) : Prop :=
  ∃ (b : Nat) (sh : Shape) (m : Heap), a ≤ b ∧ Within a b sh.objs ∧ sh.objs.Nodup ∧
    ∀ h : Heap, (∀ x, a ≤ x → x < b → h x = m x) → Stored h t sh

theorem lays_slots (es : List (Slot (LV V))) (ok : ∀ s ∈ es, SlotOk s)
    (ih : ∀ s ∈ es, ∀ n, s.lv = some (.layer n) → ∀ a, Lays n a) : ∀ a, ∃ (b : Nat) (qs : List HSlot) (shs : List Shape) (m : Heap),
    qs.length = es.length ∧ a ≤ b ∧ Within a b (objsL shs) ∧ (objsL shs).Nodup ∧
    ∀ h : Heap, (∀ x, a ≤ x → x < b → h x = m x) → InSlots h (es.zip qs) shs := by
  induction es with
  | nil => intro a; exact ⟨a, [], [], fun _ => none, rfl, Nat.le_refl _, by intro x hx; simp [objsL] at hx, by simp [objsL], fun _ _ => .nil⟩
  | cons s es ihs =>
    intro a
    have hs : (s.klx ≤ 127) ∨ (127 < s.klx ∧ ∃ n, s.lv = some (.layer n)) := by
      rcases ok s (by simp) with ⟨h1, -⟩ | ⟨h1, -⟩ | ⟨h1, -, n, h4⟩
      · left; omega
      · left; omega
      · right; exact ⟨by omega, n, h4⟩
    rcases hs with hs | ⟨hs, n, hn⟩
    · obtain ⟨b, qs, shs, m, h1, h2, h3, h4, h5⟩ := ihs (fun s hs => ok s (by simp [hs])) (fun s hs => ih s (by simp [hs])) a
      exact ⟨b, { klx := s.klx } :: qs, shs, m, by simp [h1], h2, h3, h4, fun h hh => .val _ _ _ _ rfl hs (h5 h hh)⟩
    · obtain ⟨b, sh, m, h1, h2, h3, h4⟩ := ih s (by simp) n hn a
      obtain ⟨c, qs, shs, m', g1, g2, g3, g4, g5⟩ := ihs (fun s hs => ok s (by simp [hs])) (fun s hs => ih s (by simp [hs])) b
      refine ⟨c, { klx := s.klx, ptr := sh.id } :: qs, sh :: shs, fun x => if x < b then m x else m' x, by simp [g1], by omega, ?_, ?_, ?_⟩
      · intro x hx
        simp only [objsL, List.mem_append] at hx
        rcases hx with hx | hx
        · have := h2 x hx; omega
        · have := g3 x hx; omega
      · simp only [objsL]
        rw [List.nodup_append]
        refine ⟨h3, g4, ?_⟩
        intro x hx y hy
        have := h2 x hx
        have := g3 y hy
        omega
      · intro h hh
        refine .layer _ _ n sh _ _ rfl hs hn rfl (h4 h ?_) (g5 h ?_)
        · intro x h1 h2; rw [hh x h1 (by omega)]; simp only [if_pos h2]
        · intro x h1 h2; rw [hh x (by omega) h2]; simp only [if_neg (Nat.not_lt.mpr h1)]

theorem lays_kids (ts : List (T V)) (ih : ∀ t ∈ ts, t = .null ∨ ∀ a, Lays t a) : ∀ a, ∃ (b : Nat) (ps : List (Option Nat))
    (shs : List Shape) (m : Heap), a ≤ b ∧ Within a b (objsL shs) ∧ (objsL shs).Nodup ∧
    ∀ h : Heap, (∀ x, a ≤ x → x < b → h x = m x) → InKids h ts ps shs := by
  induction ts with
  | nil => intro a; exact ⟨a, [], [], fun _ => none, Nat.le_refl _, by intro x hx; simp [objsL] at hx, by simp [objsL], fun _ _ => .nil⟩
  | cons t ts iht =>
    intro a
    rcases ih t (by simp) with rfl | ht
    · obtain ⟨b, ps, shs, m, h1, h2, h3, h4⟩ := iht (fun t ht => ih t (by simp [ht])) a
      exact ⟨b, none :: ps, shs, m, h1, h2, h3, fun h hh => .null _ _ _ (h4 h hh)⟩
    · obtain ⟨b, sh, m, h1, h2, h3, h4⟩ := ht a
      obtain ⟨c, ps, shs, m', g2, g3, g4, g5⟩ := iht (fun t ht => ih t (by simp [ht])) b
      refine ⟨c, some sh.id :: ps, sh :: shs, fun x => if x < b then m x else m' x, by omega, ?_, ?_, ?_⟩
      · intro x hx
        simp only [objsL, List.mem_append] at hx
        rcases hx with hx | hx
        · have := h2 x hx; omega
        · have := g3 x hx; omega
      · simp only [objsL]
        rw [List.nodup_append]
        refine ⟨h3, g4, ?_⟩
        intro x hx y hy
        have := h2 x hx
        have := g3 y hy
        omega
      · intro h hh
        refine .kid _ sh _ _ _ (h4 h ?_) (g5 h ?_)
        · intro x h1 h2; rw [hh x h1 (by omega)]; simp only [if_pos h2]
        · intro x h1 h2; rw [hh x (by omega) h2]; simp only [if_neg (Nat.not_lt.mpr h1)]

theorem map_idxOf {l : List Nat} {qs : List HSlot} (hd : l.Nodup) (hl : qs.length = l.length) :
    l.map (fun p => qs.getD (l.idxOf p) {}) = qs := by
  apply List.ext_getElem
  · simp [hl]
  · intro i h1 h2
    simp only [List.length_map] at h1
    simp only [List.getElem_map]
    rw [hd.idxOf_getElem]; simp [List.getD, h2]

theorem lays {t : T V} (hw : WF t) : ∀ a, Lays t a := by
  induction hw with
  | mk t inv ok sub ih =>
    clear sub
    suffices H : ∀ (t : T V) (lo hi : Option Nat), Tree.Inv lo hi t → (∀ s ∈ entries t, SlotOk s) →
        (∀ s ∈ entries t, ∀ n, s.lv = some (.layer n) → ∀ a, Lays n a) → ∀ a, Lays t a from H t none top inv ok ih
    clear inv ok ih
    clear t
    intro t
    induction t using Node.ind with
    | h0 => intro lo hi h; exact h.elim
    | h1 perm slots =>
      intro lo hi h ok ih a
      have hnd : (used perm).Nodup := (List.nodup_append.mp (Tree.perm_nodup h.ord)).1
      simp only [entries] at ok ih
      obtain ⟨b, qs, shs, m, g1, g2, g3, g4, g5⟩ := lays_slots _ ok ih (a + 1)
      have hlen : qs.length = (used perm).length := by rw [g1]; simp [leafEntries]
      refine ⟨b, .node a [] shs, fun x => if x = a then some (.leaf perm (fun p => qs.getD ((used perm).idxOf p) {}) none) else m x,
        by omega, ?_, ?_, ?_⟩
      · intro x hx
        simp only [Shape.objs, List.cons_append, List.nil_append, List.mem_cons] at hx
        rcases hx with rfl | hx
        · omega
        · have := g3 x hx; omega
      · simp only [Shape.objs, List.cons_append, List.nil_append, List.nodup_cons]
        exact ⟨fun hx => by have := g3 a hx; omega, g4⟩
      · intro h hh
        refine Stored.leaf perm slots a _ none shs (by rw [hh a (by omega) (by omega)]; simp only [if_true]; rfl) ?_
        have := g5 h (fun x h1 h2 => by rw [hh x (by omega) h2]; simp only [if_neg (show ¬ x = a by omega)])
        have e : (used perm).map (fun p => (slotAt slots p, qs.getD ((used perm).idxOf p) ({} : HSlot)))
            = (leafEntries perm slots).zip qs := by
          conv => rhs; rw [← map_idxOf hnd hlen]
          unfold leafEntries
          rw [List.zip_map']
        rw [e]
        exact this
    | h2 ht keys kids ihk =>
      intro lo hi h ok ih a
      simp only [entries] at ok ih
      have hin : ∀ c ∈ kids, c = .null ∨ ∃ lo hi, Tree.Inv lo hi c := by
        have : ∀ (kids : List (T V)) (keys : List Nat) (first : Bool) (lo : Option Nat), Tree.Chain first lo hi ht keys kids →
            ∀ c ∈ kids, c = .null ∨ ∃ lo hi, Tree.Inv lo hi c := by
          intro kids
          induction kids with
          | nil => simp
          | cons k ks ihs =>
            intro keys first lo hc c hm
            cases keys with
            | nil =>
              cases ks with
              | nil =>
                simp only [Tree.Chain] at hc
                simp only [List.mem_singleton] at hm
                subst hm
                exact .inr ⟨_, _, hc.1⟩
              | cons _ _ => simp [Tree.Chain] at hc
            | cons y ys =>
              simp only [Tree.Chain] at hc
              rcases List.mem_cons.mp hm with rfl | hm
              · rcases hc.1 with ⟨h1, _⟩ | ⟨h1, _⟩
                · exact .inl h1
                · exact .inr ⟨_, _, h1⟩
              · exact ihs _ _ _ hc.2.2 c hm
        exact this kids keys true lo h.2
      have hmem : ∀ c ∈ kids, ∀ s ∈ entries c, s ∈ entriesL kids := by
        clear ihk h ok ih hin
        induction kids with
        | nil => simp
        | cons k ks ihs =>
          intro c hc s hs
          simp only [entriesL, List.mem_append]
          rcases List.mem_cons.mp hc with rfl | hc
          · exact .inl hs
          · exact .inr (ihs c hc s hs)
      obtain ⟨b, ps, shs, m, g2, g3, g4, g5⟩ := lays_kids kids (fun c hc => by
        rcases hin c hc with h1 | ⟨lo, hi, h1⟩
        · exact .inl h1
        · exact .inr (ihk c hc lo hi h1 (fun s hs => ok s (hmem c hc s hs)) (fun s hs => ih s (hmem c hc s hs)))) (a + 1)
      refine ⟨b, .node a [] shs, fun x => if x = a then some (.inode ps) else m x, by omega, ?_, ?_, ?_⟩
      · intro x hx
        simp only [Shape.objs, List.cons_append, List.nil_append, List.mem_cons] at hx
        rcases hx with rfl | hx
        · omega
        · have := g3 x hx; omega
      · simp only [Shape.objs, List.cons_append, List.nil_append, List.nodup_cons]
        exact ⟨fun hx => by have := g3 a hx; omega, g4⟩
      · intro h hh
        refine Stored.inode ht keys kids a ps shs (by rw [hh a (by omega) (by omega)]; simp only [if_true]) ?_
        exact g5 h (fun x h1 h2 => by rw [hh x (by omega) h2]; simp only [if_neg (show ¬ x = a by omega)])

/-- Every table that operations can build has such a layout, so the hypotheses of `frees_once` can be met for all of them. -/
theorem storable {t : T V} (h : Reachable t) : ∃ (m : Heap) (sh : Shape), Stored m t sh ∧ (0 :: sh.objs).Nodup := by
  obtain ⟨b, sh, m, h1, h2, h3, h4⟩ := lays h.wf 1
  exact ⟨m, sh, h4 m (fun _ _ _ => rfl), List.nodup_cons.mpr ⟨fun hx => by have := h2 0 hx; omega, h3⟩⟩

/-! ### A concrete case, and what is not freed -/

/-- A leaf (1) with a row (10) and a layer whose root (2) is an internode over the leaves 3 and 4; the leaf 4 has a bag
(5) and rows 11, 12 and 13. -/
def mem (layer : Nat) : Heap
  | 1 => some (.leaf (Permuter.makeSorted 2) (fun p => if p = 0 then ⟨3, 10⟩ else ⟨128, layer⟩) none)
  | 2 => some (.inode [some 3, some 4])
  | 3 => some (.leaf (Permuter.makeSorted 1) (fun _ => ⟨2, 11⟩) none)
  | 4 => some (.leaf (Permuter.makeSorted 2) (fun p => if p = 0 then ⟨2, 12⟩ else ⟨64, 13⟩) (some 5))
  | _ => none

/-- `parent_` -/
def up : Nat → Option Nat
  | 3 => some 2
  | 4 => some 2
  | _ => none

def freed (layer fuel : Nat) : Option (List Nat) := (destroy (mem layer) (fun n => n == 1 || n == 2) up 1 9 fuel).map St.freed

example : freed 2 4 = some [1, 2, 3, 5, 4, 9] := by decide

example : (Shape.node 1 [] [.node 2 [] [.node 3 [] [], .node 4 [5] []]]).Held (mem 2) := by
  simp only [Shape.Held, HeldL, and_true]
  exact ⟨⟨_, rfl, by decide, by decide⟩, ⟨_, rfl, by decide, by decide⟩, ⟨_, rfl, by decide, by decide⟩,
    ⟨_, rfl, by decide, by decide⟩⟩

/-- The rows are not released: `destroy` frees nodes and bags only. -/
theorem rows_kept : ∀ x ∈ [10, 11, 12, 13], ∀ l, freed 2 4 = some l → x ∉ l := by decide

/-- If the slot still points at the first root of its layer (3), which was split since, then the current root and
everything to the right of the old one leaks: lines 341-342 do not look for the current root. -/
theorem stale_leaks : freed 3 4 = some [1, 3, 9] := by decide

end Verif.Props.C38
