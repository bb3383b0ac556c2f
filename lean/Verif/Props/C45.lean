import Verif.LockOrder.Dangle
import Verif.LockOrder.OwnAll
import Mathlib.Logic.Relation

/-!
# C45: with concurrent operations every node is given back once, and no node is lost

Threads look up, split, make layers, remove leaves, collapse chains of internodes and collapse empty layers, interleaved in
any way, with `remove_leaf` taking out of a parent the node that it removes, as its assertion at
/repo/masstree_remove.hh:224 says; C46 has a run in which it does not, and a deleted leaf stays in the tree.  No node is given to `deallocate_rcu` twice (`retired_once`).  Whenever no lock is held, the nodes that were ever
made and not given back are exactly those that can be found from the table's first leaf by following parent, child and layer
pointers (`quiet_exact`): nothing that has been given back can be found in the tree, and nothing has dropped out of the tree
without being given back.  In between, a node that has been given back and is still a child of some node is locked by the
thread that takes it out (`retired_hidden`).  `remove_leaf` never follows a null parent pointer (`parent_found`).

A layer pointer may be out of date, but following parent pointers from it leads to a node that has not been given back
(`layer_pointer_leads`).  It is not true that the node a layer pointer names has itself not been given back
(`layer_pointer_dangles`): a run in which every operation comes from the root of the table, and through layer pointers that
named roots at that time, ends with nobody in the tree and a layer pointer to a node that has been given back.
-/
namespace Verif.Props.C45

open Verif.LockOrder Function

/-- `b` is found from `q` by following parent pointers (`maybe_parent`, /repo/masstree_struct.hh:83-86, repeatedly). -/
abbrev Up (s : State) : Nat → Nat → Prop := Relation.ReflTransGen fun q p => s.parent q = some p

/-- The nodes that can be found in the tree. -/
inductive InTree (s : State) : Nat → Prop where
  /-- the root of the first layer, found from the first leaf -/
  | first {b : Nat} (h : Up s 0 b) (hb : s.parent b = none) : InTree s b
  | kid {p c : Nat} (h : InTree s p) (hc : s.kids p c) : InTree s c
  /-- the root of the layer a layer pointer belongs to -/
  | layer {n r b : Nat} (h : InTree s n) (hr : s.sub n r) (hb : Up s r b) (hb' : s.parent b = none) : InTree s b

variable {key : Nat → Nat → Nat} {s : State}

/-- No node is given to `deallocate_rcu` twice. -/
theorem retired_once (h : Reachable key s) : s.limbo.Nodup := (reachable_tree h).nodup

/-- What has been given to `deallocate_rcu` stays given. -/
theorem retired_for_good {i : Nat} {s' : State} (h : Step key i s s') : ∃ l, s'.limbo = l ++ s.limbo := by
  cases h with
  | remove n => exact ⟨[n], rfl⟩
  | rmore p => exact ⟨[p], rfl⟩
  | gup n r => exact ⟨[r], rfl⟩
  | gkill n r => exact ⟨[r], rfl⟩
  | _ => exact ⟨[], rfl⟩

/-- A node that has been given back is no node's child any more, or the thread that takes it out still holds its lock. -/
theorem retired_hidden (h : Reachable key s) {q : Nat} (hq : q ∈ s.limbo) :
    (∀ p, ¬ s.kids p q) ∨ ∃ i, s.lock q = some i ∧ (s.pc i).going = some q := by
  have hi := reachable_inv h
  have ht := reachable_tree h
  rcases (ht.gone q).mp hq with h' | ⟨i, h'⟩
  · exact .inl fun p hp => (hi.kid p q hp).2.1.2 h'
  · exact .inr ⟨i, (ht.outgoing hi h').1, h'⟩

/-- `remove_leaf` finds the node it deletes below a parent. -/
theorem parent_found (h : Reachable key s) {i n : Nat} {r : Option Nat} (hp : s.pc i = .rpar n r) : s.parent n ≠ none :=
  (reachable_tree h).has_parent (reachable_inv h) (i := i) (by rw [hp]; rfl)

theorem climb (h : Reachable key s) {q : Nat} (hq : s.Live q) : ∃ b, Up s q b ∧ s.parent b = none ∧ s.Live b := by
  have hi := reachable_inv h
  obtain ⟨H, hH⟩ := bound s.ht s.fresh
  obtain ⟨d, hd⟩ : ∃ d, d = H - s.ht q := ⟨_, rfl⟩
  induction d using Nat.strongRecOn generalizing q with
  | _ d ih =>
    cases hp : s.parent q with
    | none => exact ⟨q, .refl, hp, hq⟩
    | some p =>
      obtain ⟨h1, h2, h3, h4⟩ := hi.up hq hp
      have := hH p h1.1
      obtain ⟨b, k1, k2, k3⟩ := ih (H - s.ht p) (by omega) h1 rfl
      exact ⟨b, .head hp k1, k2, k3⟩

theorem Up.live (h : Reachable key s) {q b : Nat} (hq : s.Live q) (hb : Up s q b) : s.Live b ∧ s.lay b = s.lay q := by
  have hi := reachable_inv h
  induction hb with
  | refl => exact ⟨hq, rfl⟩
  | tail _ hp ih => exact ⟨(hi.up ih.1 hp).1, (hi.up ih.1 hp).2.2.1.trans ih.2⟩

theorem Up.leads (h : Reachable key s) {q a : Nat} (hq : s.Leads q a) : Up s q a := by
  induction hq with
  | live => exact .refl
  | dead _ hp _ ih => exact .head hp ih

theorem Up.live' (h : Reachable key s) {q a b : Nat} (hq : s.Leads q a) (hb : Up s q b) : ∃ a, s.Leads b a := by
  have hi := reachable_inv h
  induction hb with
  | refl => exact ⟨a, hq⟩
  | tail _ hp ih =>
    obtain ⟨a, ha⟩ := ih
    cases ha with
    | live h' => exact ⟨_, .live (hi.up h' hp).1⟩
    | dead h1 h2 h3 =>
      rw [hp] at h2
      cases h2
      exact ⟨_, h3⟩

/-- A layer pointer leads to the root of its layer, which has not been given back. -/
theorem layer_pointer_leads (h : Reachable key s) {n r : Nat} (hr : s.sub n r) :
    ∃ b, Up s r b ∧ s.parent b = none ∧ b ∉ s.limbo := by
  have hi := reachable_inv h
  have ht := reachable_tree h
  obtain ⟨a, ha⟩ := ht.leads r (hi.subLt n r hr).2.1 (ht.subAlive n r hr)
  obtain ⟨b, h1, h2, h3⟩ := climb h ha.end
  refine ⟨b, .trans (Up.leads h ha) h1, h2, fun hb => ?_⟩
  rcases (ht.gone b).mp hb with h' | ⟨i, h'⟩
  · exact h3.2 h'
  · exact ht.has_parent hi h' h2

theorem quiet (h : Reachable key s) (hq : ∀ q, s.lock q = none) (i : Nat) : (s.pc i).loose = none ∧ (s.pc i).going = none := by
  have hi := reachable_inv h
  have h' : (s.pc i).held = [] := List.eq_nil_iff_forall_not_mem.mpr fun q hm => by
    have := (hi.held q i).mpr hm
    rw [hq q] at this
    cases this
  revert h'
  cases s.pc i <;> simp [PC.held, PC.loose, PC.going]

theorem InTree.live (h : Reachable key s) {q : Nat} (hq : InTree s q) : s.Live q := by
  have hi := reachable_inv h
  have ht := reachable_tree h
  induction hq with
  | first h1 h2 => exact (Up.live h ht.zero.1 h1).1
  | kid _ hc _ => exact (hi.kid _ _ hc).2.1
  | layer _ hr hb hb' _ =>
    obtain ⟨a, ha⟩ := ht.leads _ (hi.subLt _ _ hr).2.1 (ht.subAlive _ _ hr)
    obtain ⟨c, hc⟩ := Up.live' h ha hb
    cases hc with
    | live h' => exact h'
    | dead _ hp _ =>
      rw [hb'] at hp
      cases hp

theorem InTree.down (h : Reachable key s) {q b : Nat} (hq : s.Live q) (hb : Up s q b) (hi' : InTree s b) : InTree s q := by
  have hi := reachable_inv h
  induction hb using Relation.ReflTransGen.head_induction_on with
  | refl => exact hi'
  | head hp _ ih => exact .kid (ih (hi.up hq hp).1) (hi.par _ _ hq.2 hp)

theorem InTree.of_live (h : Reachable key s) (hn : ∀ i, (s.pc i).loose = none) {q : Nat} (hq : s.Live q) : InTree s q := by
  have hi := reachable_inv h
  have ht := reachable_tree h
  have hlo : ∀ a i, (s.pc i).loose ≠ some a := fun a i h' => by rw [hn i] at h'; cases h'
  obtain ⟨d, hd⟩ : ∃ d, d = s.dep (s.lay q) := ⟨_, rfl⟩
  induction d using Nat.strongRecOn generalizing q with
  | _ d ih =>
    obtain ⟨t, h1, h2, h3⟩ := climb h hq
    have hlay := (Up.live h hq h1).2
    refine InTree.down h hq h1 ?_
    by_cases h0 : s.lay t = 0
    · obtain ⟨b, k1, k2, k3⟩ := climb h ht.zero.1
      have : t = b := ht.top t b h3 k3 h2 k2
        (by rw [h0, (Up.live h ht.zero.1 k1).2, ht.zero.2.1]) (hlo t) (hlo b)
      subst this
      exact .first k1 k2
    · obtain ⟨n, r, k1, k2⟩ := ht.owned (s.lay t) (ht.head t h3) (ht.headLay t h3.1).1 h0
      have hdep := (hi.subLt n r k1).2.2
      obtain ⟨a, ha⟩ := ht.leads r (hi.subLt n r k1).2.1 (ht.subAlive n r k1)
      obtain ⟨b, m1, m2, m3⟩ := climb h ha.end
      have : t = b := ht.top t b h3 m3 h2 m2
        (by rw [(Up.live h ha.end m1).2, ha.lay hi, k2]) (hlo t) (hlo b)
      subst this
      refine .layer (ih _ ?_ (ht.subLive n r k1).1 rfl) k1 (.trans (Up.leads h ha) m1) m2
      rw [hd, ← hlay, ← k2]
      omega

/-- When no lock is held, the nodes in the tree are those that have been made and not given back. -/
theorem quiet_exact (h : Reachable key s) (hq : ∀ q, s.lock q = none) {q : Nat} (hf : q < s.fresh) :
    InTree s q ↔ q ∉ s.limbo := by
  have ht := reachable_tree h
  constructor
  · intro hin hl
    rcases (ht.gone q).mp hl with h' | ⟨i, h'⟩
    · exact (InTree.live h hin).2 h'
    · rw [(quiet h hq i).2] at h'
      cases h'
  · intro hl
    exact InTree.of_live h (fun i => (quiet h hq i).1) ⟨hf, fun hd => hl ((ht.gone q).mpr (.inl hd))⟩

/-- A layer pointer can be left naming a node that has been given back, with no operation under way. -/
theorem layer_pointer_dangles :
    ∃ key s, Careful key s ∧ (∀ i, s.pc i = .idle) ∧ ∃ n r, InTree s n ∧ s.sub n r ∧ r ∈ s.limbo := by
  refine ⟨_, _, Dangle.c69, Dangle.over, 0, 3, ?_, Dangle.names, Dangle.gone⟩
  exact (quiet_exact Dangle.c69.reachable Dangle.free (by decide)).mpr (by decide)

/-! ### The run of `Dangle`

Seven nodes are made; the leaf 2 and the internode 3 have been given back. -/

example : Dangle.t69.limbo = [3, 2] ∧ Dangle.t69.limbo.Nodup := ⟨rfl, retired_once Dangle.c69.reachable⟩

example : Dangle.t69.fresh = 7 ∧ ∀ q ∈ [0, 1, 4, 5, 6], InTree Dangle.t69 q := by
  refine ⟨rfl, fun q hq => (quiet_exact Dangle.c69.reachable Dangle.free ?_).mpr ?_⟩ <;>
    · simp only [List.mem_cons, List.not_mem_nil, or_false] at hq
      rcases hq with rfl | rfl | rfl | rfl | rfl <;> decide

example : ¬ InTree Dangle.t69 3 := fun h => (quiet_exact Dangle.c69.reachable Dangle.free (by decide)).mp h (by decide)

/-- The stale pointer leads to the root 6. -/
example : Up Dangle.t69 3 6 ∧ Dangle.t69.parent 6 = none ∧ 6 ∉ Dangle.t69.limbo := ⟨.single rfl, rfl, by decide⟩

example : ∃ b, Up Dangle.t69 3 b ∧ Dangle.t69.parent b = none ∧ b ∉ Dangle.t69.limbo :=
  layer_pointer_leads Dangle.c69.reachable Dangle.names

/-- In the middle of the removal of leaf 2 it is still a child of 3, and locked. -/
example : 2 ∈ Dangle.t57.limbo ∧ Dangle.t57.kids 3 2 ∧ Dangle.t57.lock 2 = some 1 ∧ Dangle.t57.parent 2 ≠ none :=
  ⟨.head _, ⟨.inl (.inr rfl), rfl⟩, rfl, parent_found Dangle.c57.reachable (i := 1) rfl⟩

end Verif.Props.C45
