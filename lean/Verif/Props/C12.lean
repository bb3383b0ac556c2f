import Verif.Leaflink.Walk
import Mathlib.Tactic.ByContra

/-!
# C12: the doubly linked leaf list survives concurrent splits and removals

`Reachable key` is any interleaving of any number of `link_split` and `unlink` operations, starting from one leaf.  `live`
leaves are the first leaf and those whose split has reached their right neighbour and whose `unlink` has not returned; a live
leaf `x` is `linking` if the split that made it has not yet stored it in its left neighbour's `next_` (that split then
still holds the locks of both).  `Links f (some 0) w` says that `w` is exactly what one meets when following `f` from the first
leaf to the end.
-/
namespace Verif.Props.C12

open Verif.Leaflink

/-- The following of `next_` from the first leaf ends, goes through larger and larger keys, and meets every live leaf except
those that are just being linked; what else it meets are leaves whose removal is finished. -/
theorem next_walk {key : Nat → Nat} {s : State} (h : Reachable key s) :
    ∃ w, Links s.next (some 0) w ∧ w.Pairwise (fun x y => key x < key y) ∧
      (∀ x, s.status x = .live → ¬ s.linking x → x ∈ w) ∧
      ∀ x ∈ w, (s.status x = .live ∧ ¬ s.linking x) ∨ s.status x = .dead := by
  classical
  have hi := reachable_inv h
  have hl := reachable_listed h
  obtain ⟨w, hw, he, hst⟩ := walk_aux hi (fun x => decide (¬ s.linking x)) (by simp) (fun x => decide (s.status x = .live)) (by simp)
    _ (Nat.le_refl _) hl.links (fun x hx => (hl.mem x).1 hx) (by
      rintro x ⟨⟩ ⟨m, nx, hm⟩
      have := (hi.lsp m 0 (hi.s4Ls m 0 nx hm).1).1
      rw [hi.first.2.1] at this
      cases this)
  have hmem : ∀ x, (x ∈ w ∧ s.status x = .live) ↔ (s.status x = .live ∧ ¬ s.linking x) := by
    intro x
    have h1 : x ∈ w.filter (fun x => decide (s.status x = .live)) ↔ x ∈ s.all.filter fun x => decide (¬ s.linking x) := by
      rw [he]
    simpa [hl.mem] using h1
  refine ⟨w, hw, hw.sorted (reachable_right h), fun x h1 h2 => ((hmem x).2 ⟨h1, h2⟩).1, fun x hx => ?_⟩
  rcases hst x hx with h1 | h1
  · exact .inl ((hmem x).1 ⟨hx, h1⟩)
  · exact .inr h1

/-- Only live leaves are met while no split is between storing its new leaf in its two neighbours. -/
theorem walk_live {key : Nat → Nat} {s : State} (h : Reachable key s) (hh : ∀ m nr x, s.op m ≠ .s4 nr x) {w : List Nat}
    (hw : Links s.next (some 0) w) : ∀ x ∈ w, s.status x = .live := by
  have hi := reachable_inv h
  have : ∀ {o : Option Nat} {w : List Nat}, Links s.next o w → (∀ x, o = some x → s.status x = .live) →
      ∀ x ∈ w, s.status x = .live := by
    intro o w hw
    induction hw with
    | nil => simp
    | @cons x l _ ih =>
      intro ho y hy
      rcases List.mem_cons.1 hy with rfl | hy
      · exact ho _ rfl
      · refine ih (fun z hz => ?_) y hy
        rw [hi.next x (ho x rfl) (by
          cases hq : s.op x <;> simp [Op.half]
          exact hh _ _ _ hq)] at hz
        exact (hi.lsp x z hz).2.2.1
  exact this hw (by rintro x ⟨⟩; exact hi.first.1)

/-- When no operation is under way, following `next_` meets exactly the live leaves in the order of their keys, every
`prev_` is the leaf before, and nothing is marked. -/
theorem quiescent {key : Nat → Nat} {s : State} (h : Reachable key s) (hq : ∀ n, s.op n = .idle) :
    ∃ w, Links s.next (some 0) w ∧ w.Pairwise (fun x y => key x < key y) ∧ (∀ x, x ∈ w ↔ s.status x = .live) ∧
      s.prev 0 = none ∧ (∀ x y, x ∈ w → s.next x = some y → s.prev y = some x) ∧ ∀ x ∈ w, s.mark x = false := by
  have hi := reachable_inv h
  have hnl : ∀ x, ¬ s.linking x := by rintro x ⟨m, nx, hm⟩; simp [hq] at hm
  obtain ⟨w, hw, hs, h1, h2⟩ := next_walk h
  have hls : ∀ x, s.status x = .live → s.next x = s.ls x := fun x hx => hi.next x hx (by simp [hq, Op.half])
  have hlive := walk_live h (by simp [hq]) hw
  refine ⟨w, hw, hs, fun x => ⟨hlive x, fun hx => h1 x hx (hnl x)⟩, hi.first.2.2, ?_, ?_⟩
  · intro x y hx hxy
    rw [hls x (hlive x hx)] at hxy
    exact hi.prev x y hxy (by simp [hq, Op.moved])
  · intro x hx
    cases hm : s.mark x with
    | false => rfl
    | true =>
      cases hn : s.next x with
      | none => exact absurd hn (hi.markSome x (hlive x hx) hm)
      | some y =>
        have := hi.marked x y (hlive x hx) hm (by simp [hq, Op.locked]) hn
        simp [hq, Op.holds] at this

/-- The live leaf just before `x`. -/
def Before (key : Nat → Nat) (s : State) (y x : Nat) : Prop :=
  s.status y = .live ∧ key y < key x ∧ ∀ z, s.status z = .live → key z < key x → key z ≤ key y

theorem before_of_ls {key : Nat → Nat} {s : State} (h : Reachable key s) {x y : Nat} (hxy : s.ls y = some x) :
    Before key s y x := by
  have hi := reachable_inv h
  have hl := reachable_listed h
  obtain ⟨-, h1, -, h2⟩ := hi.lsp y x hxy
  refine ⟨h1, h2, fun z hz hzx => ?_⟩
  have hs := hl.links.sorted (key := key) fun x y hx => (hi.lsp x y hx).2.2.2
  have hym := (hl.mem y).2 h1
  have hzm := (hl.mem z).2 hz
  clear h1 h2 hz
  generalize ho : some 0 = o at *
  have hlk := ho ▸ hl.links
  clear hl ho
  generalize s.all = l at *
  induction hlk with
  | nil => simp at hym
  | @cons u l h ih =>
    rw [List.pairwise_cons] at hs
    rcases List.mem_cons.1 hzm with rfl | hzl
    · rcases List.mem_cons.1 hym with rfl | hyl
      · exact Nat.le_refl _
      · exact Nat.le_of_lt (hs.1 y hyl)
    · rcases List.mem_cons.1 hym with rfl | hyl
      · rw [hxy] at h
        cases h with
        | cons h =>
          rcases List.mem_cons.1 hzl with rfl | hzl
          · omega
          · have := (List.pairwise_cons.1 hs.2).1 z hzl; omega
      · exact ih hs.2 hyl hzl

/-- `prev_` of a live leaf other than the first is the live leaf just before it; only while that one is in the last step of
being unlinked, it is already the one before that. -/
theorem prev_link {key : Nat → Nat} {s : State} (h : Reachable key s) {x : Nat} (hx : s.status x = .live) (h0 : x ≠ 0) :
    ∃ y, Before key s y x ∧
      (s.prev x = some y ∨ ∃ p, s.op y = .u5 (some x) p ∧ Before key s p y ∧ s.prev x = some p) := by
  have hi := reachable_inv h
  cases hp : s.lp x with
  | none => exact absurd hp (hi.others x hx h0)
  | some y =>
    have hls := hi.lps y x hp
    refine ⟨y, before_of_ls h hls, ?_⟩
    by_cases hm : (s.op y).moved = some x
    · have : ∃ p, s.op y = .u5 (some x) p := by
        revert hm
        cases s.op y <;> simp [Op.moved]
      obtain ⟨p, ho⟩ := this
      exact .inr ⟨p, ho, before_of_ls h (hi.holdsP y p (by simp [ho, Op.holds])).1, hi.u5p y p x ho⟩
    · exact .inl (hi.prev y x hls hm)

/-- A leaf that one meets when following `next_` is still met after any step, until its own `unlink` takes its last step. -/
theorem kept {key : Nat → Nat} {s s' : State} (h : Reachable key s) (st : Step key s s') {x : Nat} {w : List Nat}
    (hw : Links s.next (some 0) w) (hx : x ∈ w) (hl : s.status x = .live) (hu : ∀ nx p, s.op x ≠ .u5 nx p) :
    s'.status x = .live ∧ ∃ w', Links s'.next (some 0) w' ∧ x ∈ w' := by
  have hi := reachable_inv h
  obtain ⟨w0, hw0, -, -, h2⟩ := next_walk h
  cases hw.unique hw0
  have hnl : ¬ s.linking x := by
    rcases h2 x hx with h | h
    · exact h.2
    · rw [hl] at h; cases h
  have hl' : s'.status x = .live ∧ ¬ s'.linking x := by
    cases st with
    | split n nr hn ho hlk hfree hk hk' =>
      have hne : x ≠ nr := by rintro rfl; simp [hfree] at hl
      refine ⟨(Function.update_of_ne hne ..).trans hl, ?_⟩
      rintro ⟨m, nx, hm⟩
      simp only [Function.update_apply] at hm
      split at hm
      · cases hm
      · exact hnl ⟨m, nx, hm⟩
    | s3 n nr nx ho =>
      have hpn : s.status nr = .pending := hi.pendS n nr (by simp [ho, Op.pending])
      have hne : x ≠ nr := by rintro rfl; simp [hpn] at hl
      refine ⟨(Function.update_of_ne hne ..).trans hl, ?_⟩
      rintro ⟨m, nx, hm⟩
      simp only [Function.update_apply] at hm
      split at hm
      · cases hm; exact hne rfl
      · exact hnl ⟨m, nx, hm⟩
    | u5 n p nx ho =>
      have hne : x ≠ n := by rintro rfl; exact hu nx p ho
      refine ⟨(Function.update_of_ne hne ..).trans hl, ?_⟩
      rintro ⟨m, nx, hm⟩
      simp only [Function.update_apply] at hm
      split at hm
      · cases hm
      · exact hnl ⟨m, nx, hm⟩
    | _ =>
      refine ⟨hl, ?_⟩
      rintro ⟨m, nx, hm⟩
      simp only [Function.update_apply] at hm
      split at hm
      · cases hm
      · exact hnl ⟨m, nx, hm⟩
  obtain ⟨w', hw', -, h1, -⟩ := next_walk (h.step st)
  exact ⟨hl'.1, w', hw', h1 x hl'.1 hl'.2⟩

/-- When a split returns, its new leaf is met. -/
theorem split_done {key : Nat → Nat} {s s' : State} (h : Reachable key s) (st : Step key s s') {n nr : Nat} {nx : Option Nat}
    (ho : s.op n = .s4 nr nx) (hd : s'.op n = .idle) : ∃ w, Links s'.next (some 0) w ∧ nr ∈ w := by
  have hi := reachable_inv h
  have hl := (hi.lsp n nr (hi.s4Ls n nr nx ho).1).2.2.1
  obtain ⟨w, hw, -, h1, -⟩ := next_walk (h.step st)
  have hs : s'.status nr = .live ∧ ¬ s'.linking nr := by
    cases st with
    | s4 m r x hm =>
      have : n = m := by
        by_contra hne
        simp only [Function.update_of_ne hne, ho] at hd
        cases hd
      subst this
      refine ⟨hl, ?_⟩
      rintro ⟨k, y, hk⟩
      simp only [Function.update_apply] at hk
      split at hk
      · cases hk
      · rename_i hne
        exact hne (hi.rightInj k n nr (by simp [hk, Op.right]) (by simp [ho, Op.right]))
    | _ =>
      exfalso
      revert hd
      simp only [Function.update_apply]
      split <;> simp_all
  exact ⟨w, hw, h1 nr hs.1 hs.2⟩

/-- When an `unlink` returns and no split is between storing its new leaf in its two neighbours, the leaf is met no more. -/
theorem unlink_done {key : Nat → Nat} {s s' : State} (h : Reachable key s) (st : Step key s s') {n p : Nat} {nx : Option Nat}
    (ho : s.op n = .u5 nx p) (hd : s'.op n = .idle) (hh : ∀ m nr x, s.op m ≠ .s4 nr x) :
    ∃ w, Links s'.next (some 0) w ∧ n ∉ w := by
  obtain ⟨w, hw, -, -, -⟩ := next_walk (h.step st)
  have hs : s'.status n = .dead ∧ ∀ m nr x, s'.op m ≠ .s4 nr x := by
    cases st with
    | u5 m r x hm =>
      have : n = m := by
        by_contra hne
        simp only [Function.update_of_ne hne, ho] at hd
        cases hd
      subst this
      refine ⟨Function.update_self .., fun k nr x hk => ?_⟩
      simp only [Function.update_apply] at hk
      split at hk
      · cases hk
      · exact hh k nr x hk
    | _ =>
      exfalso
      revert hd
      simp only [Function.update_apply]
      split <;> simp_all
  refine ⟨w, hw, fun hn => ?_⟩
  have := walk_live (h.step st) hs.2 hw n hn
  rw [hs.1] at this
  cases this

/-- `unlink` never finds a null `prev_`, and what it finds is a leaf that was linked. -/
theorem prev_valid {key : Nat → Nat} {s : State} (h : Reachable key s) {n : Nat} (hn : (s.op n).unlinks = true) :
    ∃ p, s.prev n = some p ∧ s.status p = .live := by
  have hi := reachable_inv h
  have hl : s.status n = .live := hi.opLive n (by intro h; simp [h, Op.unlinks] at hn)
  obtain ⟨y, hy, h1 | ⟨p, -, h1, h2⟩⟩ := prev_link h hl (hi.notFirst n hn)
  · exact ⟨y, h1, hy.1⟩
  · exact ⟨p, h2, h1.1⟩

/-- The operations cannot block each other: as long as some are under way, one of them can finish by its own steps alone. -/
theorem no_deadlock {key : Nat → Nat} {s : State} (h : Reachable key s) {n : Nat} (hn : s.op n ≠ .idle) :
    ∃ m t, s.op m ≠ .idle ∧ Own key m s t ∧ t.op m = .idle := by
  have hi := reachable_inv h
  suffices hs : ∃ m, s.op m ≠ .idle ∧ Fin key m s by
    obtain ⟨m, h1, t, h2, h3⟩ := hs
    exact ⟨m, t, h1, h2, h3⟩
  by_cases hh : ∃ m p, (s.op m).holds = some p
  · obtain ⟨m, p, hm⟩ := hh
    refine ⟨m, by intro h; simp [h, Op.holds] at hm, ?_⟩
    cases ho : s.op m <;> simp [ho, Op.holds] at hm
    · exact fin_u4 ho
    · exact fin_u5 ho
  · have hnone : ∀ m, (s.op m).holds = none := by
      intro m
      cases hm : (s.op m).holds with
      | none => rfl
      | some p => exact absurd ⟨m, p, hm⟩ hh
    have hmk : ∀ m, s.status m = .live → (s.op m).locked = none → s.next m ≠ none → s.mark m = false := by
      intro m h1 h2 h3
      cases hm : s.mark m with
      | false => rfl
      | true =>
        cases hx : s.next m with
        | none => exact absurd hx h3
        | some y =>
          have := hi.marked m y h1 hm h2 hx
          rw [hnone] at this
          cases this
    by_cases hr : ∃ m r, (s.op m).right = some r
    · obtain ⟨m, r, hm⟩ := hr
      refine ⟨m, by intro h; simp [h, Op.right] at hm, ?_⟩
      have hl : s.status m = .live := hi.opLive m (by intro h; simp [h, Op.right] at hm)
      cases ho : s.op m <;> simp [ho, Op.right] at hm
      · exact fin_s0 ho (hmk m hl (by simp [ho, Op.locked]))
      · exact fin_s1 ho (hmk m hl (by simp [ho, Op.locked]))
      · exact fin_s2 ho
      · exact fin_s3 ho
      · exact fin_s4 ho
    · have : ∀ k n, key n = k → s.op n ≠ .idle → ∃ m, s.op m ≠ .idle ∧ Leftmost key m s := by
        intro k
        induction k using Nat.strongRecOn with
        | _ k ih =>
          intro n hk hn
          by_cases hc : ∃ m, s.op m ≠ .idle ∧ key m < key n
          · obtain ⟨m, h1, h2⟩ := hc
            exact ih (key m) (hk ▸ h2) m rfl h1
          · refine ⟨n, hn, fun m hm => ?_⟩
            by_cases hmi : s.op m = .idle
            · exact .inl hmi
            · refine .inr ⟨?_, hnone m⟩
              rcases Nat.lt_trichotomy (key n) (key m) with h1 | h1 | h1
              · exact h1
              · exact absurd (hi.keyInj n m (hi.opLive n hn) (hi.opLive m hmi) h1) (Ne.symm hm)
              · exact absurd ⟨m, hmi, h1⟩ hc
      obtain ⟨m, hm, hlm⟩ := this _ n rfl hn
      refine ⟨m, hm, ?_⟩
      cases ho : s.op m with
      | idle => exact absurd ho hm
      | s0 r => exact absurd ⟨m, r, by simp [ho, Op.right]⟩ hr
      | s1 r => exact absurd ⟨m, r, by simp [ho, Op.right]⟩ hr
      | s2 r _ => exact absurd ⟨m, r, by simp [ho, Op.right]⟩ hr
      | s3 r _ => exact absurd ⟨m, r, by simp [ho, Op.right]⟩ hr
      | s4 r _ => exact absurd ⟨m, r, by simp [ho, Op.right]⟩ hr
      | u1 => exact fin_u1 hi hlm ho (hmk m (hi.opLive m hm) (by simp [ho, Op.locked]))
      | u2 nx => exact fin_u2 hi hlm ho
      | u3 nx p => exact fin_u3 hi hlm ho
      | u4 nx p => exact fin_u4 ho
      | u5 nx p => exact fin_u5 ho

/-- Lowest keys for the examples. -/
def key : Nat → Nat
  | 0 => 0
  | 1 => 20
  | 2 => 10
  | _ => 30

/-- Leaf 0 has been split, so that 0 and 1 are linked. -/
theorem two : ∃ s, Reachable key s ∧ (∀ n, s.op n = .idle) ∧ s.next 0 = some 1 ∧ s.next 1 = none ∧ s.prev 1 = some 0 ∧
    s.mark 0 = false ∧ s.mark 1 = false ∧ (∀ x, s.status x = if x ≤ 1 then .live else .free) ∧ s.prev 0 = none := by
  refine ⟨_, ((((((Reachable.init.step (.split 0 1 rfl rfl ?_ rfl (by decide) ?_)).step (.s0 0 1 rfl)).step
    (.s1null 0 1 rfl rfl)).step (.s2 0 1 none rfl)).step (.s3 0 1 none rfl)).step (.s4 0 1 none rfl)), ?_, rfl, rfl, rfl, rfl,
    rfl, ?_, rfl⟩
  · rintro ⟨m, nx, h⟩
    cases h
  · intro x hx
    simp only [State.init] at hx
    split at hx
    · rename_i h; subst h; decide
    · cases hx
  · intro n
    simp only [Function.update_apply, State.init]
    split <;> rfl
  · intro x
    simp only [Function.update_apply, State.init]
    split
    · rename_i h; subst h; rfl
    · split
      · rename_i h; subst h; rfl
      · rw [if_neg (by omega)]

/-- `quiescent` and `prev_link` apply after a split, and the walk is `[0, 1]`. -/
example : ∃ s, Reachable key s ∧ (∀ n, s.op n = .idle) ∧ s.status 1 = .live ∧ Links s.next (some 0) [0, 1] := by
  obtain ⟨s, hr, hq, h01, h1, -, -, -, hst, -⟩ := two
  refine ⟨s, hr, hq, by simp [hst], .cons ?_⟩
  rw [h01]
  refine .cons ?_
  rw [h1]
  exact .nil

/-- `kept`, `unlink_done`, `prev_valid` and `no_deadlock` apply while leaf 1 is in the last step of being unlinked and another
split waits: leaf 0 cannot lock its `next_`. -/
example : ∃ s, Reachable key s ∧ s.op 1 = .u5 none 0 ∧ (∀ m nr x, s.op m ≠ .s4 nr x) ∧ s.op 0 = .s1 2 ∧ s.mark 0 = true ∧
    s.next 0 = some 1 ∧ s.status 0 = .live := by
  obtain ⟨s, hr, hq, h01, h1, hp1, hm0, hm1, hst, -⟩ := two
  have hl : ∀ x, ¬ s.linking x := by rintro x ⟨m, nx, h⟩; simp [hq] at h
  have r1 := hr.step (.split 0 2 (by simp [hst]) (hq 0) (hl 0) (by simp [hst]) (by decide) (by
    intro x hx _
    have : x ≤ 1 := by
      rw [hst] at hx
      split at hx
      · assumption
      · cases hx
    have : x = 0 ∨ x = 1 := by omega
    rcases this with rfl | rfl
    · simp_all
    · decide))
  have r2 := r1.step (.s0 0 2 rfl)
  have r3 := r2.step (.unlink 1 (by simp [Function.update_apply, hst]) (by simp [Function.update_apply, hq]) (by
    rintro ⟨m, nx, h⟩
    simp only [Function.update_apply, hq] at h
    split at h <;> cases h) (by simp [Function.update_apply, hp1]))
  have r4 := r3.step (.u1null 1 rfl (by simp [h1]))
  have r5 := r4.step (.u2 1 0 none rfl (by simp [Function.update_apply, hp1]))
  have r6 := r5.step (.u3 1 0 none rfl h01 hm0)
  have r7 := r6.step (.u4 1 0 none rfl)
  refine ⟨_, r7, rfl, ?_, rfl, rfl, h01, by simp [Function.update_apply, hst]⟩
  intro m nr x h
  simp only [Function.update_apply, hq] at h
  split at h
  · cases h
  · repeat' split at h
    all_goals cases h

/-- Next to a split that has reached the right neighbour only, the right neighbour can be unlinked completely; it is still
met from the first leaf afterwards, until the split stores its new leaf.  (Leaf 0 is being split, with new leaf 2; leaf
1 is removed.) -/
theorem removed_still_met : ∃ s, Reachable key s ∧ s.status 1 = .dead ∧ s.op 1 = .idle ∧ s.op 0 = .s4 2 (some 1) ∧
    Links s.next (some 0) [0, 1] := by
  obtain ⟨s, hr, hq, h01, h1, hp1, hm0, hm1, hst, -⟩ := two
  have hl : ∀ x, ¬ s.linking x := by rintro x ⟨m, nx, h⟩; simp [hq] at h
  have r1 := hr.step (.split 0 2 (by simp [hst]) (hq 0) (hl 0) (by simp [hst]) (by decide) (by
    intro x hx _
    have : x ≤ 1 := by
      rw [hst] at hx
      split at hx
      · assumption
      · cases hx
    have : x = 0 ∨ x = 1 := by omega
    rcases this with rfl | rfl
    · simp_all
    · decide))
  have r2 := r1.step (.s0 0 2 rfl)
  have r3 := r2.step (.s1 0 2 1 rfl h01 hm0)
  have r4 := r3.step (.s2 0 2 (some 1) rfl)
  have r5 := r4.step (.s3 0 2 (some 1) rfl)
  have r6 := r5.step (.unlink 1 (by simp [Function.update_apply, hst]) (by simp [Function.update_apply, hq]) (by
    rintro ⟨m, nx, h⟩
    simp only [Function.update_apply, hq] at h
    split at h <;> cases h) (by simp [assign]))
  have r7 := r6.step (.u1null 1 rfl (by simp [Function.update_apply, h1]))
  have r8 := r7.step (.u2 1 2 none rfl rfl)
  have r9 := r8.step (.u3 1 2 none rfl rfl (by simp [Function.update_apply]))
  have r10 := r9.step (.u4 1 2 none rfl)
  have r11 := r10.step (.u5 1 2 none rfl)
  refine ⟨_, r11, rfl, rfl, rfl, .cons ?_⟩
  have e : Function.update (Function.update s.next 2 (some 1)) 2 none 0 = some 1 := by simp [Function.update_apply, h01]
  have e' : Function.update (Function.update s.next 2 (some 1)) 2 none 1 = none := by simp [Function.update_apply, h1]
  show Links (Function.update (Function.update s.next 2 (some 1)) 2 none)
    (Function.update (Function.update s.next 2 (some 1)) 2 none 0) [1]
  rw [e]
  refine .cons ?_
  rw [e']
  exact .nil

end Verif.Props.C12
