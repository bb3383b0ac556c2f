import Verif.Log.MultiInv

/-!
# Wake-ups in the logs

Invariants of executions in which a logger that notices a wake-up before its log has recorded it
goes to rest in the same turn.
-/
namespace Verif.Log

/-- An update's epoch is the global epoch when it is recorded, and when a logger takes its turn either the log
has recorded the latest wake-up or the log goes to rest. -/
def Alert (s : Sys) : LAct → Prop
  | .update _ q => q.qt.epoch = s.ge
  | .logger i w => (s.logs i).marks.wake = s.gw ∨ ((s.logs i).logger s.ge s.gw w).marks.quiescent ≠ 0
  | _ => True

def Ok (s : Sys) (a : LAct) : Prop := InOrder s a ∧ Alert s a

/-- The number of updates among the records. -/
def updates (rs : List Rec) : Nat := rs.countP Rec.isUpd

/-- What one log knows about wake-ups. -/
structure WInv (gw : Nat) (recs : List Rec) (m : Marks) (h : List Entry) : Prop where
  logged : m.wake ≠ 0 → m.quiescent ≠ 0 ∨ ∃ w, (w, Rec.wake) ∈ tagged 0 recs ∧ m.wake ≤ w
  slept : m.quiescent ≠ 0 → m.wake < m.quiescent ∧ m.quiescent ≤ m.logEpoch
  resting : ∀ p1 p2, recs = p1 ++ .quiesce :: p2 → (∀ r ∈ p2, r.isUpd = false) → m.quiescent ≠ 0
  wakes : ∀ p r t, recs = p ++ r :: t → r.isUpd = true → ∀ y, h[updates p]? = some y → y.gw ≠ 0 →
    ∃ w, (w, Rec.wake) ∈ tagged 0 p ∧ y.gw ≤ w
  first : ∀ p r t, recs = p ++ r :: t → r.isUpd = true → ∀ y, h[updates p]? = some y →
    ∀ p1 p2, p = p1 ++ .quiesce :: p2 → (∀ r ∈ p2, r.isUpd = false) → lastE 0 p1 ≤ y.gw

theorem updates_of {ge last : Nat} {recs : List Rec} {h : List Entry} (hi : LInv ge recs last h) :
    updates recs = h.length := by
  have h1 := congrArg List.length hi.upd
  rw [List.length_map] at h1
  rw [← h1, ← List.countP_eq_length_filter]
  conv => lhs; rw [updates, ← tagged_snd recs 0, List.countP_map]
  rfl

/-- An update is not among records that are none. -/
theorem split_before {a g p t : List Rec} {r : Rec} (h : a ++ g = p ++ r :: t) (hg : ∀ x ∈ g, x.isUpd = false)
    (hr : r.isUpd = true) : ∃ t', a = p ++ r :: t' := by
  rcases List.append_eq_append_iff.1 h with ⟨a', h1, h2⟩ | ⟨c', h1, h2⟩
  · have : r ∈ g := by rw [h2]; simp
    rw [hg r this] at hr
    cases hr
  · cases c' with
    | nil =>
      have : r ∈ g := by
        have : r :: t = g := by simpa using h2
        rw [← this]; simp
      rw [hg r this] at hr
      cases hr
    | cons b c =>
      obtain ⟨rfl, _⟩ := List.cons.inj h2
      exact ⟨c, h1⟩

/-- An update at the end, after records that are none. -/
theorem split_last {a g p t : List Rec} {u r : Rec} (h : a ++ (g ++ [u]) = p ++ r :: t) (hg : ∀ x ∈ g, x.isUpd = false)
    (hr : r.isUpd = true) : (∃ t', a = p ++ r :: t') ∨ p = a ++ g ∧ r = u := by
  rcases List.eq_nil_or_concat t with rfl | ⟨t', x, rfl⟩
  · right
    rw [← List.append_assoc] at h
    have h2 : p ++ [r] = p ++ r :: [] := rfl
    rw [← h2] at h
    have := List.append_inj' h rfl
    exact ⟨this.1.symm, by simpa using this.2.symm⟩
  · left
    have h2 : (a ++ g) ++ [u] = (p ++ r :: t') ++ [x] := by simpa using h
    exact split_before (List.append_inj' h2 rfl).1 hg hr

theorem WInv.nil (gw : Nat) : WInv gw [] ⟨0, 0, 0, 0⟩ [] :=
  ⟨fun h => absurd rfl h, fun h => absurd rfl h, fun p1 p2 h => by simp at h, fun p r t h => by simp at h, fun p r t h => by simp at h⟩

theorem getElem?_append_old {α : Type} {l l' : List α} {i : Nat} (h : i < l.length) : (l ++ l')[i]? = l[i]? :=
  List.getElem?_append_left h

theorem updates_lt {p t : List Rec} {r : Rec} (hr : r.isUpd = true) : updates p < updates (p ++ r :: t) := by
  unfold updates
  rw [List.countP_append, List.countP_cons_of_pos hr]
  omega

theorem WInv.quiesce {ge gw last : Nat} {recs : List Rec} {m : Marks} {h : List Entry} (hw : WInv gw recs m h)
    (hi : LInv ge recs last h) (hge : ge ≠ 0) (w : Nat) {m' : Marks} (hm : m'.wake < ge) :
    WInv gw (recs ++ quiesceGroup ge w) (m'.rested ge) h := by
  refine ⟨fun _ => Or.inl hge, fun _ => ⟨hm, Nat.le_refl _⟩, fun _ _ _ _ => hge, fun p r t he hr y hy => ?_, fun p r t he hr y hy => ?_⟩
  · obtain ⟨t', ht⟩ := split_before he (quiesceGroup_noUpd _ _) hr
    exact hw.wakes p r t' ht hr y hy
  · obtain ⟨t', ht⟩ := split_before he (quiesceGroup_noUpd _ _) hr
    exact hw.first p r t' ht hr y hy

theorem quiesce_notin_prefix (m : Marks) (gw : Nat) (q : Req) {p : List Rec} (h : m.group gw q = p ++ [q.update]) :
    Rec.quiesce ∉ p := by
  intro hm
  have : Rec.quiesce ∈ m.group gw q := by rw [h]; exact List.mem_append_left _ hm
  unfold Marks.group at this
  rcases List.mem_append.1 this with h1 | h1
  · rcases List.mem_append.1 h1 with h2 | h2
    · split at h2
      · exact absurd (List.mem_singleton.1 h2) (by simp)
      · cases h2
    · split at h2
      · exact absurd (List.mem_singleton.1 h2) (by simp)
      · cases h2
  · have := List.mem_singleton.1 h1
    have h3 := update_isUpd q
    rw [← this] at h3
    cases h3

theorem WInv.update {ge gw : Nat} {recs : List Rec} {m : Marks} {h : List Entry} (hw : WInv gw recs m h)
    (hi : LInv ge recs m.logEpoch h) (hgw : gw ≤ ge) (q : Req) (hq : q.qt.epoch = ge) (i : Nat) :
    WInv (m.globalWake gw q) (recs ++ m.group gw q) (m.recorded gw q) (h ++ [⟨i, q, m.globalWake gw q⟩]) := by
  obtain ⟨g, hg, hno, hwake⟩ := group_split m gw q
  have hG : m.globalWake gw q ≤ ge := by
    unfold Marks.globalWake
    split <;> omega
  have hfor : m.wakeFor gw q = m.globalWake gw q := by
    unfold Marks.wakeFor
    dsimp only
    rw [if_neg]
    omega
  -- the wake-up is logged before the update
  have hlog : m.globalWake gw q ≠ 0 → ∃ w, (w, Rec.wake) ∈ tagged 0 (recs ++ g) ∧ m.globalWake gw q ≤ w := by
    intro h0
    rw [tagged_append, hi.last_eq]
    by_cases hne : m.wakeFor gw q ≠ m.wake
    · have hm := hwake hne
      rw [← tagged_snd g m.logEpoch] at hm
      obtain ⟨t, ht, hts⟩ := List.mem_map.1 hm
      have htag : t.1 = q.qt.epoch := by
        apply group_tags m gw q
        rw [hg, tagged_append]
        exact List.mem_append_left _ ht
      refine ⟨t.1, List.mem_append_right _ ?_, by omega⟩
      rw [← hts]
      exact ht
    · have heq : m.wake = m.globalWake gw q := by omega
      rcases hw.logged (by omega) with hz | ⟨w, hm, hl⟩
      · exfalso
        have h1 := hw.slept hz
        have h2 := hi.le
        unfold Marks.globalWake at heq
        split at heq <;> omega
      · exact ⟨w, List.mem_append_left _ hm, by omega⟩
  have hlen := updates_of hi
  have hgn : updates g = 0 := List.countP_eq_zero.2 fun r hr => by simp [hno r hr]
  have hat : ∀ p : List Rec, p = recs ++ g → (h ++ [(⟨i, q, m.globalWake gw q⟩ : Entry)])[updates p]? = some ⟨i, q, m.globalWake gw q⟩ := by
    intro p hp
    have : updates p = h.length := by
      rw [hp]
      unfold updates at *
      rw [List.countP_append]
      omega
    rw [this]
    simp
  have hold : ∀ (p t : List Rec) (r : Rec), recs = p ++ r :: t → r.isUpd = true →
      (h ++ [(⟨i, q, m.globalWake gw q⟩ : Entry)])[updates p]? = h[updates p]? := by
    intro p t r he hr
    apply getElem?_append_old
    rw [← hlen, he]
    exact updates_lt hr
  refine ⟨fun h0 => Or.inr ?_, fun h0 => absurd rfl h0, fun p1 p2 he hp2 => ?_, fun p r t he hr y hy => ?_, fun p r t he hr y hy => ?_⟩
  · have h1 : (m.recorded gw q).wake = m.globalWake gw q := hfor
    rw [h1] at h0 ⊢
    obtain ⟨w, hm, hl⟩ := hlog h0
    refine ⟨w, ?_, hl⟩
    rw [hg, ← List.append_assoc, tagged_append]
    exact List.mem_append_left _ hm
  · exfalso
    rw [hg] at he
    rcases List.eq_nil_or_concat p2 with rfl | ⟨p2', x, rfl⟩
    · have h2 : (recs ++ g) ++ [q.update] = p1 ++ [Rec.quiesce] := by simpa using he
      have h3 := (List.append_inj' h2 rfl).2
      have h4 := update_isUpd q
      rw [(List.cons.inj h3).1] at h4
      cases h4
    · have h2 : (recs ++ g) ++ [q.update] = (p1 ++ Rec.quiesce :: p2') ++ [x] := by simpa using he
      have h3 := (List.append_inj' h2 rfl).2
      have h4 := update_isUpd q
      have h5 := hp2 x (by simp)
      rw [(List.cons.inj h3).1, h5] at h4
      cases h4
  · rw [hg] at he
    rcases split_last he hno hr with ⟨t', ht⟩ | ⟨hp, _⟩
    · rw [hold p t' r ht hr] at hy
      exact hw.wakes p r t' ht hr y hy
    · rw [hat p hp] at hy
      rw [hp]
      cases hy
      exact hlog
  · rw [hg] at he
    rcases split_last he hno hr with ⟨t', ht⟩ | ⟨hp, _⟩
    · rw [hold p t' r ht hr] at hy
      exact hw.first p r t' ht hr y hy
    · rw [hat p hp] at hy
      cases hy
      intro p1 p2 hp12 hp2
      -- the notification is in the old part
      have hin : ∃ p2', recs = p1 ++ Rec.quiesce :: p2' ∧ ∀ x ∈ p2', x.isUpd = false := by
        rcases List.append_eq_append_iff.1 (hp.symm.trans hp12) with ⟨a', h1, h2⟩ | ⟨c', h1, h2⟩
        · exact absurd (by rw [h2]; simp) (quiesce_notin_prefix m gw q hg)
        · cases c' with
          | nil =>
            have h3 : Rec.quiesce :: p2 = g := by simpa using h2
            exact absurd (by rw [← h3]; simp) (quiesce_notin_prefix m gw q hg)
          | cons b c =>
            obtain ⟨rfl, h3⟩ := List.cons.inj h2
            exact ⟨c, h1, fun x hx => hp2 x (by rw [h3]; exact List.mem_append_left _ hx)⟩
      obtain ⟨p2', hr2, hn2⟩ := hin
      have hrest := hw.resting p1 p2' hr2 hn2
      have hb : lastE 0 p1 ≤ m.logEpoch := by
        have := hi.bound (lastE 0 p1, .quiesce) (by rw [hr2, tagged_append]; simp [tagged, Rec.epochAfter])
        exact this
      have hle := hi.le
      show lastE 0 p1 ≤ m.globalWake gw q
      unfold Marks.globalWake
      split <;> omega

/-- The whole system. -/
structure SInv (s : Sys) : Prop where
  gw_le : s.gw ≤ s.ge
  gws : s.hist.Pairwise fun a b => a.gw ≤ b.gw
  gw_last : ∀ x ∈ s.hist, x.gw ≤ s.gw
  epochs : s.hist.Pairwise fun a b => a.q.qt.epoch ≤ b.q.qt.epoch
  epoch_last : ∀ x ∈ s.hist, x.q.qt.epoch ≤ s.ge
  logs : ∀ i, WInv s.gw (s.logs i).recs (s.logs i).marks (s.of i)

theorem WInv.gw {gw gw' : Nat} {recs : List Rec} {m : Marks} {h : List Entry} (hw : WInv gw recs m h) :
    WInv gw' recs m h := ⟨hw.logged, hw.slept, hw.resting, hw.wakes, hw.first⟩

theorem reach_sinv {s : Sys} (h : Reach Ok s) : SInv s := by
  induction h with
  | init => exact ⟨Nat.zero_le _, List.Pairwise.nil, by simp [Sys.init], List.Pairwise.nil, by simp [Sys.init], fun i => WInv.nil 0⟩
  | @step s a hr hs ih =>
    have hinv := reach_inv (fun _ _ h => h.1) hr
    cases a with
    | tick =>
      exact ⟨Nat.le_succ_of_le ih.gw_le, ih.gws, ih.gw_last, ih.epochs, fun x hx => Nat.le_succ_of_le (ih.epoch_last x hx), ih.logs⟩
    | update i q =>
      have hq : q.qt.epoch = s.ge := hs.2
      have hG : (s.logs i).marks.globalWake s.gw q ≤ s.ge := by
        have := ih.gw_le
        unfold Marks.globalWake
        split <;> omega
      have hG2 : s.gw ≤ (s.logs i).marks.globalWake s.gw q := by
        unfold Marks.globalWake
        split <;> omega
      refine ⟨hG, ?_, ?_, ?_, ?_, fun j => ?_⟩
      · refine List.pairwise_append.2 ⟨ih.gws, List.pairwise_singleton _ _, ?_⟩
        intro a ha b hb
        rw [List.mem_singleton.1 hb]
        exact Nat.le_trans (ih.gw_last a ha) hG2
      · intro x hx
        rcases List.mem_append.1 hx with hx | hx
        · exact Nat.le_trans (ih.gw_last x hx) hG2
        · rw [List.mem_singleton.1 hx]; exact Nat.le_refl _
      · refine List.pairwise_append.2 ⟨ih.epochs, List.pairwise_singleton _ _, ?_⟩
        intro a ha b hb
        rw [List.mem_singleton.1 hb]
        exact Nat.le_trans (ih.epoch_last a ha) (Nat.le_of_eq hq.symm)
      · intro x hx
        rcases List.mem_append.1 hx with hx | hx
        · exact ih.epoch_last x hx
        · rw [List.mem_singleton.1 hx]; exact Nat.le_of_eq hq
      · show WInv _ (if j = i then (s.logs i).record s.gw q else s.logs j).recs
          (if j = i then (s.logs i).record s.gw q else s.logs j).marks
          ((s.hist ++ [(⟨i, q, (s.logs i).marks.globalWake s.gw q⟩ : Entry)]).filter fun x => x.log = j)
        rw [of_update]
        by_cases hj : j = i
        · subst hj
          rw [if_pos rfl, if_pos rfl]
          exact (ih.logs j).update (hinv.2 j) ih.gw_le q hq j
        · rw [if_neg hj, if_neg (Ne.symm hj), List.append_nil]
          exact (ih.logs j).gw
    | logger i w =>
      have hwk : (s.logs i).marks.wake = s.gw ∨ ((s.logs i).logger s.ge s.gw w).marks.quiescent ≠ 0 := hs.2
      unfold Sys.step
      dsimp only
      split
      · refine ⟨ih.gw_le, ih.gws, ih.gw_last, ih.epochs, ih.epoch_last, fun j => ?_⟩
        show WInv _ (if j = i then (s.logs i).logger s.ge s.gw w else s.logs j).recs
          (if j = i then (s.logs i).logger s.ge s.gw w else s.logs j).marks (s.of j)
        by_cases hj : j = i
        · subst hj
          rw [if_pos rfl]
          rcases logger_cases (s.logs j) s.ge s.gw w with ⟨h1, h2⟩ | ⟨h1, h2, h3⟩
          · have hn : (s.logs j).marks.noticeWake s.gw = (s.logs j).marks := by
              unfold Marks.noticeWake
              by_cases hc : (s.logs j).marks.wake ≠ s.gw
              · exfalso
                rcases hwk with h | h
                · exact hc h
                · rw [h2] at h
                  unfold Marks.noticeWake at h
                  rw [if_pos hc] at h
                  exact h rfl
              · rw [if_neg hc]
            rw [h1, h2, hn]; exact ih.logs j
          · rw [h1, h2]
            have := hinv.1
            have hw' : ((s.logs j).marks.noticeWake s.gw).wake = s.gw := by
              unfold Marks.noticeWake
              split
              · rfl
              · rename_i hc; omega
            have h4 := h3.2.2
            have h5 := ih.gw_le
            exact (ih.logs j).quiesce (hinv.2 j) (by omega) _ (by omega)
        · rw [if_neg hj]; exact ih.logs j
      · exact ih
    | written i =>
      unfold Sys.step
      dsimp only
      split
      · exact ih
      · refine ⟨ih.gw_le, ih.gws, ih.gw_last, ih.epochs, ih.epoch_last, fun j => ?_⟩
        dsimp only
        by_cases hj : j = i
        · subst hj
          rw [if_pos rfl]
          have h := ih.logs j
          exact ⟨h.logged, h.slept, h.resting, h.wakes, h.first⟩
        · rw [if_neg hj]; exact ih.logs j

end Verif.Log
