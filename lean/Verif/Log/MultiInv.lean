import Verif.Log.MultiLemmas

/-!
# Invariants of the logs
-/
namespace Verif.Log

/-- Whether the record is an update. -/
def Rec.isUpd (r : Rec) : Bool := r.key?.isSome

theorem update_isUpd (q : Req) : q.update.isUpd = true := by
  unfold Req.update
  split <;> rfl

theorem update_key (q : Req) : q.update.key? = some q.key := by
  unfold Req.update
  split <;> rfl

theorem update_epochAfter (q : Req) (e : Nat) : q.update.epochAfter e = e := by
  unfold Req.update
  split <;> rfl

theorem epochAfter_epoch (e e' : Nat) : (Rec.epoch e').epochAfter e = e' := rfl

theorem epochAfter_wake (e : Nat) : Rec.wake.epochAfter e = e := rfl

theorem applied_isUpd {r : Rec} (h : r.applied = true) : r.isUpd = true := by
  unfold Rec.applied at h
  unfold Rec.isUpd
  cases hk : r.key? with
  | none => rw [hk] at h; exact absurd h (by simp)
  | some k => rfl

theorem update_applied (q : Req) : q.update.applied = decide (q.key ≠ []) := by
  unfold Rec.applied
  rw [update_key]
  cases q.key <;> simp

/-- A list of records, its last epoch, and the updates it stands for. -/
structure LInv (ge : Nat) (recs : List Rec) (last : Nat) (h : List Entry) : Prop where
  sorted : Sorted (tagged 0 recs)
  nz : ∀ t ∈ tagged 0 recs, t.1 ≠ 0
  bound : ∀ t ∈ tagged 0 recs, t.1 ≤ last
  last_eq : lastE 0 recs = last
  le : last ≤ ge
  upd : (tagged 0 recs).filter (fun t => t.2.isUpd) = h.map fun x => (x.q.qt.epoch, x.q.update)

theorem LInv.nil (ge : Nat) : LInv ge [] 0 [] :=
  ⟨List.Pairwise.nil, by simp [tagged], by simp [tagged], rfl, Nat.zero_le _, rfl⟩

theorem LInv.mono {ge ge' : Nat} {recs : List Rec} {last : Nat} {h : List Entry} (hi : LInv ge recs last h)
    (hle : ge ≤ ge') : LInv ge' recs last h :=
  ⟨hi.sorted, hi.nz, hi.bound, hi.last_eq, Nat.le_trans hi.le hle, hi.upd⟩

/-- Records of one epoch at the end. -/
theorem LInv.append {ge : Nat} {recs : List Rec} {last : Nat} {h h' : List Entry} (hi : LInv ge recs last h)
    {g : List Rec} {e : Nat} (ht : ∀ t ∈ tagged last g, t.1 = e) (hl : lastE last g = e) (h1 : last ≤ e) (h2 : e ≠ 0)
    (h3 : e ≤ ge)
    (hu : (tagged last g).filter (fun t => t.2.isUpd) = h'.map fun x => (x.q.qt.epoch, x.q.update)) :
    LInv ge (recs ++ g) e (h ++ h') := by
  have hta : tagged 0 (recs ++ g) = tagged 0 recs ++ tagged last g := by rw [tagged_append, hi.last_eq]
  refine ⟨?_, ?_, ?_, ?_, h3, ?_⟩
  · rw [hta]
    refine List.pairwise_append.2 ⟨hi.sorted, ?_, ?_⟩
    · exact List.Pairwise.imp_of_mem (fun {a b} ha hb _ => by rw [ht a ha, ht b hb]) (List.pairwise_of_forall (R := fun _ _ => True) (fun _ _ => trivial))
    · intro a ha b hb
      rw [ht b hb]
      exact Nat.le_trans (hi.bound a ha) h1
  · rw [hta]
    intro t hm
    rcases List.mem_append.1 hm with hm | hm
    · exact hi.nz t hm
    · rw [ht t hm]; exact h2
  · rw [hta]
    intro t hm
    rcases List.mem_append.1 hm with hm | hm
    · exact Nat.le_trans (hi.bound t hm) h1
    · exact Nat.le_of_eq (ht t hm)
  · rw [lastE_append, hi.last_eq, hl]
  · rw [hta, List.filter_append, hi.upd, hu, List.map_append]

/-- All records of a request carry its epoch. -/
theorem group_tags (m : Marks) (gw : Nat) (q : Req) : ∀ t ∈ tagged m.logEpoch (m.group gw q), t.1 = q.qt.epoch := by
  intro t ht
  unfold Marks.group at ht
  by_cases h1 : q.qt.epoch ≠ m.logEpoch
  · by_cases h2 : m.wakeFor gw q ≠ m.wake
    · rw [if_pos h1, if_pos h2] at ht
      simp only [List.cons_append, List.nil_append, tagged, epochAfter_epoch, epochAfter_wake, update_epochAfter, List.mem_cons, List.not_mem_nil, or_false] at ht
      rcases ht with rfl | rfl | rfl <;> rfl
    · rw [if_pos h1, if_neg h2] at ht
      simp only [List.cons_append, List.nil_append, tagged, epochAfter_epoch, epochAfter_wake, update_epochAfter, List.mem_cons, List.not_mem_nil, or_false] at ht
      rcases ht with rfl | rfl <;> rfl
  · have h1' : m.logEpoch = q.qt.epoch := by omega
    by_cases h2 : m.wakeFor gw q ≠ m.wake
    · rw [if_neg h1, if_pos h2] at ht
      simp only [List.cons_append, List.nil_append, tagged, epochAfter_epoch, epochAfter_wake, update_epochAfter, List.mem_cons, List.not_mem_nil, or_false] at ht
      rcases ht with rfl | rfl <;> exact h1'
    · rw [if_neg h1, if_neg h2] at ht
      simp only [List.nil_append, tagged, update_epochAfter, List.mem_cons, List.not_mem_nil, or_false] at ht
      subst ht; exact h1'

theorem group_last (m : Marks) (gw : Nat) (q : Req) : lastE m.logEpoch (m.group gw q) = q.qt.epoch := by
  have hne : m.group gw q ≠ [] := by simp [Marks.group]
  obtain ⟨r, hr⟩ := last_tag (m.group gw q) m.logEpoch hne
  exact group_tags m gw q _ hr

/-- The only update in it is the last record. -/
theorem group_split (m : Marks) (gw : Nat) (q : Req) :
    ∃ p : List Rec, m.group gw q = p ++ [q.update] ∧ (∀ r ∈ p, r.isUpd = false) ∧
      (m.wakeFor gw q ≠ m.wake → Rec.wake ∈ p) := by
  refine ⟨(if q.qt.epoch ≠ m.logEpoch then [.epoch q.qt.epoch] else []) ++ (if m.wakeFor gw q ≠ m.wake then [.wake] else []), rfl, ?_, ?_⟩
  · intro r hr
    rcases List.mem_append.1 hr with h | h
    · split at h
      · rw [List.mem_singleton.1 h]; rfl
      · cases h
    · split at h
      · rw [List.mem_singleton.1 h]; rfl
      · cases h
  · intro h
    rw [if_pos h]
    simp

theorem group_upd (m : Marks) (gw : Nat) (q : Req) :
    (tagged m.logEpoch (m.group gw q)).filter (fun t => t.2.isUpd) = [(q.qt.epoch, q.update)] := by
  obtain ⟨p, hp, hn, _⟩ := group_split m gw q
  have hl := group_last m gw q
  rw [hp] at hl ⊢
  rw [tagged_append, List.filter_append, filter_nil_of (fun t ht => hn t.2 (mem_tagged ht)), List.nil_append]
  rw [lastE_append] at hl
  simp only [lastE_cons, lastE_nil, update_epochAfter] at hl
  simp [tagged, update_epochAfter, hl, update_isUpd]

theorem quiesceGroup_tags (last ge gw : Nat) : ∀ t ∈ tagged last (quiesceGroup ge gw), t.1 = ge := by
  intro t ht
  unfold quiesceGroup at ht
  split at ht <;>
    simp only [List.cons_append, List.nil_append, tagged, Rec.epochAfter, List.mem_cons, List.not_mem_nil, or_false] at ht
  · rcases ht with rfl | rfl | rfl <;> rfl
  · rcases ht with rfl | rfl <;> rfl

theorem quiesceGroup_last (last ge gw : Nat) : lastE last (quiesceGroup ge gw) = ge := by
  unfold quiesceGroup
  split <;> rfl

theorem quiesceGroup_noUpd (ge gw : Nat) : ∀ r ∈ quiesceGroup ge gw, r.isUpd = false := by
  intro r hr
  unfold quiesceGroup at hr
  split at hr <;>
    simp only [List.cons_append, List.nil_append, List.mem_cons, List.not_mem_nil, or_false] at hr
  · rcases hr with rfl | rfl | rfl <;> rfl
  · rcases hr with rfl | rfl <;> rfl

/-! ### Executions -/

/-- The states reached by steps that `ok` allows. -/
inductive Reach (ok : Sys → LAct → Prop) : Sys → Prop where
  | init : Reach ok Sys.init
  | step {s : Sys} (a : LAct) : Reach ok s → ok s a → Reach ok (s.step a)

/-- The updates of a log. -/
def Sys.of (s : Sys) (i : Nat) : List Entry := s.hist.filter fun x => x.log = i

/-- An update's epoch is the one the global epoch had at some time since the log last recorded something. -/
def InOrder (s : Sys) : LAct → Prop
  | .update i q => (s.logs i).marks.logEpoch ≤ q.qt.epoch ∧ q.qt.epoch ≤ s.ge ∧ q.qt.epoch ≠ 0
  | _ => True

/-- The logger's turn either leaves the records alone or appends a quiescence notification. -/
theorem logger_cases (l : Lg) (ge gw : Nat) (w : Bool) :
    ((l.logger ge gw w).recs = l.recs ∧ (l.logger ge gw w).marks = l.marks.noticeWake gw) ∨
    ((l.logger ge gw w).recs = l.recs ++ quiesceGroup ge (l.marks.noticeWake gw).wake ∧
      (l.logger ge gw w).marks = (l.marks.noticeWake gw).rested ge ∧ (l.marks.noticeWake gw).mayRest ge gw) := by
  unfold Lg.logger
  dsimp only
  by_cases hq : (decide (l.swapped = l.recs.length) && decide ((l.marks.noticeWake gw).mayRest ge gw) && !w) = true
  · right
    have hr : (l.marks.noticeWake gw).mayRest ge gw := by
      simp only [Bool.and_eq_true, decide_eq_true_eq] at hq
      exact hq.1.2
    rw [if_pos hq, if_pos hq]
    split <;> exact ⟨rfl, rfl, hr⟩
  · left
    rw [if_neg hq, if_neg hq]
    split <;> exact ⟨rfl, rfl⟩

theorem noticeWake_logEpoch (m : Marks) (gw : Nat) : (m.noticeWake gw).logEpoch = m.logEpoch := by
  unfold Marks.noticeWake
  split <;> rfl

theorem of_update (s : Sys) (i j : Nat) (q : Req) (g : Nat) :
    (s.hist ++ [(⟨i, q, g⟩ : Entry)]).filter (fun x => x.log = j) = s.of j ++ (if i = j then [⟨i, q, g⟩] else []) := by
  rw [List.filter_append]
  congr 1
  by_cases h : i = j <;> simp [h]

/-- The logs hold the updates, in the order of their epochs. -/
theorem reach_inv {ok : Sys → LAct → Prop} (hok : ∀ s a, ok s a → InOrder s a) {s : Sys} (h : Reach ok s) :
    1 ≤ s.ge ∧ ∀ i, LInv s.ge (s.logs i).recs (s.logs i).marks.logEpoch (s.of i) := by
  induction h with
  | init => exact ⟨Nat.le_refl _, fun i => LInv.nil 1⟩
  | @step s a _ hs ih =>
    obtain ⟨hge, ih⟩ := ih
    have ho := hok s a hs
    cases a with
    | tick => exact ⟨Nat.le_succ_of_le hge, fun i => (ih i).mono (Nat.le_succ _)⟩
    | update i q =>
      refine ⟨hge, fun j => ?_⟩
      show LInv s.ge (if j = i then (s.logs i).record s.gw q else s.logs j).recs
        (if j = i then (s.logs i).record s.gw q else s.logs j).marks.logEpoch
        ((s.hist ++ [(⟨i, q, (s.logs i).marks.globalWake s.gw q⟩ : Entry)]).filter fun x => x.log = j)
      rw [of_update]
      by_cases hj : j = i
      · subst hj
        rw [if_pos rfl, if_pos rfl]
        exact (ih j).append (group_tags _ _ _) (group_last _ _ _) ho.1 ho.2.2 ho.2.1 (group_upd _ _ _)
      · rw [if_neg hj, if_neg (Ne.symm hj), List.append_nil]
        exact ih j
    | logger i w =>
      unfold Sys.step
      dsimp only
      split
      · refine ⟨hge, fun j => ?_⟩
        show LInv s.ge (if j = i then (s.logs i).logger s.ge s.gw w else s.logs j).recs
          (if j = i then (s.logs i).logger s.ge s.gw w else s.logs j).marks.logEpoch (s.of j)
        by_cases hj : j = i
        · subst hj
          rw [if_pos rfl]
          rcases logger_cases (s.logs j) s.ge s.gw w with ⟨h1, h2⟩ | ⟨h1, h2, _⟩
          · rw [h1, h2, noticeWake_logEpoch]; exact ih j
          · rw [h1, h2]
            have h := (ih j).append (h' := []) (quiesceGroup_tags _ s.ge ((s.logs j).marks.noticeWake s.gw).wake)
              (quiesceGroup_last _ _ _) (ih j).le (by omega) (Nat.le_refl _)
              (filter_nil_of fun t ht => quiesceGroup_noUpd _ _ t.2 (mem_tagged ht))
            rw [List.append_nil] at h
            exact h
        · rw [if_neg hj]; exact ih j
      · exact ⟨hge, ih⟩
    | written i =>
      unfold Sys.step
      dsimp only
      split
      · exact ⟨hge, ih⟩
      · refine ⟨hge, fun j => ?_⟩
        dsimp only
        by_cases hj : j = i
        · subst hj; rw [if_pos rfl]; exact ih j
        · rw [if_neg hj]; exact ih j

end Verif.Log
