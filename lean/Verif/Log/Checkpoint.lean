import Verif.Log.MultiWake

/-!
# Checkpoints and the flushed epochs of the logs

Model of `max_flushed_epoch` and of the decision to commit a checkpoint in `conc_checkpointer`,
/repo/mtd.cc:1591-1648, over the executions of `Verif.Log.Multi`.
-/
namespace Verif.Log

/-- How far a log is flushed when the global epoch was `ge`, /repo/mtd.cc:1597 and /repo/log.hh:188-190. -/
def Lg.flushedTo (l : Lg) (ge : Nat) : Nat :=
  if l.marks.quiescent ≠ 0 ∧ l.marks.quiescent = l.marks.flushed then ge else l.marks.flushed

/-- `max_flushed_epoch`, /repo/mtd.cc:1594-1601. -/
def maxFlushed (fes : List Nat) : Nat := fes.foldl (fun m fe => if m = 0 ∨ fe < m then fe else m) 0

/-- Whether a checkpoint is committed, /repo/mtd.cc:1642-1643. -/
def mayCommit (mfe max : Nat) : Prop := mfe = 0 ∨ max < mfe

instance (mfe max : Nat) : Decidable (mayCommit mfe max) := inferInstanceAs (Decidable (_ ∨ _))

/-- The updates of a log that are not known to be on disk. -/
def Sys.undisked (s : Sys) (i : Nat) : List Entry := (s.of i).drop (updates ((s.logs i).recs.take (s.logs i).disk))

/-! ### Executions from a state -/

inductive Steps (ok : Sys → LAct → Prop) (s : Sys) : Sys → Prop where
  | refl : Steps ok s s
  | step {t : Sys} (a : LAct) : Steps ok s t → ok t a → Steps ok s (t.step a)

theorem Steps.reach {ok : Sys → LAct → Prop} {s t : Sys} (h : Steps ok s t) (hs : Reach ok s) : Reach ok t := by
  induction h with
  | refl => exact hs
  | step a _ ha ih => exact .step a ih ha

theorem Steps.trans {ok : Sys → LAct → Prop} {s t u : Sys} (h : Steps ok s t) (h' : Steps ok t u) : Steps ok s u := by
  induction h' with
  | refl => exact h
  | step a _ ha ih => exact .step a ih ha

theorem Steps.imp {ok ok' : Sys → LAct → Prop} (hi : ∀ s a, ok s a → ok' s a) {s t : Sys} (h : Steps ok s t) : Steps ok' s t := by
  induction h with
  | refl => exact .refl
  | step a _ ha ih => exact .step a ih (hi _ _ ha)

theorem Reach.imp {ok ok' : Sys → LAct → Prop} (hi : ∀ s a, ok s a → ok' s a) {s : Sys} (h : Reach ok s) : Reach ok' s := by
  induction h with
  | init => exact .init
  | step a _ ha ih => exact .step a ih (hi _ _ ha)

/-- Every update is recorded in the epoch that was read for it. -/
def Prompt (s : Sys) : LAct → Prop
  | .update _ q => q.qt.epoch = s.ge
  | _ => True

/-- `InOrder` and `Prompt`. -/
def Timely (s : Sys) (a : LAct) : Prop := InOrder s a ∧ Prompt s a

theorem Ok.timely {s : Sys} {a : LAct} (h : Ok s a) : Timely s a := by
  refine ⟨h.1, ?_⟩
  cases a with
  | update i q => exact h.2
  | _ => trivial

/-- Epochs and histories only grow; what is new is of the current epoch or a later one. -/
theorem Steps.grows {s t : Sys} (h : Steps Timely s t) :
    s.ge ≤ t.ge ∧ ∃ l, t.hist = s.hist ++ l ∧ ∀ x ∈ l, s.ge ≤ x.q.qt.epoch := by
  induction h with
  | refl => exact ⟨Nat.le_refl _, [], by simp, by simp⟩
  | @step t a _ ha ih =>
    obtain ⟨hge, l, hl, he⟩ := ih
    cases a with
    | tick => exact ⟨Nat.le_succ_of_le hge, l, hl, he⟩
    | update i q =>
      refine ⟨hge, l ++ [⟨i, q, (t.logs i).marks.globalWake t.gw q⟩], ?_, ?_⟩
      · show t.hist ++ _ = _
        rw [hl, List.append_assoc]
      · intro x hx
        rcases List.mem_append.1 hx with hx | hx
        · exact he x hx
        · rw [List.mem_singleton.1 hx]
          have : q.qt.epoch = t.ge := ha.2
          show _ ≤ q.qt.epoch
          omega
    | logger i w =>
      unfold Sys.step
      dsimp only
      split
      · exact ⟨hge, l, hl, he⟩
      · exact ⟨hge, l, hl, he⟩
    | written i =>
      unfold Sys.step
      dsimp only
      split
      · exact ⟨hge, l, hl, he⟩
      · exact ⟨hge, l, hl, he⟩

/-! ### What the flushed epoch means -/

/-- A log, its updates, and what is known to be on disk. -/
structure FInv (l : Lg) (h : List Entry) : Prop where
  disk_le : l.disk ≤ l.swapped
  swapped_le : l.swapped ≤ l.recs.length
  idle : l.inflight = none → l.disk = l.swapped
  flushed_le : l.marks.flushed ≤ l.marks.logEpoch
  inflight_le : ∀ e, l.inflight = some e → e ≤ l.marks.logEpoch
  undisked : ∀ x ∈ h.drop (updates (l.recs.take l.disk)), l.marks.flushed ≤ x.q.qt.epoch
  unswapped : ∀ e, l.inflight = some e → ∀ x ∈ h.drop (updates (l.recs.take l.swapped)), e ≤ x.q.qt.epoch
  resting : l.marks.quiescent ≠ 0 → h.length ≤ updates (l.recs.take l.swapped)
  rested : l.marks.quiescent ≠ 0 → l.marks.quiescent = l.marks.flushed → h.length ≤ updates (l.recs.take l.disk)

theorem updates_take_le (rs : List Rec) (k : Nat) : updates (rs.take k) ≤ updates rs :=
  (List.take_sublist k rs).countP_le

theorem updates_take_mono (rs : List Rec) {k k' : Nat} (h : k ≤ k') : updates (rs.take k) ≤ updates (rs.take k') := by
  have : (rs.take k').take k = rs.take k := by rw [List.take_take, Nat.min_eq_left h]
  rw [← this]
  exact updates_take_le _ _

theorem drop_nil_of {α : Type} {h : List α} {k : Nat} (hk : h.length ≤ k) {x : α} (hx : x ∈ h.drop k) : False := by
  rw [List.drop_eq_nil_of_le hk] at hx
  cases hx

theorem FInv.nil : FInv ⟨⟨0, 0, 0, 0⟩, [], 0, none, 0⟩ [] :=
  ⟨Nat.le_refl _, Nat.le_refl _, fun _ => rfl, Nat.le_refl _, fun _ h => by simp at h, fun x hx => by simp at hx,
    fun _ h => by simp at h, fun _ => Nat.zero_le _, fun _ _ => Nat.zero_le _⟩

theorem FInv.record {ge : Nat} {l : Lg} {h : List Entry} (hf : FInv l h) (hi : LInv ge l.recs l.marks.logEpoch h) (gw : Nat) {x : Entry}
    (hx : l.marks.logEpoch ≤ x.q.qt.epoch) : FInv (l.record gw x.q) (h ++ [x]) := by
  have hu := updates_of hi
  have ht : ∀ k ≤ l.recs.length, (l.recs ++ l.marks.group gw x.q).take k = l.recs.take k := fun k hk => List.take_append_of_le_length hk
  have h1 : (l.record gw x.q).recs.take l.disk = l.recs.take l.disk := ht _ (Nat.le_trans hf.disk_le hf.swapped_le)
  have h2 : (l.record gw x.q).recs.take l.swapped = l.recs.take l.swapped := ht _ hf.swapped_le
  have hd : ∀ k, (h ++ [x]).drop (updates (l.recs.take k)) = h.drop (updates (l.recs.take k)) ++ [x] := fun k =>
    List.drop_append_of_le_length (by rw [← hu]; exact updates_take_le _ _)
  refine ⟨hf.disk_le, ?_, hf.idle, ?_, ?_, ?_, ?_, fun hq => absurd rfl hq, fun hq => absurd rfl hq⟩
  · show l.swapped ≤ (l.recs ++ _).length
    rw [List.length_append]
    exact Nat.le_add_right_of_le hf.swapped_le
  · show (if l.marks.quiescent ≠ 0 ∧ l.marks.flushed = l.marks.quiescent then x.q.qt.epoch else l.marks.flushed) ≤ x.q.qt.epoch
    split
    · exact Nat.le_refl _
    · exact Nat.le_trans hf.flushed_le hx
  · intro e he
    exact Nat.le_trans (hf.inflight_le e he) hx
  · intro y hy
    change y ∈ (h ++ [x]).drop (updates ((l.record gw x.q).recs.take l.disk)) at hy
    rw [h1, hd] at hy
    show (if l.marks.quiescent ≠ 0 ∧ l.marks.flushed = l.marks.quiescent then x.q.qt.epoch else l.marks.flushed) ≤ y.q.qt.epoch
    rcases List.mem_append.1 hy with hy | hy
    · split
      · rename_i hc
        exact (drop_nil_of (hf.rested hc.1 hc.2.symm) hy).elim
      · exact hf.undisked y hy
    · rw [List.mem_singleton.1 hy]
      split
      · exact Nat.le_refl _
      · exact Nat.le_trans hf.flushed_le hx
  · intro e he y hy
    change y ∈ (h ++ [x]).drop (updates ((l.record gw x.q).recs.take l.swapped)) at hy
    rw [h2, hd] at hy
    rcases List.mem_append.1 hy with hy | hy
    · exact hf.unswapped e he y hy
    · rw [List.mem_singleton.1 hy]
      exact Nat.le_trans (hf.inflight_le e he) hx

theorem noticeWake_flushed (m : Marks) (gw : Nat) : (m.noticeWake gw).flushed = m.flushed := by
  unfold Marks.noticeWake
  split <;> rfl

theorem noticeWake_quiescent (m : Marks) (gw : Nat) : (m.noticeWake gw).quiescent = 0 ∨ (m.noticeWake gw).quiescent = m.quiescent := by
  unfold Marks.noticeWake
  split
  · exact Or.inl rfl
  · exact Or.inr rfl

theorem FInv.logger {ge : Nat} {l : Lg} {h : List Entry} (hf : FInv l h) (hi : LInv ge l.recs l.marks.logEpoch h) (gw : Nat) (w : Bool)
    (hidle : l.inflight = none) : FInv (l.logger ge gw w) h := by
  have hu := updates_of hi
  have hds := hf.idle hidle
  unfold Lg.logger
  dsimp only
  by_cases hq : (decide (l.swapped = l.recs.length) && decide ((l.marks.noticeWake gw).mayRest ge gw) && !w) = true
  · simp only [hq, if_true]
    have hr : (l.marks.noticeWake gw).mayRest ge gw := by
      simp only [Bool.and_eq_true, decide_eq_true_eq] at hq
      exact hq.1.2
    have hs : l.swapped = l.recs.length := by
      simp only [Bool.and_eq_true, decide_eq_true_eq] at hq
      exact hq.1.1
    have hlt : l.swapped < (l.recs ++ quiesceGroup ge (l.marks.noticeWake gw).wake).length := by
      rw [List.length_append, hs]
      simp [quiesceGroup]
    rw [if_pos hlt]
    have hle : l.marks.logEpoch < ge := by
      have h1 := hi.le
      have h2 : ge ≠ (l.marks.noticeWake gw).logEpoch := hr.2.1
      rw [noticeWake_logEpoch] at h2
      omega
    have hall : updates (l.recs.take l.disk) = h.length := by
      rw [hds, hs, List.take_length, hu]
    have hall' : h.length ≤ updates ((l.recs ++ quiesceGroup ge (l.marks.noticeWake gw).wake).take l.disk) := by
      rw [List.take_append_of_le_length (by rw [hds, hs]), hall]
    have hall2 : h.length ≤ updates ((l.recs ++ quiesceGroup ge (l.marks.noticeWake gw).wake).take
        (l.recs ++ quiesceGroup ge (l.marks.noticeWake gw).wake).length) :=
      Nat.le_trans hall' (updates_take_mono _ (by rw [List.length_append]; omega))
    refine ⟨?_, Nat.le_refl _, fun hn => by simp at hn, ?_, ?_, ?_, ?_, ?_, ?_⟩
    · show l.disk ≤ _
      dsimp only
      omega
    · show (l.marks.noticeWake gw).flushed ≤ ge
      rw [noticeWake_flushed]
      exact Nat.le_trans hf.flushed_le (Nat.le_of_lt hle)
    · intro e he
      exact Nat.le_of_eq (Option.some.inj he).symm
    · intro x hx
      exact (drop_nil_of hall' hx).elim
    · intro e he x hx
      exact (drop_nil_of hall2 hx).elim
    · intro _
      exact hall2
    · intro _ hc
      exfalso
      change ge = (l.marks.noticeWake gw).flushed at hc
      rw [noticeWake_flushed] at hc
      have := hf.flushed_le
      omega
  · simp only [hq, Bool.false_eq_true, if_false]
    have hfull : h.length ≤ updates (l.recs.take l.recs.length) := by rw [List.take_length, hu]
    have hrd : (l.marks.noticeWake gw).quiescent ≠ 0 → (l.marks.noticeWake gw).quiescent = (l.marks.noticeWake gw).flushed →
        h.length ≤ updates (l.recs.take l.disk) := by
      intro h0 h1
      rw [noticeWake_flushed] at h1
      rcases noticeWake_quiescent l.marks gw with h2 | h2
      · exact absurd h2 h0
      · rw [h2] at h0 h1
        exact hf.rested h0 h1
    split
    · rename_i hlt
      refine ⟨?_, Nat.le_refl _, fun hn => by simp at hn, ?_, ?_, ?_, ?_, fun _ => hfull, hrd⟩
      · show l.disk ≤ l.recs.length
        omega
      · show (l.marks.noticeWake gw).flushed ≤ (l.marks.noticeWake gw).logEpoch
        rw [noticeWake_flushed, noticeWake_logEpoch]
        exact hf.flushed_le
      · intro e he
        exact Nat.le_of_eq (Option.some.inj he).symm
      · intro x hx
        show (l.marks.noticeWake gw).flushed ≤ _
        rw [noticeWake_flushed]
        exact hf.undisked x hx
      · intro e he x hx
        exact (drop_nil_of hfull hx).elim
    · refine ⟨hf.disk_le, hf.swapped_le, hf.idle, ?_, ?_, ?_, hf.unswapped, ?_, hrd⟩
      · show (l.marks.noticeWake gw).flushed ≤ (l.marks.noticeWake gw).logEpoch
        rw [noticeWake_flushed, noticeWake_logEpoch]
        exact hf.flushed_le
      · intro e he
        show e ≤ (l.marks.noticeWake gw).logEpoch
        rw [noticeWake_logEpoch]
        exact hf.inflight_le e he
      · intro x hx
        show (l.marks.noticeWake gw).flushed ≤ _
        rw [noticeWake_flushed]
        exact hf.undisked x hx
      · intro h0
        change (l.marks.noticeWake gw).quiescent ≠ 0 at h0
        rcases noticeWake_quiescent l.marks gw with h2 | h2
        · exact absurd h2 h0
        · rw [h2] at h0
          exact hf.resting h0

theorem FInv.written {l : Lg} {h : List Entry} (hf : FInv l h) {e : Nat} (he : l.inflight = some e) :
    FInv { l with disk := l.swapped, inflight := none, marks := { l.marks with flushed := e } } h :=
  ⟨Nat.le_refl _, hf.swapped_le, fun _ => rfl, hf.inflight_le e he, fun _ h => by simp at h, hf.unswapped e he,
    fun _ h => by simp at h, hf.resting, fun h0 _ => hf.resting h0⟩

theorem reach_finv {ok : Sys → LAct → Prop} (hok : ∀ s a, ok s a → InOrder s a) {s : Sys} (h : Reach ok s) :
    ∀ i, FInv (s.logs i) (s.of i) := by
  induction h with
  | init => exact fun i => FInv.nil
  | @step s a hr hs ih =>
    have hinv := (reach_inv hok hr).2
    have ho := hok s a hs
    cases a with
    | tick => exact ih
    | update i q =>
      intro j
      show FInv (if j = i then (s.logs i).record s.gw q else s.logs j) ((s.hist ++ [_]).filter fun x => x.log = j)
      rw [of_update]
      by_cases hj : j = i
      · subst hj
        rw [if_pos rfl, if_pos rfl]
        exact (ih j).record (hinv j) s.gw (x := ⟨j, q, _⟩) ho.1
      · rw [if_neg hj, if_neg (fun h => hj h.symm), List.append_nil]
        exact ih j
    | logger i w =>
      intro j
      unfold Sys.step
      dsimp only
      by_cases hidle : (s.logs i).inflight = none
      · rw [if_pos hidle]
        show FInv (if j = i then (s.logs i).logger s.ge s.gw w else s.logs j) (s.of j)
        by_cases hj : j = i
        · subst hj
          rw [if_pos rfl]
          exact (ih j).logger (hinv j) s.gw w hidle
        · rw [if_neg hj]
          exact ih j
      · rw [if_neg hidle]
        exact ih j
    | written i =>
      intro j
      unfold Sys.step
      dsimp only
      cases he : (s.logs i).inflight with
      | none => exact ih j
      | some e =>
        show FInv (if j = i then _ else s.logs j) (s.of j)
        by_cases hj : j = i
        · subst hj
          rw [if_pos rfl]
          exact (ih j).written he
        · rw [if_neg hj]
          exact ih j

/-- Logs only grow, and what is on disk stays there. -/
theorem Steps.logs {s t : Sys} (h : Steps InOrder s t) (hs : Reach InOrder s) (i : Nat) :
    (∃ r, (t.logs i).recs = (s.logs i).recs ++ r) ∧ (s.logs i).disk ≤ (t.logs i).disk := by
  induction h with
  | refl => exact ⟨⟨[], by simp⟩, Nat.le_refl _⟩
  | @step t a hst ha ih =>
    obtain ⟨⟨r, hr⟩, hd⟩ := ih
    have hf := reach_finv (fun _ _ h => h) (hst.reach hs) i
    cases a with
    | tick => exact ⟨⟨r, hr⟩, hd⟩
    | update j q =>
      unfold Sys.step
      dsimp only
      by_cases hj : i = j
      · subst hj
        rw [if_pos rfl]
        refine ⟨⟨r ++ (t.logs i).marks.group t.gw q, ?_⟩, hd⟩
        show (t.logs i).recs ++ _ = _
        rw [hr, List.append_assoc]
      · rw [if_neg hj]
        exact ⟨⟨r, hr⟩, hd⟩
    | logger j w =>
      unfold Sys.step
      dsimp only
      split
      · dsimp only
        by_cases hj : i = j
        · subst hj
          rw [if_pos rfl]
          have hdisk : ((t.logs i).logger t.ge t.gw w).disk = (t.logs i).disk := by
            unfold Lg.logger
            dsimp only
            split <;> split <;> rfl
          rw [hdisk]
          rcases logger_cases (t.logs i) t.ge t.gw w with h1 | h1
          · exact ⟨⟨r, by rw [h1.1, hr]⟩, hd⟩
          · exact ⟨⟨r ++ quiesceGroup t.ge ((t.logs i).marks.noticeWake t.gw).wake, by rw [h1.1, hr, List.append_assoc]⟩, hd⟩
        · rw [if_neg hj]
          exact ⟨⟨r, hr⟩, hd⟩
      · exact ⟨⟨r, hr⟩, hd⟩
    | written j =>
      unfold Sys.step
      dsimp only
      split
      · exact ⟨⟨r, hr⟩, hd⟩
      · dsimp only
        by_cases hj : i = j
        · subst hj
          rw [if_pos rfl]
          exact ⟨⟨r, hr⟩, Nat.le_trans hd hf.disk_le⟩
        · rw [if_neg hj]
          exact ⟨⟨r, hr⟩, hd⟩

/-- The updates not on disk are at later times among those that were not on disk, or new. -/
theorem undisked_later {s t : Sys} (h : Steps Timely s t) (hs : Reach Timely s) (i : Nat) :
    ∀ x ∈ t.undisked i, x ∈ s.undisked i ∨ s.ge ≤ x.q.qt.epoch := by
  intro x hx
  have hs' : Reach InOrder s := hs.imp fun _ _ h => h.1
  have h' : Steps InOrder s t := h.imp fun _ _ h => h.1
  obtain ⟨⟨r, hr⟩, hd⟩ := h'.logs hs' i
  obtain ⟨_, l, hl, he⟩ := h.grows
  have hf := reach_finv (fun _ _ h => h) hs' i
  have hinv := (reach_inv (fun _ _ h => h) hs').2 i
  have hof : t.of i = s.of i ++ l.filter fun x => x.log = i := by
    unfold Sys.of
    rw [hl, List.filter_append]
  have hle : updates ((s.logs i).recs.take (s.logs i).disk) ≤ updates ((t.logs i).recs.take (t.logs i).disk) := by
    have h1 : (s.logs i).recs.take (s.logs i).disk = (t.logs i).recs.take (s.logs i).disk := by
      rw [hr, List.take_append_of_le_length (Nat.le_trans hf.disk_le hf.swapped_le)]
    rw [h1]
    exact updates_take_mono _ hd
  have hx' : x ∈ (s.of i ++ l.filter fun x => x.log = i).drop (updates ((s.logs i).recs.take (s.logs i).disk)) := by
    unfold Sys.undisked at hx
    rw [hof, ← Nat.sub_add_cancel hle, Nat.add_comm, ← List.drop_drop] at hx
    exact List.mem_of_mem_drop hx
  rw [List.drop_append_of_le_length (by rw [← updates_of hinv]; exact updates_take_le _ _)] at hx'
  rcases List.mem_append.1 hx' with hx' | hx'
  · exact Or.inl hx'
  · exact Or.inr (he x (List.mem_filter.1 hx').1)

/-- A log that looked flushed past an epoch has all updates of it on disk, then and later. -/
theorem flushed_past {g t s : Sys} (hg : Reach Timely g) (h1 : Steps Timely g t) (h2 : Steps Timely t s) (i : Nat) {max : Nat}
    (hm : max < (t.logs i).flushedTo g.ge) : ∀ x ∈ s.undisked i, max < x.q.qt.epoch := by
  intro x hx
  have ht := h1.reach hg
  have hf := reach_finv (fun _ _ h => h.1) ht i
  have hinv := (reach_inv (fun _ _ h => h.1) ht).2 i
  have hge := h1.grows.1
  unfold Lg.flushedTo at hm
  rcases undisked_later h2 ht i x hx with hx | hx
  · split at hm
    · rename_i hc
      exact (drop_nil_of (hf.rested hc.1 hc.2) hx).elim
    · exact Nat.lt_of_lt_of_le hm (hf.undisked x hx)
  · split at hm
    · omega
    · have := hf.flushed_le
      have := hinv.le
      omega

theorem maxFlushed_aux (fes : List Nat) (hz : ∀ f ∈ fes, f ≠ 0) : ∀ m,
    (m ≠ 0 → fes.foldl (fun m fe => if m = 0 ∨ fe < m then fe else m) m ≤ m ∧ fes.foldl (fun m fe => if m = 0 ∨ fe < m then fe else m) m ≠ 0) ∧
      ∀ f ∈ fes, fes.foldl (fun m fe => if m = 0 ∨ fe < m then fe else m) m ≤ f ∧
        fes.foldl (fun m fe => if m = 0 ∨ fe < m then fe else m) m ≠ 0 := by
  induction fes with
  | nil => intro m; exact ⟨fun h => ⟨Nat.le_refl _, h⟩, fun f hf => nomatch hf⟩
  | cons a fes ih =>
    intro m
    rw [List.foldl_cons]
    have ha := hz a (List.mem_cons_self ..)
    have hi := ih (fun f hf => hz f (List.mem_cons_of_mem _ hf)) (if m = 0 ∨ a < m then a else m)
    have hn : (if m = 0 ∨ a < m then a else m) ≠ 0 ∧ (if m = 0 ∨ a < m then a else m) ≤ a ∧ (m ≠ 0 → (if m = 0 ∨ a < m then a else m) ≤ m) := by
      split <;> omega
    obtain ⟨h1, h2⟩ := hi.1 hn.1
    refine ⟨fun hm => ⟨Nat.le_trans h1 (hn.2.2 hm), h2⟩, fun f hf => ?_⟩
    rcases List.mem_cons.1 hf with rfl | hf
    · exact ⟨Nat.le_trans h1 hn.2.1, h2⟩
    · exact hi.2 f hf

/-- If every log was flushed at some time, the smallest flushed epoch is a bound for each. -/
theorem maxFlushed_le {fes : List Nat} (hz : ∀ f ∈ fes, f ≠ 0) {f : Nat} (hf : f ∈ fes) : maxFlushed fes ≤ f ∧ maxFlushed fes ≠ 0 :=
  (maxFlushed_aux fes hz 0).2 f hf

end Verif.Log
