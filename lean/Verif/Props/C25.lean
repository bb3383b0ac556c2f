import Verif.Log.MultiWake

/-!
# C25: recovery replays the logs up to one epoch

`recover` computes from what is left of all logs one epoch `replayMax`, and every log is replayed up to it.
A crash can leave any beginning of each log on disk.
-/
namespace Verif.Props.C25
open Verif.Log

/-- What a crash leaves: the first `k i` records of log `i`, for the `n` logs. -/
def left (s : Sys) (n : Nat) (k : Nat → Nat) : List (List Rec) := (List.range n).map fun i => (s.logs i).recs.take (k i)

theorem first_stays (rs : List Rec) : ∀ x : Info, x.first ≠ 0 → (rs.foldl Info.read x).first = x.first := by
  induction rs with
  | nil => intro x _; rfl
  | cons r rs ih =>
    intro x hx
    rw [List.foldl_cons, ih]
    · cases r <;> simp [Info.read, hx]
    · cases r <;> simp [Info.read, hx]

/-- A log begins with an epoch. -/
theorem begins {ge last : Nat} {recs : List Rec} {h : List Entry} (hi : LInv ge recs last h) (k : Nat)
    (hne : recs.take k ≠ []) :
    ∃ e0 rs, recs.take k = .epoch e0 :: rs ∧ e0 ≠ 0 ∧ (info (recs.take k)).first = e0 := by
  cases hr : recs.take k with
  | nil => exact absurd hr hne
  | cons r rs =>
    have hmem : (r.epochAfter 0, r) ∈ tagged 0 recs := by
      rw [← List.take_append_drop k recs, hr, tagged_append]
      simp [tagged]
    have hnz := hi.nz _ hmem
    cases r with
    | epoch e0 =>
      have h0 : e0 ≠ 0 := hnz
      refine ⟨e0, rs, rfl, h0, ?_⟩
      show (rs.foldl Info.read (Info.read ⟨0, 0, 0, true⟩ (.epoch e0))).first = e0
      rw [first_stays _ _ (by simpa [Info.read] using h0)]
      simp [Info.read]
    | _ => exact absurd rfl hnz

theorem sorted_take {ge last : Nat} {recs : List Rec} {h : List Entry} (hi : LInv ge recs last h) (k : Nat) :
    Sorted (tagged 0 (recs.take k)) := by
  have h := hi.sorted
  rw [← List.take_append_drop k recs, tagged_append] at h
  exact (List.pairwise_append.1 h).1

/-- What is missing belongs to the last epoch that is left, or a later one. -/
theorem missing_late {ge last : Nat} {recs : List Rec} {h : List Entry} (hi : LInv ge recs last h) (k : Nat)
    (hne : recs.take k ≠ []) :
    ∀ t ∈ tagged (lastE 0 (recs.take k)) (recs.drop k), lastE 0 (recs.take k) ≤ t.1 := by
  intro t ht
  have hs := hi.sorted
  rw [← List.take_append_drop k recs, tagged_append] at hs
  obtain ⟨r, hr⟩ := last_tag (recs.take k) 0 hne
  exact (List.pairwise_append.1 hs).2.2 _ hr t ht

theorem tagged_cut (recs : List Rec) (k : Nat) :
    tagged 0 recs = tagged 0 (recs.take k) ++ tagged (lastE 0 (recs.take k)) (recs.drop k) := by
  rw [← tagged_append, List.take_append_drop]

theorem last_ne_zero {ge last : Nat} {recs : List Rec} {h : List Entry} (hi : LInv ge recs last h) (k : Nat)
    (hne : recs.take k ≠ []) : lastE 0 (recs.take k) ≠ 0 := by
  obtain ⟨r, hr⟩ := last_tag (recs.take k) 0 hne
  refine hi.nz (_, r) ?_
  rw [tagged_cut recs k]
  exact List.mem_append_left _ hr

theorem mem_left (s : Sys) (n : Nat) (k : Nat → Nat) {i : Nat} (h : i < n) : (s.logs i).recs.take (k i) ∈ left s n k :=
  List.mem_map.2 ⟨i, List.mem_range.2 h, rfl⟩

/-- Updates selected by the loop. -/
theorem selected (min max : Nat) (h : List Entry) (hz : ∀ x ∈ h, x.q.qt.epoch ≠ 0) :
    ((h.map fun x => (x.q.qt.epoch, x.q.update)).filter (keeps min max)).map Prod.snd =
      (h.filter fun x => decide (min ≤ x.q.qt.epoch ∧ x.q.qt.epoch < max ∧ x.q.key ≠ [])).map fun x => x.q.update := by
  induction h with
  | nil => rfl
  | cons x h ih =>
    have hx := hz x (List.mem_cons_self ..)
    have hi := ih fun y hy => hz y (List.mem_cons_of_mem _ hy)
    have hk : keeps min max (x.q.qt.epoch, x.q.update) =
        decide (min ≤ x.q.qt.epoch ∧ x.q.qt.epoch < max ∧ x.q.key ≠ []) := by
      rw [Bool.eq_iff_iff]
      simp only [keeps, update_applied, Bool.and_eq_true, decide_eq_true_eq]
      constructor
      · rintro ⟨a, _, b, c⟩; exact ⟨b, c, a⟩
      · rintro ⟨a, b, c⟩; exact ⟨c, hx, a, b⟩
    rw [List.map_cons, List.filter_cons, List.filter_cons, hk]
    split
    · rw [List.map_cons, List.map_cons, hi]
    · exact hi

/-- The loop sees only updates. -/
theorem keeps_upd (min max : Nat) (l : List (Nat × Rec)) :
    l.filter (keeps min max) = (l.filter fun t => t.2.isUpd).filter (keeps min max) := by
  rw [List.filter_filter]
  apply List.filter_congr
  intro t _
  cases hk : keeps min max t with
  | false => simp
  | true =>
    have : t.2.applied = true := by
      simp only [keeps, Bool.and_eq_true] at hk
      exact hk.1
    simp [applied_isUpd this]

theorem epochs_ne_zero {ge last : Nat} {recs : List Rec} {h : List Entry} (hi : LInv ge recs last h) :
    ∀ x ∈ h, x.q.qt.epoch ≠ 0 := by
  intro x hx
  have hm : (x.q.qt.epoch, x.q.update) ∈ (tagged 0 recs).filter fun t => t.2.isUpd := by
    rw [hi.upd]
    exact List.mem_map.2 ⟨x, hx, rfl⟩
  exact hi.nz _ (List.mem_filter.1 hm).1

/-- After a crash that leaves any beginning of each log, the updates replayed from a log that did not end in a
quiescence notification are exactly its updates of the epochs before the common bound (and from the checkpoint's
first epoch on), in order.  None of those is missing on disk, and no update of a later epoch is
replayed. -/
theorem cut_exact {s : Sys} (h : Reach InOrder s) (n : Nat) (k : Nat → Nat) (ckpMax min : Nat) {i : Nat} (hi : i < n)
    (hq : (info ((s.logs i).recs.take (k i))).quiescent = false)
    (hmin : min = 0 ∨ (info ((s.logs i).recs.take (k i))).first < min) :
    replayLog min (replayMax ckpMax (left s n k)) 0 false ((s.logs i).recs.take (k i)) =
      some (((s.of i).filter fun x => decide (min ≤ x.q.qt.epoch ∧ x.q.qt.epoch < replayMax ckpMax (left s n k) ∧
        x.q.key ≠ [])).map fun x => x.q.update) := by
  have hinv := (reach_inv (fun _ _ h => h) h).2 i
  have hne : (s.logs i).recs.take (k i) ≠ [] := by
    intro h0
    rw [h0] at hq
    exact absurd hq (by decide)
  obtain ⟨e0, rs, he, _, hf⟩ := begins hinv (k i) hne
  have hlast := last_ne_zero hinv (k i) hne
  have hM : replayMax ckpMax (left s n k) ≤ lastE 0 ((s.logs i).recs.take (k i)) := by
    rw [← info_last]
    exact replayMax_le_last _ _ (mem_left s n k hi) hq (by rw [info_last]; exact hlast)
  generalize replayMax ckpMax (left s n k) = M at hM ⊢
  have hrep : replayLog min M 0 false ((s.logs i).recs.take (k i)) =
      some (((tagged 0 ((s.logs i).recs.take (k i))).filter (keeps min M)).map Prod.snd) := by
    have hs := sorted_take hinv (k i)
    rw [hf] at hmin
    rw [he] at hs ⊢
    exact replayLog_eq min M e0 rs hmin hs
  have htail : (tagged 0 (s.logs i).recs).filter (keeps min M) =
      (tagged 0 ((s.logs i).recs.take (k i))).filter (keeps min M) := by
    have hnil : (tagged (lastE 0 ((s.logs i).recs.take (k i))) ((s.logs i).recs.drop (k i))).filter (keeps min M) = [] := by
      apply filter_nil_of
      intro t ht
      have := missing_late hinv (k i) hne t ht
      have h2 : ¬ t.1 < M := by omega
      simp [keeps, h2]
    rw [tagged_cut _ (k i), List.filter_append, hnil, List.append_nil]
  rw [hrep, ← htail, keeps_upd, hinv.upd, selected min M _ (epochs_ne_zero hinv)]

/-! ### Logs that end in a quiescence notification -/

theorem updates_take (recs : List Rec) (k : Nat) :
    ((tagged 0 (recs.take k)).filter fun t => t.2.isUpd).length = updates (recs.take k) := by
  rw [← List.countP_eq_length_filter]
  conv => rhs; rw [updates, ← tagged_snd (recs.take k) 0, List.countP_map]
  rfl

theorem upd_take {ge last : Nat} {recs : List Rec} {h : List Entry} (hi : LInv ge recs last h) (k : Nat) :
    ((tagged 0 (recs.take k)).filter fun t => t.2.isUpd) =
      (h.take (updates (recs.take k))).map fun x => (x.q.qt.epoch, x.q.update) := by
  have hu := hi.upd
  rw [tagged_cut recs k, List.filter_append] at hu
  rw [List.map_take, ← hu, ← updates_take, List.take_left']
  rfl

/-- From any log of which something is left, the updates replayed are those left on disk whose epoch is below the
bound (and from the checkpoint's first epoch on). -/
theorem replayed_exactly {s : Sys} (h : Reach InOrder s) (n : Nat) (k : Nat → Nat) (ckpMax min : Nat) {i : Nat}
    (hne : (s.logs i).recs.take (k i) ≠ [])
    (hmin : min = 0 ∨ (info ((s.logs i).recs.take (k i))).first < min) :
    replayLog min (replayMax ckpMax (left s n k)) 0 false ((s.logs i).recs.take (k i)) =
      some ((((s.of i).take (updates ((s.logs i).recs.take (k i)))).filter fun x =>
        decide (min ≤ x.q.qt.epoch ∧ x.q.qt.epoch < replayMax ckpMax (left s n k) ∧ x.q.key ≠ [])).map fun x => x.q.update) := by
  have hinv := (reach_inv (fun _ _ h => h) h).2 i
  obtain ⟨e0, rs, he, _, hf⟩ := begins hinv (k i) hne
  have hs := sorted_take hinv (k i)
  generalize replayMax ckpMax (left s n k) = M
  have hrep : replayLog min M 0 false ((s.logs i).recs.take (k i)) =
      some (((tagged 0 ((s.logs i).recs.take (k i))).filter (keeps min M)).map Prod.snd) := by
    rw [hf] at hmin
    rw [he] at hs ⊢
    exact replayLog_eq min M e0 rs hmin hs
  rw [hrep, keeps_upd, upd_take hinv, selected min M _ fun x hx => epochs_ne_zero hinv x (List.mem_of_mem_take hx)]

/-- The update `z`, which happened after the updates `a`, is on disk and its epoch is below the bound. -/
def Replayed (s : Sys) (n : Nat) (k : Nat → Nat) (ckpMax : Nat) (a : List Entry) (z : Entry) : Prop :=
  z.q.qt.epoch < replayMax ckpMax (left s n k) ∧
    (a.filter fun x => x.log = z.log).length < updates ((s.logs z.log).recs.take (k z.log))

theorem maxWake_aux (xs : List Info) : ∀ m, m ≤ xs.foldl (fun m x => if x.wake ≠ 0 ∧ (m = 0 ∨ m < x.wake) then x.wake else m) m ∧
    ∀ x ∈ xs, x.wake ≤ xs.foldl (fun m x => if x.wake ≠ 0 ∧ (m = 0 ∨ m < x.wake) then x.wake else m) m := by
  induction xs with
  | nil => intro m; exact ⟨Nat.le_refl _, fun x hx => nomatch hx⟩
  | cons a xs ih =>
    intro m
    rw [List.foldl_cons]
    have h1 := ih (if a.wake ≠ 0 ∧ (m = 0 ∨ m < a.wake) then a.wake else m)
    have h2 : m ≤ (if a.wake ≠ 0 ∧ (m = 0 ∨ m < a.wake) then a.wake else m) ∧
        a.wake ≤ (if a.wake ≠ 0 ∧ (m = 0 ∨ m < a.wake) then a.wake else m) := by
      split <;> omega
    refine ⟨Nat.le_trans h2.1 h1.1, fun x hx => ?_⟩
    rcases List.mem_cons.1 hx with rfl | hx
    · exact Nat.le_trans h2.2 h1.1
    · exact h1.2 x hx

theorem le_maxWake {xs : List Info} {x : Info} (h : x ∈ xs) : x.wake ≤ maxWake xs := (maxWake_aux xs 0).2 x h

theorem minQ_aux (xs : List Info) (hz : ∀ x ∈ xs, x.quiescent = true → x.last ≠ 0) :
    ∀ m, (m ≠ 0 → xs.foldl (fun m x => if x.quiescent ∧ (m = 0 ∨ x.last < m) then x.last else m) m ≠ 0 ∧
        xs.foldl (fun m x => if x.quiescent ∧ (m = 0 ∨ x.last < m) then x.last else m) m ≤ m) ∧
      ∀ x ∈ xs, x.quiescent = true →
        xs.foldl (fun m x => if x.quiescent ∧ (m = 0 ∨ x.last < m) then x.last else m) m ≠ 0 ∧
        xs.foldl (fun m x => if x.quiescent ∧ (m = 0 ∨ x.last < m) then x.last else m) m ≤ x.last := by
  induction xs with
  | nil => intro m; exact ⟨fun h => ⟨h, Nat.le_refl _⟩, fun x hx => nomatch hx⟩
  | cons a xs ih =>
    intro m
    rw [List.foldl_cons]
    have hi := ih (fun x hx => hz x (List.mem_cons_of_mem _ hx)) (if a.quiescent ∧ (m = 0 ∨ a.last < m) then a.last else m)
    have ha := hz a (List.mem_cons_self ..)
    constructor
    · intro hm
      have h2 : (if a.quiescent ∧ (m = 0 ∨ a.last < m) then a.last else m) ≠ 0 ∧
          (if a.quiescent ∧ (m = 0 ∨ a.last < m) then a.last else m) ≤ m := by
        split
        · rename_i h; exact ⟨ha h.1, by omega⟩
        · exact ⟨hm, Nat.le_refl _⟩
      exact ⟨(hi.1 h2.1).1, Nat.le_trans (hi.1 h2.1).2 h2.2⟩
    · intro x hx hq
      rcases List.mem_cons.1 hx with rfl | hx
      · have h2 : (if x.quiescent ∧ (m = 0 ∨ x.last < m) then x.last else m) ≠ 0 ∧
            (if x.quiescent ∧ (m = 0 ∨ x.last < m) then x.last else m) ≤ x.last := by
          have := ha hq
          split
          · exact ⟨this, Nat.le_refl _⟩
          · rename_i h
            have : ¬ (m = 0 ∨ x.last < m) := fun h' => h ⟨hq, h'⟩
            omega
        exact ⟨(hi.1 h2.1).1, Nat.le_trans (hi.1 h2.1).2 h2.2⟩
      · exact hi.2 x hx hq

theorem wake_aux (rs : List Rec) : ∀ x : Info, Sorted (tagged x.last rs) → (∀ t ∈ tagged x.last rs, x.last ≤ t.1) → x.wake ≤ x.last →
    x.wake ≤ (rs.foldl Info.read x).wake ∧ ∀ w, (w, Rec.wake) ∈ tagged x.last rs → w ≤ (rs.foldl Info.read x).wake := by
  induction rs with
  | nil => intro x _ _ _; exact ⟨Nat.le_refl _, fun w hw => nomatch hw⟩
  | cons r rs ih =>
    intro x hs hb hx
    rw [List.foldl_cons]
    have hlast : (x.read r).last = r.epochAfter x.last := by cases r <;> rfl
    have hs' := List.pairwise_cons.1 hs
    have hhd : x.last ≤ r.epochAfter x.last := hb _ (List.mem_cons_self ..)
    have hw : x.wake ≤ (x.read r).wake ∧ (x.read r).wake ≤ (x.read r).last ∧ (r = .wake → (x.read r).wake = r.epochAfter x.last) := by
      cases r with
      | epoch e =>
        have h1 : x.last ≤ e := hhd
        have h2 : ¬ (x.wake ≠ 0 ∧ e < x.wake) := by omega
        simp only [Info.read, if_neg h2]
        exact ⟨Nat.le_refl _, by omega, fun h => by simp at h⟩
      | wake => exact ⟨hx, Nat.le_refl _, fun _ => rfl⟩
      | quiesce => exact ⟨Nat.le_refl _, hx, fun h => by simp at h⟩
      | kv => exact ⟨Nat.le_refl _, hx, fun h => by simp at h⟩
      | modify => exact ⟨Nat.le_refl _, hx, fun h => by simp at h⟩
    have hi := ih (x.read r) (by rw [hlast]; exact hs'.2) (by rw [hlast]; exact hs'.1) hw.2.1
    refine ⟨Nat.le_trans hw.1 hi.1, fun w hm => ?_⟩
    rcases List.mem_cons.1 hm with h | h
    · obtain ⟨h1, h2⟩ := Prod.mk.inj h
      rw [h1, ← hw.2.2 h2.symm]
      exact hi.1
    · rw [hlast] at hi
      exact hi.2 w h

theorem le_wake {rs : List Rec} (hs : Sorted (tagged 0 rs)) {w : Nat} (h : (w, Rec.wake) ∈ tagged 0 rs) : w ≤ (info rs).wake :=
  (wake_aux rs ⟨0, 0, 0, true⟩ hs (fun _ _ => Nat.zero_le _) (Nat.le_refl _)).2 w h

theorem firstWake_le (q : Nat) (rs : List Rec) : ∀ e, Sorted (tagged e rs) → ∀ w, (w, Rec.wake) ∈ tagged e rs → w ≠ 0 → q ≤ w →
    firstWake q e rs ≠ 0 ∧ firstWake q e rs ≤ w := by
  induction rs with
  | nil => intro e _ w hw; cases hw
  | cons r rs ih =>
    intro e hs w hm h0 hq
    have hs' := List.pairwise_cons.1 hs
    cases r with
    | wake =>
      rw [firstWake]
      by_cases hc : e ≠ 0 ∧ q ≤ e
      · rw [if_pos hc]
        refine ⟨hc.1, ?_⟩
        rcases List.mem_cons.1 hm with h | h
        · rw [(Prod.mk.inj h).1]; exact Nat.le_refl _
        · exact hs'.1 _ h
      · rw [if_neg hc]
        rcases List.mem_cons.1 hm with h | h
        · have : w = e := (Prod.mk.inj h).1
          omega
        · exact ih e hs'.2 w h h0 hq
    | epoch e' =>
      rcases List.mem_cons.1 hm with h | h
      · exact absurd (Prod.mk.inj h).2 (by simp)
      · exact ih e' hs'.2 w h h0 hq
    | quiesce =>
      rcases List.mem_cons.1 hm with h | h
      · exact absurd (Prod.mk.inj h).2 (by simp)
      · exact ih e hs'.2 w h h0 hq
    | kv =>
      rcases List.mem_cons.1 hm with h | h
      · exact absurd (Prod.mk.inj h).2 (by simp)
      · exact ih e hs'.2 w h h0 hq
    | modify =>
      rcases List.mem_cons.1 hm with h | h
      · exact absurd (Prod.mk.inj h).2 (by simp)
      · exact ih e hs'.2 w h h0 hq

/-- The update at a position. -/
theorem nth_update (l : List Rec) : ∀ i, i < updates l → ∃ p r t, l = p ++ r :: t ∧ r.isUpd = true ∧ updates p = i := by
  induction l with
  | nil => intro i h; exact absurd h (by simp [updates])
  | cons a l ih =>
    intro i h
    cases ha : a.isUpd with
    | true =>
      cases i with
      | zero => exact ⟨[], a, l, rfl, ha, rfl⟩
      | succ i =>
        have h' : i < updates l := by
          unfold updates at h ⊢
          rw [List.countP_cons_of_pos ha] at h
          omega
        obtain ⟨p, r, t, h1, h2, h3⟩ := ih i h'
        refine ⟨a :: p, r, t, by rw [h1]; rfl, h2, ?_⟩
        unfold updates at h3 ⊢
        rw [List.countP_cons_of_pos ha, h3]
    | false =>
      have hc : ∀ m : List Rec, updates (a :: m) = updates m := fun m => List.countP_cons_of_neg (by simp [ha])
      rw [hc] at h
      obtain ⟨p, r, t, h1, h2, h3⟩ := ih i h
      exact ⟨a :: p, r, t, by rw [h1]; rfl, h2, by rw [hc]; exact h3⟩

theorem updates_zero {p : List Rec} (h : updates p = 0) : ∀ r ∈ p, r.isUpd = false := by
  intro r hr
  have := List.countP_eq_zero.1 h r hr
  simpa using this

theorem of_at {s : Sys} {a b : List Entry} {x : Entry} (hh : s.hist = a ++ x :: b) :
    (s.of x.log)[(a.filter fun z => z.log = x.log).length]? = some x := by
  unfold Sys.of
  rw [hh, List.filter_append, List.filter_cons_of_pos (by simp), List.getElem?_append_right (Nat.le_refl _)]
  simp

theorem quiescent_ends {rs : List Rec} (hne : rs ≠ []) (hq : (info rs).quiescent = true) : ∃ p, rs = p ++ [.quiesce] := by
  rcases List.eq_nil_or_concat rs with h | ⟨p, r, h⟩
  · exact absurd h hne
  · have h' : rs = p ++ [r] := by simpa using h
    rw [h', info_quiescent_snoc] at hq
    exact ⟨p, by rw [h', hq]⟩

/-- No gap: if an update is replayed then every update that happened before it, in any log, is replayed too.

Every update is recorded in the epoch in which it happened (`Ok`), something is left of every log, and a
logger that notices a wake-up before its log has recorded it goes to rest in the same turn (`Ok`).  Each of these is needed: `slow_breaks`,
`empty_log_breaks`, `unlogged_wake_breaks`. -/
theorem no_gap {s : Sys} (h : Reach Ok s) (n : Nat) (k : Nat → Nat) (ckpMax : Nat)
    (hlog : ∀ z ∈ s.hist, z.log < n) (hne : ∀ i < n, (s.logs i).recs.take (k i) ≠ [])
    {a b c : List Entry} {x y : Entry} (hh : s.hist = a ++ x :: (b ++ y :: c))
    (hy : Replayed s n k ckpMax (a ++ x :: b) y) : Replayed s n k ckpMax a x := by
  have hinv := (reach_inv (fun _ _ h => h.1) h).2
  have hs := reach_sinv h
  have hxm : x ∈ s.hist := by rw [hh]; simp
  have hym : y ∈ s.hist := by rw [hh]; simp
  have hxy : x.gw ≤ y.gw ∧ x.q.qt.epoch ≤ y.q.qt.epoch := by
    have h1 := hs.gws
    have h2 := hs.epochs
    rw [hh] at h1 h2
    exact ⟨(List.pairwise_cons.1 (List.pairwise_append.1 h1).2.1).1 y (by simp),
      (List.pairwise_cons.1 (List.pairwise_append.1 h2).2.1).1 y (by simp)⟩
  refine ⟨Nat.lt_of_le_of_lt hxy.2 hy.1, ?_⟩
  by_contra hlost
  have hlost : updates ((s.logs x.log).recs.take (k x.log)) ≤ (a.filter fun z => z.log = x.log).length := by omega
  have hx := hinv x.log
  have hxne := hne x.log (hlog x hxm)
  have hat := of_at hh
  cases hq : (info ((s.logs x.log).recs.take (k x.log))).quiescent with
  | false =>
    -- the lost update is of a late epoch
    have hM := replayMax_le_last ckpMax (left s n k) (mem_left s n k (hlog x hxm)) hq
      (by rw [info_last]; exact last_ne_zero hx _ hxne)
    have hu := hx.upd
    rw [tagged_cut _ (k x.log), List.filter_append] at hu
    have hel : ((s.of x.log).map fun z => (z.q.qt.epoch, z.q.update))[(a.filter fun z => z.log = x.log).length]? =
        some (x.q.qt.epoch, x.q.update) := by
      rw [List.getElem?_map, hat]; rfl
    rw [← hu, List.getElem?_append_right (by rw [updates_take]; exact hlost)] at hel
    have hmem := (List.mem_filter.1 (List.mem_of_getElem? hel)).1
    have hlate := missing_late hx (k x.log) hxne _ hmem
    rw [← info_last] at hlate
    have h1 := hy.1
    have h2 : (info ((s.logs x.log).recs.take (k x.log))).last ≤ x.q.qt.epoch := hlate
    omega
  | true =>
    obtain ⟨p1, hp1⟩ := quiescent_ends hxne hq
    have hq0 : lastE 0 ((s.logs x.log).recs.take (k x.log)) = lastE 0 p1 := by
      rw [hp1, lastE_append]; rfl
    have hqnz := last_ne_zero hx (k x.log) hxne
    -- the first update that was lost
    have hxlen : (a.filter fun z => z.log = x.log).length < (s.of x.log).length := by
      by_contra hc
      rw [List.getElem?_eq_none (by omega)] at hat
      cases hat
    have hlt : updates ((s.logs x.log).recs.take (k x.log)) < (s.of x.log).length := by omega
    have hdrop : 0 < updates ((s.logs x.log).recs.drop (k x.log)) := by
      have h1 := updates_of hx
      have h2 : updates (s.logs x.log).recs =
          updates ((s.logs x.log).recs.take (k x.log)) + updates ((s.logs x.log).recs.drop (k x.log)) := by
        unfold updates
        rw [← List.countP_append, List.take_append_drop]
      omega
    obtain ⟨p2, r, t, hd, hr, hp2⟩ := nth_update _ 0 hdrop
    have hrecs : (s.logs x.log).recs = (p1 ++ .quiesce :: p2) ++ r :: t := by
      rw [← List.take_append_drop (k x.log) (s.logs x.log).recs, hp1, hd]
      simp
    have hcount : updates (p1 ++ .quiesce :: p2) = updates ((s.logs x.log).recs.take (k x.log)) := by
      rw [hp1]
      unfold updates at *
      rw [List.countP_append, List.countP_append, List.countP_cons_of_neg (by decide), hp2]
      simp [Rec.isUpd, Rec.key?]
    obtain ⟨x', hx'⟩ : ∃ x', (s.of x.log)[updates (p1 ++ .quiesce :: p2)]? = some x' :=
      ⟨_, List.getElem?_eq_getElem (by rw [hcount]; exact hlt)⟩
    have hfirst := (hs.logs x.log).first _ r t hrecs hr x' hx' p1 p2 rfl (updates_zero hp2)
    have hx'x : x'.gw ≤ x.gw := by
      have hpw : (s.of x.log).Pairwise fun a b => a.gw ≤ b.gw := hs.gws.sublist List.filter_sublist
      rw [hcount] at hx'
      rcases Nat.lt_or_eq_of_le hlost with hl | hl
      · obtain ⟨h1, e1⟩ := List.getElem?_eq_some_iff.1 hx'
        obtain ⟨h2, e2⟩ := List.getElem?_eq_some_iff.1 hat
        have := List.pairwise_iff_getElem.1 hpw _ _ h1 h2 hl
        rwa [e1, e2] at this
      · rw [hl, hat] at hx'
        cases hx'
        exact Nat.le_refl _
    have hqy : lastE 0 p1 ≤ y.gw := Nat.le_trans hfirst (Nat.le_trans hx'x hxy.1)
    -- the later update comes after a record of the wake-up
    have hyinv := hinv y.log
    obtain ⟨p, ry, ty, hpy, hry, hcy⟩ := nth_update _ _ hy.2
    have hyrecs : (s.logs y.log).recs = p ++ ry :: (ty ++ (s.logs y.log).recs.drop (k y.log)) := by
      conv => lhs; rw [← List.take_append_drop (k y.log) (s.logs y.log).recs, hpy]
      simp
    have haty : (s.of y.log)[updates p]? = some y := by
      rw [hcy]
      exact of_at (b := c) (by rw [hh]; simp)
    obtain ⟨w, hw, hyw⟩ := (hs.logs y.log).wakes p ry _ hyrecs hry y haty (by rw [hq0] at hqnz; omega)
    have hwD : (w, Rec.wake) ∈ tagged 0 ((s.logs y.log).recs.take (k y.log)) := by
      rw [hpy, tagged_append]
      exact List.mem_append_left _ hw
    have hsY := sorted_take hyinv (k y.log)
    have hwy : w ≤ y.q.qt.epoch := by
      have hup : (y.q.qt.epoch, y.q.update) ∈ tagged (lastE 0 p) (ry :: ty) := by
        have hu := upd_take hyinv (k y.log)
        have hel : (((s.of y.log).take (updates ((s.logs y.log).recs.take (k y.log)))).map fun z => (z.q.qt.epoch, z.q.update))[updates p]? =
            some (y.q.qt.epoch, y.q.update) := by
          rw [List.getElem?_map, List.getElem?_take_of_lt (by rw [hcy]; exact hy.2), haty]; rfl
        rw [← hu, hpy, tagged_append, List.filter_append, List.getElem?_append_right] at hel
        · exact (List.mem_filter.1 (List.mem_of_getElem? hel)).1
        · rw [← List.countP_eq_length_filter]
          conv => rhs; rw [updates, ← tagged_snd p 0, List.countP_map]
          exact Nat.le_refl _
      rw [hpy, tagged_append] at hsY
      exact (List.pairwise_append.1 hsY).2.2 _ hw _ hup
    -- so the bound is at most that epoch
    have hxinfo : info ((s.logs x.log).recs.take (k x.log)) ∈ (left s n k).map info :=
      List.mem_map_of_mem (mem_left s n k (hlog x hxm))
    have hyinfo : info ((s.logs y.log).recs.take (k y.log)) ∈ (left s n k).map info :=
      List.mem_map_of_mem (mem_left s n k (hlog y hym))
    have hz : ∀ z ∈ (left s n k).map info, z.quiescent = true → z.last ≠ 0 := by
      intro z hz _
      obtain ⟨l, hl, rfl⟩ := List.mem_map.1 hz
      obtain ⟨i, hi, rfl⟩ := List.mem_map.1 hl
      rw [info_last]
      exact last_ne_zero (hinv i) _ (hne i (List.mem_range.1 hi))
    have hmq := (minQ_aux _ hz 0).2 _ hxinfo hq
    have hmq : minQuiescentLast ((left s n k).map info) ≠ 0 ∧ minQuiescentLast ((left s n k).map info) ≤ lastE 0 p1 := by
      rw [info_last, hq0] at hmq
      exact hmq
    have hww := le_wake (sorted_take hyinv (k y.log)) hwD
    have hmw := le_maxWake hyinfo
    have hmissed : missedFrom ((left s n k).map info) = minQuiescentLast ((left s n k).map info) := by
      unfold missedFrom
      rw [if_pos]
      omega
    have hfw := firstWake_le (minQuiescentLast ((left s n k).map info)) _ 0 (sorted_take hyinv (k y.log)) w hwD (by omega) (by omega)
    have hpw : postWake (missedFrom ((left s n k).map info)) ((s.logs y.log).recs.take (k y.log)) =
        firstWake (minQuiescentLast ((left s n k).map info)) 0 ((s.logs y.log).recs.take (k y.log)) := by
      rw [hmissed]
      unfold postWake
      rw [if_pos]
      omega
    have hM := replayMax_le_wake ckpMax (left s n k) (mem_left s n k (hlog y hym)) (by rw [hpw]; exact hfw.1)
    rw [hpw] at hM
    have := hy.1
    omega

/-! ### Examples, and why the hypotheses are needed -/

instance (s : Sys) (a : LAct) : Decidable (InOrder s a) := by
  cases a <;> unfold InOrder <;> infer_instance

instance (s : Sys) (a : LAct) : Decidable (Alert s a) := by
  cases a <;> unfold Alert <;> infer_instance

instance (s : Sys) (a : LAct) : Decidable (Ok s a) := inferInstanceAs (Decidable (_ ∧ _))

/-- Every step satisfies the condition. -/
def Along (ok : Sys → LAct → Prop) : Sys → List LAct → Prop
  | _, [] => True
  | s, a :: as => ok s a ∧ Along ok (s.step a) as

instance (ok : Sys → LAct → Prop) [∀ s a, Decidable (ok s a)] : ∀ as s, Decidable (Along ok s as)
  | [], _ => isTrue trivial
  | a :: as, s =>
    have := instDecidableAlong ok as (s.step a)
    inferInstanceAs (Decidable (_ ∧ _))

theorem reach_along {ok : Sys → LAct → Prop} (as : List LAct) : ∀ {s : Sys}, Reach ok s → Along ok s as → Reach ok (s.runs as) := by
  induction as with
  | nil => intro s h _; exact h
  | cons a as ih => intro s h ha; exact ih (.step a h ha.1) ha.2

/-- A put of key `k` in epoch `e`. -/
def req (e k : Nat) : Req := ⟨.put, ⟨e, 2 * k, 0⟩, [UInt8.ofNat k], []⟩

/-- Log 0 goes quiet and is woken in epoch 3. -/
def demo : List LAct :=
  [.update 0 (req 1 10), .update 1 (req 1 11), .tick, .logger 0 false, .written 0, .logger 0 false, .written 0,
    .update 1 (req 2 12), .tick, .update 1 (req 3 13), .update 0 (req 3 14), .update 1 (req 3 15), .tick, .update 1 (req 4 16)]

/-- Of log 0 the wake-up is lost. -/
def demoLeft (i : Nat) : Nat := if i = 0 then 4 else 100

theorem demo_reach : Reach Ok (Sys.init.runs demo) := reach_along demo .init (by decide +kernel)

theorem Ok.inOrder {s : Sys} (h : Reach Ok s) : Reach InOrder s := by
  induction h with
  | init => exact .init
  | step a _ ha ih => exact .step a ih ha.1

-- what is left of log 0 ends in a quiescence notification, and log 1 is replayed up to epoch 3
example : (info (((Sys.init.runs demo).logs 0).recs.take (demoLeft 0))).quiescent = true ∧
    (info (((Sys.init.runs demo).logs 1).recs.take (demoLeft 1))).quiescent = false ∧
    replayMax 0 (left (Sys.init.runs demo) 2 demoLeft) = 3 := by decide +kernel

-- `cut_exact` for log 1
example : replayLog 0 3 0 false (((Sys.init.runs demo).logs 1).recs.take (demoLeft 1)) = some [(req 1 11).update, (req 2 12).update] := by
  have h := cut_exact (Ok.inOrder demo_reach) 2 demoLeft 0 0 (i := 1) (by decide) (by decide +kernel) (Or.inl rfl)
  have hM : replayMax 0 (left (Sys.init.runs demo) 2 demoLeft) = 3 := by decide +kernel
  rw [hM] at h
  rw [h]
  decide +kernel

-- `no_gap`: the update of key 12, in log 1, is replayed and so is that of key 10, in log 0
example : Replayed (Sys.init.runs demo) 2 demoLeft 0 [] ⟨0, req 1 10, 0⟩ :=
  no_gap demo_reach 2 demoLeft 0 (by decide +kernel) (by decide +kernel)
    (a := []) (b := [⟨1, req 1 11, 0⟩]) (c := (Sys.init.runs demo).hist.drop 3) (x := ⟨0, req 1 10, 0⟩) (y := ⟨1, req 2 12, 0⟩)
    rfl ⟨by decide +kernel, by decide +kernel⟩

/-- A claim that is wrong: some update is replayed although an earlier one, in another log, is lost. -/
def Gap (s : Sys) (n : Nat) (k : Nat → Nat) : Prop :=
  ∃ a b c x y, s.hist = a ++ x :: (b ++ y :: c) ∧ Replayed s n k 0 (a ++ x :: b) y ∧ ¬ Replayed s n k 0 a x

/-- A log of which nothing has reached the disk is not noticed by recovery: it counts as quiescent. -/
theorem empty_log_breaks : ∃ s, Reach Ok s ∧ (∀ z ∈ s.hist, z.log < 2) ∧ ∃ k, Gap s 2 k :=
  ⟨Sys.init.runs [.update 0 (req 1 10), .update 1 (req 1 11), .tick, .update 1 (req 2 12)],
    reach_along _ .init (by decide +kernel), by decide +kernel, fun i => if i = 0 then 0 else 100,
    [], [], [⟨1, req 2 12, 0⟩], ⟨0, req 1 10, 0⟩, ⟨1, req 1 11, 0⟩, rfl, ⟨by decide +kernel, by decide +kernel⟩,
    fun h => absurd h.2 (by decide +kernel)⟩

/-- A logger that notices the wake-up of another log sets `wake_epoch_`, /repo/log.cc:250-254, so that its own log
never records the wake-up.  If the first update of the woken log is then lost, recovery does not see that
anything is missing: an update of the same epoch, which happened later, is replayed. -/
theorem unlogged_wake_breaks : ∃ s, Reach InOrder s ∧ (∀ z ∈ s.hist, z.log < 2) ∧
    ∃ k, (∀ i < 2, (s.logs i).recs.take (k i) ≠ []) ∧ Gap s 2 k :=
  ⟨Sys.init.runs
      [.update 0 (req 1 10), .update 1 (req 1 11), .tick, .logger 0 false, .written 0, .logger 0 false, .written 0,
        .tick, .update 0 (req 3 14), .logger 1 false, .update 1 (req 3 15), .tick, .update 1 (req 4 16)],
    reach_along _ .init (by decide +kernel), by decide +kernel, demoLeft, by decide +kernel,
    [⟨0, req 1 10, 0⟩, ⟨1, req 1 11, 0⟩], [], [⟨1, req 4 16, 3⟩], ⟨0, req 3 14, 3⟩, ⟨1, req 3 15, 3⟩, rfl,
    ⟨by decide +kernel, by decide +kernel⟩, fun h => absurd h.2 (by decide +kernel)⟩

/-- A thread may read the epoch, be slow, and record its update after a thread that read the next epoch. -/
theorem slow_breaks : ∃ s, Reach InOrder s ∧ (∀ z ∈ s.hist, z.log < 2) ∧
    ∃ k, (∀ i < 2, (s.logs i).recs.take (k i) ≠ []) ∧ Gap s 2 k :=
  ⟨Sys.init.runs
      [.update 0 (req 1 10), .update 1 (req 1 11), .tick, .update 0 (req 2 12), .update 1 (req 1 13), .update 1 (req 2 14)],
    reach_along _ .init (by decide +kernel), by decide +kernel, fun i => if i = 0 then 3 else 100, by decide +kernel,
    [⟨0, req 1 10, 0⟩, ⟨1, req 1 11, 0⟩], [], [⟨1, req 2 14, 0⟩], ⟨0, req 2 12, 0⟩, ⟨1, req 1 13, 0⟩, rfl,
    ⟨by decide +kernel, by decide +kernel⟩, fun h => absurd h.1 (by decide +kernel)⟩

/-- A thread that waited for space in the buffer records an epoch older than the log's (`InOrder` fails).  If
the crash falls between, replay claims an epoch of which an update is missing. -/
theorem stall_breaks : ∃ s, Reach (fun _ _ => True) s ∧ ∃ k,
    (info ((s.logs 0).recs.take (k 0))).quiescent = false ∧
    replayLog 0 (replayMax 0 (left s 1 k)) 0 false ((s.logs 0).recs.take (k 0)) ≠
      some (((s.of 0).filter fun x => decide (x.q.qt.epoch < replayMax 0 (left s 1 k) ∧ x.q.key ≠ [])).map fun x => x.q.update) :=
  ⟨Sys.init.runs [.update 0 (req 1 10), .tick, .tick, .update 0 (req 3 12), .update 0 (req 2 11)],
    reach_along _ .init (by decide +kernel), fun _ => 4, by decide +kernel, by decide +kernel⟩

/-- A quiescence notification never comes with a wake record: the test at /repo/log.cc:263 fails whenever it
is reached, since by then `wake_epoch_` is the global wake epoch and the global log epoch differs from it. -/
theorem rest_records_no_wake (l : Lg) (ge gw : Nat) (w : Bool) (h : (l.logger ge gw w).recs ≠ l.recs) :
    (l.logger ge gw w).recs = l.recs ++ [.epoch ge, .quiesce] := by
  rcases logger_cases l ge gw w with h1 | h1
  · exact absurd h1.1 h
  · have hw : (l.marks.noticeWake gw).wake = gw := by
      unfold Marks.noticeWake
      split
      · rfl
      · rename_i hc; exact not_not.1 hc
    rw [h1.1, hw]
    unfold quiesceGroup
    rw [if_neg h1.2.2.2.2]
    rfl

-- the notification is really written
example : (((Sys.init.runs (demo.take 6)).logs 0).recs.drop 2) = [.epoch 2, .quiesce] := by decide +kernel

/-- After a quiescence notification the log epoch is the quiescent epoch; the comment at /repo/log.hh:79 says they
always differ. -/
theorem rested_epochs_equal : ∃ s, Reach Ok s ∧ (s.logs 0).marks.quiescent ≠ 0 ∧ (s.logs 0).marks.logEpoch = (s.logs 0).marks.quiescent :=
  ⟨Sys.init.runs (demo.take 6), reach_along _ .init (by decide +kernel), by decide +kernel, by decide +kernel⟩

end Verif.Props.C25
