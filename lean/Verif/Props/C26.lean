import Verif.Log.Checkpoint
import Verif.Props.C24
import Verif.Props.C25

/-!
# C26: a checkpoint and the logs lose no durable update

A checkpoint is begun in state `a`, whose global epoch is its `min_epoch`, reads the row of each key at some
time, and ends in state `b`, whose global epoch is its `max_epoch`, /repo/mtd.cc:1650-1682 and 1550-1566.  It is committed after
a look at the logs, and the server crashes later, in state `s`.
-/
namespace Verif.Props.C26
open Verif.Log
open Verif.Key (Bytes)
open C25 (left Replayed)

/-- A committed checkpoint and a crash. -/
structure Ckp (ok : Sys → LAct → Prop) (n : Nat) (s : Sys) where
  a : Sys
  /-- The state in which the scan reads the row of a key. -/
  scan : Bytes → Sys
  b : Sys
  /-- The state in which `max_flushed_epoch` reads the global epoch. -/
  g : Sys
  /-- The state in which it looks at log `i`. -/
  look : Nat → Sys
  start : Reach ok a
  began : ∀ k, Steps ok a (scan k)
  ended : ∀ k, Steps ok (scan k) b
  later : Steps ok b g
  looked : ∀ i, Steps ok g (look i)
  crash : ∀ i, Steps ok (look i) s
  commit : mayCommit (maxFlushed ((List.range n).map fun i => ((look i).logs i).flushedTo g.ge)) b.ge

/-- Every log has been flushed at some time. -/
def Ckp.AllFlushed {ok : Sys → LAct → Prop} {n : Nat} {s : Sys} (c : Ckp ok n s) : Prop :=
  ∀ i < n, ((c.look i).logs i).flushedTo c.g.ge ≠ 0

/-- A checkpoint is committed only when every update of its epochs, hence every update it may contain, is on
disk in the logs: what is not on disk is of a later epoch. -/
theorem commit_durable {n : Nat} {s : Sys} (c : Ckp Timely n s) (hz : c.AllFlushed) {i : Nat} (hi : i < n) :
    ∀ x ∈ s.undisked i, c.b.ge < x.q.qt.epoch := by
  have hmem : ((c.look i).logs i).flushedTo c.g.ge ∈ (List.range n).map fun i => ((c.look i).logs i).flushedTo c.g.ge :=
    List.mem_map.2 ⟨i, List.mem_range.2 hi, rfl⟩
  have hle := maxFlushed_le (by
    intro f hf
    obtain ⟨j, hj, rfl⟩ := List.mem_map.1 hf
    exact hz j (List.mem_range.1 hj)) hmem
  have hb : Reach Timely c.b := (c.ended []).reach ((c.began []).reach c.start)
  have hmax : c.b.ge < ((c.look i).logs i).flushedTo c.g.ge := by
    rcases c.commit with h | h
    · exact absurd h hle.2
    · omega
  exact flushed_past (c.later.reach hb) (c.looked i) (c.crash i) i hmax

/-! ### The updates of a key -/

/-- What the log record of an update says about its key, `none` for other keys. -/
def updOf (κ : Bytes) : Rec → Option Upd
  | .kv c ts k v => if k = κ then some ⟨match c with | .put => .put | .replace => .replace | .remove => .remove, ts, 0, v⟩ else none
  | .modify ts p k v => if k = κ then some ⟨.modify, ts, p, v⟩ else none
  | _ => none

/-- The updates of a key, in the order in which they happened. -/
def upds (κ : Bytes) (h : List Entry) : List Upd := h.filterMap fun x => updOf κ x.q.update

theorem updOf_key {κ : Bytes} {q : Req} (h : q.key ≠ κ) : updOf κ q.update = none := by
  unfold Req.update
  split <;> simp [updOf, h]

theorem upds_append (κ : Bytes) (a b : List Entry) : upds κ (a ++ b) = upds κ a ++ upds κ b := List.filterMap_append ..

/-- Records of other keys do not matter. -/
theorem upds_filter {κ : Bytes} (p : Entry → Bool) {h : List Entry} (hp : ∀ x ∈ h, x.q.key = κ → p x = true) : upds κ (h.filter p) = upds κ h := by
  induction h with
  | nil => rfl
  | cons x h ih =>
    have hi := ih fun y hy => hp y (List.mem_cons_of_mem _ hy)
    unfold upds at hi ⊢
    rw [List.filter_cons]
    split
    · rw [List.filterMap_cons, List.filterMap_cons, hi]
    · rename_i hc
      have hk : x.q.key ≠ κ := fun hk => hc (hp x (List.mem_cons_self ..) hk)
      rw [List.filterMap_cons, updOf_key hk, hi]

/-! ### What is replayed is a beginning of the history -/

theorem prefix_exists {s : Sys} (h : Reach Ok s) (n : Nat) (k : Nat → Nat) (ckpMax : Nat)
    (hlog : ∀ z ∈ s.hist, z.log < n) (hne : ∀ i < n, (s.logs i).recs.take (k i) ≠ []) :
    ∃ m ≤ s.hist.length, ∀ j x, s.hist[j]? = some x → (Replayed s n k ckpMax (s.hist.take j) x ↔ j < m) := by
  classical
  by_cases hex : ∃ j, ∃ x, s.hist[j]? = some x ∧ ¬ Replayed s n k ckpMax (s.hist.take j) x
  · obtain ⟨x, hx, hnot⟩ := Nat.find_spec hex
    refine ⟨Nat.find hex, ?_, fun j y hy => ?_⟩
    · obtain ⟨hlt, _⟩ := List.getElem?_eq_some_iff.1 hx
      exact Nat.le_of_lt hlt
    · constructor
      · intro hrep
        by_contra hc
        rcases Nat.lt_or_eq_of_le (Nat.le_of_not_lt hc) with hlt | heq
        · apply hnot
          generalize Nat.find hex = i at hx hlt
          obtain ⟨hi, hxi⟩ := List.getElem?_eq_some_iff.1 hx
          obtain ⟨hj, hyj⟩ := List.getElem?_eq_some_iff.1 hy
          have e1 : s.hist.take j = s.hist.take i ++ x :: (s.hist.take j).drop (i + 1) := by
            conv => lhs; rw [← List.take_append_drop i (s.hist.take j)]
            rw [List.take_take, Nat.min_eq_left (Nat.le_of_lt hlt)]
            congr 1
            rw [List.drop_eq_getElem_cons (by rw [List.length_take]; omega)]
            congr 1
            rw [List.getElem_take, hxi]
          have e2 : s.hist = s.hist.take i ++ x :: ((s.hist.take j).drop (i + 1) ++ y :: s.hist.drop (j + 1)) := by
            conv => lhs; rw [← List.take_append_drop j s.hist]
            rw [List.drop_eq_getElem_cons hj, hyj]
            conv => lhs; rw [e1]
            simp
          refine C25.no_gap h n k ckpMax hlog hne e2 ?_
          rw [← e1]
          exact hrep
        · rw [heq] at hx hnot
          rw [hx] at hy
          cases hy
          exact hnot hrep
      · intro hlt
        by_contra hc
        exact Nat.find_min hex hlt ⟨y, hy, hc⟩
  · refine ⟨s.hist.length, Nat.le_refl _, fun j x hx => ⟨fun _ => (List.getElem?_eq_some_iff.1 hx).1, fun _ => ?_⟩⟩
    by_contra hc
    exact hex ⟨j, x, hx, hc⟩

/-- The part of it in one log. -/
theorem log_part {s : Sys} {n : Nat} {k : Nat → Nat} {ckpMax m : Nat} (hm : m ≤ s.hist.length)
    (hrep : ∀ j x, s.hist[j]? = some x → (Replayed s n k ckpMax (s.hist.take j) x ↔ j < m)) (i : Nat) :
    (((s.of i).take (updates ((s.logs i).recs.take (k i)))).filter fun x => decide (x.q.qt.epoch < replayMax ckpMax (left s n k))) =
      (s.hist.take m).filter fun x => x.log = i := by
  generalize hM : replayMax ckpMax (left s n k) = M
  generalize hd : updates ((s.logs i).recs.take (k i)) = d
  have hof : s.of i = ((s.hist.take m).filter fun x => x.log = i) ++ ((s.hist.drop m).filter fun x => x.log = i) := by
    unfold Sys.of
    rw [← List.filter_append, List.take_append_drop]
  have hin : ∀ j < m, ∀ x, s.hist[j]? = some x → x.log = i → x.q.qt.epoch < M ∧ ((s.hist.take j).filter fun z => z.log = i).length < d := by
    intro j hj x hx hi
    have h := (hrep j x hx).2 hj
    unfold Replayed at h
    rw [hM, hi, hd] at h
    exact h
  have hout : ∀ j, m ≤ j → ∀ x, s.hist[j]? = some x → x.log = i → ((s.hist.take j).filter fun z => z.log = i).length < d → M ≤ x.q.qt.epoch := by
    intro j hj x hx hi hlt
    by_contra hc
    have : j < m := (hrep j x hx).1 (by
      unfold Replayed
      rw [hM, hi, hd]
      exact ⟨by omega, hlt⟩)
    omega
  have hlen : ((s.hist.take m).filter fun x => x.log = i).length ≤ d := by
    have key : ∀ j ≤ m, ((s.hist.take j).filter fun x => x.log = i).length ≤ d := by
      intro j
      induction j with
      | zero => intro _; simp
      | succ j ih =>
        intro hj
        have hjl : j < s.hist.length := by omega
        rw [List.take_succ_eq_append_getElem hjl, List.filter_append]
        by_cases hc : (s.hist[j]).log = i
        · have := (hin j (by omega) _ (List.getElem?_eq_getElem hjl) hc).2
          rw [List.filter_cons_of_pos (by simpa using hc)]
          simp only [List.filter_nil, List.length_append, List.length_singleton]
          exact this
        · rw [List.filter_cons_of_neg (by simpa using hc)]
          simpa using ih (by omega)
    exact key m (Nat.le_refl _)
  rw [hof, List.take_append, List.take_of_length_le hlen, List.filter_append]
  have h1 : (((s.hist.take m).filter fun x => x.log = i).filter fun x => decide (x.q.qt.epoch < M)) = (s.hist.take m).filter fun x => x.log = i := by
    apply List.filter_eq_self.2
    intro x hx
    obtain ⟨hx, hi⟩ := List.mem_filter.1 hx
    obtain ⟨j, hj, hxj⟩ := List.getElem_of_mem hx
    rw [List.length_take] at hj
    rw [List.getElem_take] at hxj
    have := (hin j (by omega) x (by rw [← hxj]; exact List.getElem?_eq_getElem _) (by simpa using hi)).1
    simpa using this
  have h2 : ((((s.hist.drop m).filter fun x => x.log = i).take (d - ((s.hist.take m).filter fun x => x.log = i).length)).filter
      fun x => decide (x.q.qt.epoch < M)) = [] := by
    apply List.filter_eq_nil_iff.2
    -- elements of the rest that are on disk are of later epochs
    have key : ∀ (l p : List Entry), s.hist = p ++ l → m ≤ p.length →
        ∀ x ∈ ((l.filter fun x => x.log = i).take (d - (p.filter fun x => x.log = i).length)), M ≤ x.q.qt.epoch := by
      intro l
      induction l with
      | nil => intro p _ _ x hx; simp at hx
      | cons y l ih =>
        intro p hp hpm x hx
        have hp' : s.hist = (p ++ [y]) ++ l := by rw [hp]; simp
        have hi := ih (p ++ [y]) hp' (by rw [List.length_append]; omega)
        by_cases hc : y.log = i
        · rw [List.filter_cons_of_pos (by simpa using hc)] at hx
          have hcnt : ((p ++ [y]).filter fun x => x.log = i).length = (p.filter fun x => x.log = i).length + 1 := by
            rw [List.filter_append, List.filter_cons_of_pos (by simpa using hc)]
            simp
          rw [hcnt] at hi
          cases hdd : d - (p.filter fun x => x.log = i).length with
          | zero => rw [hdd] at hx; simp at hx
          | succ e =>
            rw [hdd, List.take_succ_cons] at hx
            rcases List.mem_cons.1 hx with rfl | hx
            · refine hout p.length hpm x (by rw [hp]; simp) hc ?_
              rw [hp, List.take_left']
              · omega
              · rfl
            · apply hi x
              rw [show d - ((p.filter fun x => x.log = i).length + 1) = e by omega]
              exact hx
        · rw [List.filter_cons_of_neg (by simpa using hc)] at hx
          have hcnt : ((p ++ [y]).filter fun x => x.log = i).length = (p.filter fun x => x.log = i).length := by
            rw [List.filter_append, List.filter_cons_of_neg (by simpa using hc)]
            simp
          rw [hcnt] at hi
          exact hi x hx
    intro x hx
    have := key (s.hist.drop m) (s.hist.take m) (List.take_append_drop m s.hist).symm (by rw [List.length_take]; omega) x hx
    simpa using this
  rw [h1, h2, List.append_nil]

/-- The logs together hold each update once. -/
theorem partition (l : List Entry) (n : Nat) (h : ∀ x ∈ l, x.log < n) :
    ((List.range n).flatMap fun i => l.filter fun x => x.log = i).Perm l := by
  have key : ∀ n, ((List.range n).flatMap fun i => l.filter fun x => x.log = i).Perm (l.filter fun x => x.log < n) := by
    intro n
    induction n with
    | zero => simp
    | succ n ih =>
      rw [List.range_succ, List.flatMap_append]
      refine (ih.append_right _).trans ?_
      have h1 := (List.filter_append_perm (fun x : Entry => decide (x.log < n)) (l.filter fun x => decide (x.log < n + 1)))
      rw [List.filter_filter, List.filter_filter] at h1
      refine List.Perm.trans ?_ h1
      apply List.Perm.of_eq
      congr 1
      · apply List.filter_congr
        intro x _
        rw [Bool.eq_iff_iff]
        simp only [Bool.and_eq_true, decide_eq_true_eq]
        omega
      · rw [List.flatMap_singleton]
        apply List.filter_congr
        intro x _
        rw [Bool.eq_iff_iff]
        simp only [Bool.and_eq_true, decide_eq_true_eq, Bool.not_eq_true', decide_eq_false_iff_not]
        omega
  refine (key n).trans (List.Perm.of_eq ?_)
  apply List.filter_eq_self.2
  intro x hx
  simpa using h x hx

/-- All that is replayed from the logs, in some order: the logs are replayed at the same time. -/
def Merged (s : Sys) (n : Nat) (k : Nat → Nat) (min ckpMax : Nat) (p : List Rec) : Prop :=
  p.Perm ((left s n k).flatMap fun rs => (replayLog min (replayMax ckpMax (left s n k)) 0 false rs).getD [])

theorem first_of {ge last : Nat} {recs : List Rec} {h : List Entry} (hi : LInv ge recs last h) (k : Nat) (hne : recs.take k ≠ []) :
    (info (recs.take k)).first ≠ 0 := by
  obtain ⟨e0, _, _, h0, hf⟩ := C25.begins hi k hne
  rw [hf]; exact h0

theorem merged_updates {s : Sys} (h : Reach InOrder s) {n : Nat} {k : Nat → Nat} {min ckpMax m : Nat}
    (hlog : ∀ z ∈ s.hist, z.log < n) (hne : ∀ i < n, (s.logs i).recs.take (k i) ≠ [])
    (hmin : min = 0 ∨ ∀ i < n, (info ((s.logs i).recs.take (k i))).first < min) (hm : m ≤ s.hist.length)
    (hrep : ∀ j x, s.hist[j]? = some x → (Replayed s n k ckpMax (s.hist.take j) x ↔ j < m))
    {p : List Rec} (hp : Merged s n k min ckpMax p) {κ : Bytes} (hκ : κ ≠ []) :
    (p.filterMap (updOf κ)).Perm (upds κ ((s.hist.take m).filter fun x => decide (min ≤ x.q.qt.epoch))) := by
  have hpart : ∀ i < n, (replayLog min (replayMax ckpMax (left s n k)) 0 false ((s.logs i).recs.take (k i))).getD [] =
      ((((s.hist.take m).filter fun x => decide (min ≤ x.q.qt.epoch ∧ x.q.key ≠ [])).filter fun x => x.log = i)).map fun x => x.q.update := by
    intro i hi
    rw [C25.replayed_exactly h n k ckpMax min (hne i hi) (hmin.imp id fun h => h i hi), Option.getD_some]
    congr 1
    have hcomm : (((s.hist.take m).filter fun x => decide (min ≤ x.q.qt.epoch ∧ x.q.key ≠ [])).filter fun x => x.log = i) =
        (((s.hist.take m).filter fun x => x.log = i).filter fun x => decide (min ≤ x.q.qt.epoch ∧ x.q.key ≠ [])) := by
      rw [List.filter_filter, List.filter_filter]
      exact List.filter_congr fun x _ => Bool.and_comm _ _
    rw [hcomm, ← log_part hm hrep i, List.filter_filter]
    apply List.filter_congr
    intro x _
    rw [Bool.eq_iff_iff]
    simp only [Bool.and_eq_true, decide_eq_true_eq]
    constructor
    · rintro ⟨a, b, c⟩; exact ⟨⟨a, c⟩, b⟩
    · rintro ⟨⟨a, c⟩, b⟩; exact ⟨a, b, c⟩
  have hflat : ((left s n k).flatMap fun rs => (replayLog min (replayMax ckpMax (left s n k)) 0 false rs).getD []) =
      ((List.range n).flatMap fun i => ((s.hist.take m).filter fun x => decide (min ≤ x.q.qt.epoch ∧ x.q.key ≠ [])).filter
        fun x => x.log = i).map fun x => x.q.update := by
    generalize replayMax ckpMax (left s n k) = M at hpart
    unfold left
    rw [List.flatMap_map, List.map_flatMap, List.flatMap_def, List.flatMap_def]
    congr 1
    apply List.map_congr_left
    intro i hi
    exact hpart i (List.mem_range.1 hi)
  have hp' := hp
  unfold Merged at hp'
  rw [hflat] at hp'
  have h1 := (partition ((s.hist.take m).filter fun x => decide (min ≤ x.q.qt.epoch ∧ x.q.key ≠ [])) n
    fun x hx => hlog x (List.mem_of_mem_take (List.mem_filter.1 hx).1)).map fun x => x.q.update
  have h2 := (hp'.trans h1).filterMap (updOf κ)
  refine h2.trans (List.Perm.of_eq ?_)
  rw [List.filterMap_map]
  show upds κ ((s.hist.take m).filter fun x => decide (min ≤ x.q.qt.epoch ∧ x.q.key ≠ [])) = _
  rw [← upds_filter (κ := κ) (fun x => decide (x.q.key ≠ [])) (h := (s.hist.take m).filter fun x => decide (min ≤ x.q.qt.epoch)), List.filter_filter]
  · congr 1
    apply List.filter_congr
    intro x _
    rw [Bool.eq_iff_iff]
    simp only [Bool.and_eq_true, decide_eq_true_eq]
    exact And.comm
  · intro x _ hx
    simpa [hx] using hκ

/-- Before any update there is no row, and afterwards there is one. -/
theorem history_some {V : Type} (R : Rows V) : ∀ (us : List Upd) (r v : Option V), C23.history R r us = some v → us ≠ [] → v.isSome = true
  | [], _, _, _, h => absurd rfl h
  | [u], r, v, h, _ => by
    unfold C23.history at h
    cases hh : C23.happen R r u with
    | none => rw [hh] at h; cases h
    | some w => rw [hh] at h; cases h; rfl
  | u :: u' :: us, r, v, h, _ => by
    unfold C23.history at h
    cases hh : C23.happen R r u with
    | none => rw [hh] at h; cases h
    | some w =>
      rw [hh] at h
      exact history_some R (u' :: us) (some w) v h (by simp)

theorem history_append {V : Type} (R : Rows V) (a b : List Upd) : ∀ r : Option V,
    C23.history R r (a ++ b) = (C23.history R r a).bind fun r' => C23.history R r' b := by
  induction a with
  | nil => intro r; rfl
  | cons x a ih =>
    intro r
    show (C23.happen R r x).bind _ = ((C23.happen R r x).bind _).bind _
    cases C23.happen R r x with
    | none => rfl
    | some w => exact ih (some w)

theorem Logged.part {a b : List Upd} (h : C23.Logged (a ++ b)) : C23.Logged a ∧ C23.Logged b := by
  have hi := List.pairwise_append.1 h.increasing
  exact ⟨⟨hi.1, fun u hu => h.even u (List.mem_append_left _ hu), fun u hu => h.links u (List.mem_append_left _ hu)⟩,
    ⟨hi.2.1, fun u hu => h.even u (List.mem_append_right _ hu), fun u hu => h.links u (List.mem_append_right _ hu)⟩⟩

/-- The row recovered for a key is the one it had after the first `m` updates of the history, if the checkpoint
holds the one it had after the first `mk`. -/
theorem row_recovered {V : Type} {R : Rows V} (hR : C23.Lawful R) {s : Sys} (h : Reach InOrder s) {n : Nat} {k : Nat → Nat}
    {min ckpMax m : Nat} (hlog : ∀ z ∈ s.hist, z.log < n) (hne : ∀ i < n, (s.logs i).recs.take (k i) ≠ [])
    (hmin : min = 0 ∨ ∀ i < n, (info ((s.logs i).recs.take (k i))).first < min) (hm : m ≤ s.hist.length)
    (hrep : ∀ j x, s.hist[j]? = some x → (Replayed s n k ckpMax (s.hist.take j) x ↔ j < m))
    {mk : Nat} (hmk : mk ≤ m) (hnew : ∀ x ∈ s.hist.drop mk, min ≤ x.q.qt.epoch)
    {κ : Bytes} (hκ : κ ≠ []) (hl : C23.Logged (upds κ s.hist)) {final : Option V} (hf : C23.history R none (upds κ s.hist) = some final)
    {ckpt : Option V} (hck : C23.history R none (upds κ (s.hist.take mk)) = some ckpt)
    {p : List Rec} (hp : Merged s n k min ckpMax p) :
    ∃ v, C23.history R none (upds κ (s.hist.take m)) = some v ∧ Cell.replay R ⟨[], ckpt⟩ (p.filterMap (updOf κ)) = some ⟨[], v⟩ := by
  have hperm := merged_updates h hlog hne hmin hm hrep hp hκ
  have htm : upds κ s.hist = upds κ (s.hist.take m) ++ upds κ (s.hist.drop m) := by
    rw [← upds_append, List.take_append_drop]
  have hsplit : s.hist.take m = s.hist.take mk ++ (s.hist.take m).drop mk := by
    conv => lhs; rw [← List.take_append_drop mk (s.hist.take m), List.take_take, Nat.min_eq_left hmk]
  have hnew' : ∀ x ∈ (s.hist.take m).drop mk, min ≤ x.q.qt.epoch := by
    intro x hx
    apply hnew
    rw [List.drop_take] at hx
    exact List.mem_of_mem_take hx
  have hsel : upds κ ((s.hist.take m).filter fun x => decide (min ≤ x.q.qt.epoch)) =
      upds κ ((s.hist.take mk).filter fun x => decide (min ≤ x.q.qt.epoch)) ++ upds κ ((s.hist.take m).drop mk) := by
    conv => lhs; rw [hsplit, List.filter_append]
    rw [upds_append]
    congr 2
    apply List.filter_eq_self.2
    intro x hx
    simpa using hnew' x hx
  rw [hsel] at hperm
  generalize hold : upds κ (s.hist.take mk) = old at hck
  generalize hnw : upds κ ((s.hist.take m).drop mk) = new at hperm
  have hm' : upds κ (s.hist.take m) = old ++ new := by
    rw [hsplit, upds_append, hold, hnw]
  rw [hm'] at htm ⊢
  rw [htm] at hl hf
  rw [history_append] at hf
  have hl' := (Logged.part hl).1
  cases hv : C23.history R none (old ++ new) with
  | none => rw [hv] at hf; cases hf
  | some v =>
    refine ⟨v, rfl, ?_⟩
    have holdsub : ∀ u ∈ upds κ ((s.hist.take mk).filter fun x => decide (min ≤ x.q.qt.epoch)), u ∈ old := by
      intro u hu
      rw [← hold]
      obtain ⟨x, hx, hxu⟩ := List.mem_filterMap.1 hu
      exact List.mem_filterMap.2 ⟨x, (List.mem_filter.1 hx).1, hxu⟩
    cases ckpt with
    | none =>
      have ho : old = [] := by
        by_contra hc
        have := history_some R old none none hck hc
        cases this
      have hn : upds κ ((s.hist.take mk).filter fun x => decide (min ≤ x.q.qt.epoch)) = [] := by
        apply List.eq_nil_iff_forall_not_mem.2
        intro u hu
        have := holdsub u hu
        rw [ho] at this
        cases this
      rw [hn, List.nil_append] at hperm
      rw [ho, List.nil_append] at hv hl'
      exact C23.order_independent hR none new hl' (fun v hv => by cases hv) hv _ hperm
    | some v0 =>
      refine C24.over_checkpoint hR old new hl' hck hv _ ?_ ?_
      · have h1 := hperm.filter (fun u => decide (u ∈ new))
        refine h1.trans (List.Perm.of_eq ?_)
        rw [List.filter_append]
        have hi := (List.pairwise_append.1 hl'.increasing).2.2
        have h2 : (upds κ ((s.hist.take mk).filter fun x => decide (min ≤ x.q.qt.epoch))).filter (fun u => decide (u ∈ new)) = [] := by
          apply List.filter_eq_nil_iff.2
          intro u hu hc
          have hc : u ∈ new := by simpa using hc
          exact Nat.lt_irrefl _ (hi u (holdsub u hu) u hc)
        rw [h2, List.nil_append]
        exact C23.filter_all fun u hu => hu
      · intro u hu
        rcases List.mem_append.1 (hperm.mem_iff.1 hu) with hu | hu
        · exact List.mem_append_left _ (holdsub u hu)
        · exact List.mem_append_right _ hu

theorem first_le_max (xs : List Info) : ∀ m, m ≤ xs.foldl (fun m x => if x.first ≠ 0 ∧ (m = 0 ∨ m < x.first) then x.first else m) m ∧
    ∀ x ∈ xs, x.first ≤ xs.foldl (fun m x => if x.first ≠ 0 ∧ (m = 0 ∨ m < x.first) then x.first else m) m := by
  induction xs with
  | nil => intro m; exact ⟨Nat.le_refl _, fun x hx => nomatch hx⟩
  | cons a xs ih =>
    intro m
    rw [List.foldl_cons]
    have h1 := ih (if a.first ≠ 0 ∧ (m = 0 ∨ m < a.first) then a.first else m)
    have h2 : m ≤ (if a.first ≠ 0 ∧ (m = 0 ∨ m < a.first) then a.first else m) ∧
        a.first ≤ (if a.first ≠ 0 ∧ (m = 0 ∨ m < a.first) then a.first else m) := by
      split <;> omega
    refine ⟨Nat.le_trans h2.1 h1.1, fun x hx => ?_⟩
    rcases List.mem_cons.1 hx with rfl | hx
    · exact Nat.le_trans h2.2 h1.1
    · exact h1.2 x hx

/-! ### The property -/

/-- What recovery computes is a state of the past: there is a number `m` such that, for every key that was
never removed, the row recovered is the one it had after the first `m` updates of the whole history.  The first
`m` updates are exactly those that are left on disk and of an epoch before the bound; they include every update of the
checkpoint's epochs, hence everything the checkpoint may contain.

The assertions of `recover`, /repo/mtd.cc:1463-1465, are assumed to hold; `refused` shows that they need not.
The other conditions are those of `C25.no_gap`, that all logs had been flushed (`never_flushed_commits`), and, for
each key, that its updates had increasing timestamps (C15) and were well formed. -/
theorem recovers_prefix {n : Nat} {s : Sys} (c : Ckp Ok n s) (hz : c.AllFlushed) (hlog : ∀ z ∈ s.hist, z.log < n) (k : Nat → Nat)
    (hk : ∀ i < n, (s.logs i).disk ≤ k i) (hne : ∀ i < n, (s.logs i).recs.take (k i) ≠ [])
    (hfirst : maxFirst ((left s n k).map info) < c.a.ge) (hmax : c.b.ge < replayMax c.b.ge (left s n k)) :
    ∃ m ≤ s.hist.length,
      (∀ j x, s.hist[j]? = some x → (j < m ↔ Replayed s n k c.b.ge (s.hist.take j) x)) ∧
      (∀ x ∈ s.hist.drop m, c.b.ge < x.q.qt.epoch) ∧
      ∀ {V : Type} {R : Rows V}, C23.Lawful R → ∀ κ ≠ [], (∀ x ∈ s.hist, x.q.key = κ → x.q.command ≠ .remove) →
        C23.Logged (upds κ s.hist) → (C23.history R none (upds κ s.hist)).isSome = true →
        ∀ ckpt, C23.history R none (upds κ (c.scan κ).hist) = some ckpt →
        ∀ p, Merged s n k c.a.ge c.b.ge p →
          ∃ v, C23.history R none (upds κ (s.hist.take m)) = some v ∧
            Cell.replay R ⟨[], ckpt⟩ (p.filterMap (updOf κ)) = some ⟨[], v⟩ := by
  have hb : Reach Ok c.b := (c.ended []).reach ((c.began []).reach c.start)
  have hs : Reach Ok s := (c.crash 0).reach ((c.looked 0).reach (c.later.reach hb))
  have hsO : Reach InOrder s := hs.imp fun _ _ h => h.1
  have htim : ∀ s a, Ok s a → Timely s a := fun _ _ h => h.timely
  have hdur : ∀ i < n, ∀ x ∈ s.undisked i, c.b.ge < x.q.qt.epoch := by
    intro i hi
    exact commit_durable (⟨c.a, c.scan, c.b, c.g, c.look, c.start.imp htim, fun k => (c.began k).imp htim, fun k => (c.ended k).imp htim,
      c.later.imp htim, fun i => (c.looked i).imp htim, fun i => (c.crash i).imp htim, c.commit⟩ : Ckp Timely n s) hz hi
  obtain ⟨m, hm, hrep⟩ := prefix_exists hs n k c.b.ge hlog hne
  -- an update of the checkpoint's epochs is replayed
  have hearly : ∀ j x, s.hist[j]? = some x → x.q.qt.epoch ≤ c.b.ge → j < m := by
    intro j x hx he
    apply (hrep j x hx).1
    refine ⟨by omega, ?_⟩
    by_contra hc
    obtain ⟨hj, hxj⟩ := List.getElem?_eq_some_iff.1 hx
    have hsp : s.hist = s.hist.take j ++ x :: s.hist.drop (j + 1) := by
      conv => lhs; rw [← List.take_append_drop j s.hist, List.drop_eq_getElem_cons hj, hxj]
    have hat := C25.of_at hsp
    have hle : updates ((s.logs x.log).recs.take (s.logs x.log).disk) ≤ ((s.hist.take j).filter fun z => z.log = x.log).length :=
      Nat.le_trans (updates_take_mono _ (hk x.log (hlog x (List.mem_of_getElem? hx)))) (Nat.le_of_not_lt hc)
    have hmem : x ∈ s.undisked x.log := by
      unfold Sys.undisked
      rw [← Nat.sub_add_cancel hle] at hat
      rw [Nat.add_comm, ← List.getElem?_drop] at hat
      exact List.mem_of_getElem? hat
    have hxm : x ∈ s.hist := List.mem_of_getElem? hx
    have := hdur x.log (hlog x hxm) x hmem
    omega
  refine ⟨m, hm, fun j x hx => (hrep j x hx).symm, ?_, ?_⟩
  · intro x hx
    by_contra hc
    obtain ⟨j, hj⟩ := List.mem_iff_getElem?.1 hx
    rw [List.getElem?_drop] at hj
    have := hearly _ x hj (by omega)
    omega
  · intro V R hR κ hκ _ hl hf ckpt hck p hp
    obtain ⟨final, hf⟩ := Option.isSome_iff_exists.1 hf
    have hst : Steps Timely (c.scan κ) s :=
      (((c.ended κ).trans c.later).trans ((c.looked 0).trans (c.crash 0))).imp htim
    obtain ⟨_, l, hh, hge⟩ := hst.grows
    have hage : c.a.ge ≤ (c.scan κ).ge := ((c.began κ).imp htim).grows.1
    have hbge : (c.scan κ).ge ≤ c.b.ge := ((c.ended κ).imp htim).grows.1
    have htake : s.hist.take (c.scan κ).hist.length = (c.scan κ).hist := by rw [hh, List.take_left']; rfl
    have hdrop : s.hist.drop (c.scan κ).hist.length = l := by rw [hh, List.drop_left']; rfl
    have hmk : (c.scan κ).hist.length ≤ m := by
      by_contra hc
      have hml : m < s.hist.length := by
        have : s.hist.length = (c.scan κ).hist.length + l.length := by rw [hh, List.length_append]
        omega
      have hx := List.getElem?_eq_getElem hml
      have hmem : s.hist[m] ∈ (c.scan κ).hist := by
        rw [← htake]
        exact List.mem_take_iff_getElem.2 ⟨m, by omega, rfl⟩
      have hsc := reach_sinv ((c.began κ).reach c.start)
      have := hearly m _ hx (Nat.le_trans (hsc.epoch_last _ hmem) hbge)
      omega
    have hinv := (reach_inv (fun _ _ h => h) hsO).2
    have hmin : ∀ i < n, (info ((s.logs i).recs.take (k i))).first < c.a.ge := by
      intro i hi
      have := (first_le_max ((left s n k).map info) 0).2 _ (List.mem_map_of_mem (C25.mem_left s n k hi))
      exact Nat.lt_of_le_of_lt this hfirst
    rw [← htake] at hck
    exact row_recovered hR hsO hlog hne (Or.inr hmin) hm hrep hmk
      (by rw [hdrop]; exact fun x hx => Nat.le_trans hage (hge x hx)) hκ hl hf hck hp

/-- The same without a checkpoint. -/
theorem recovers_prefix_fresh {n : Nat} {s : Sys} (hs : Reach Ok s) (hlog : ∀ z ∈ s.hist, z.log < n) (k : Nat → Nat)
    (hne : ∀ i < n, (s.logs i).recs.take (k i) ≠ []) :
    ∃ m ≤ s.hist.length,
      (∀ j x, s.hist[j]? = some x → (j < m ↔ Replayed s n k 0 (s.hist.take j) x)) ∧
      ∀ {V : Type} {R : Rows V}, C23.Lawful R → ∀ κ ≠ [],
        C23.Logged (upds κ s.hist) → (C23.history R none (upds κ s.hist)).isSome = true →
        ∀ p, Merged s n k 0 0 p →
          ∃ v, C23.history R none (upds κ (s.hist.take m)) = some v ∧
            Cell.replay R ⟨[], none⟩ (p.filterMap (updOf κ)) = some ⟨[], v⟩ := by
  obtain ⟨m, hm, hrep⟩ := prefix_exists hs n k 0 hlog hne
  refine ⟨m, hm, fun j x hx => (hrep j x hx).symm, ?_⟩
  intro V R hR κ hκ hl hf p hp
  obtain ⟨final, hf⟩ := Option.isSome_iff_exists.1 hf
  exact row_recovered hR (hs.imp fun _ _ h => h.1) hlog hne (Or.inl rfl) hm hrep (Nat.zero_le m) (fun _ _ => Nat.zero_le _) hκ hl hf
    (ckpt := none) (by simp [upds, C23.history]) hp

/-- No assertion fails in the loop that selects what to replay, if those of `recover` hold. -/
theorem replay_defined {s : Sys} (h : Reach InOrder s) (n : Nat) (k : Nat → Nat) (min ckpMax : Nat)
    (hfirst : min = 0 ∨ maxFirst ((left s n k).map info) < min) {i : Nat} (hi : i < n) :
    (replayLog min (replayMax ckpMax (left s n k)) 0 false ((s.logs i).recs.take (k i))).isSome = true := by
  by_cases hne : (s.logs i).recs.take (k i) = []
  · rw [hne]; rfl
  · rw [C25.replayed_exactly h n k ckpMax min hne]
    · rfl
    · refine hfirst.imp id fun h => ?_
      have := (first_le_max ((left s n k).map info) 0).2 _ (List.mem_map_of_mem (C25.mem_left s n k hi))
      exact Nat.lt_of_le_of_lt this h

/-! ### Examples, and why the conditions are needed -/

instance (s : Sys) (a : LAct) : Decidable (Prompt s a) := by
  cases a <;> unfold Prompt <;> infer_instance

instance (s : Sys) (a : LAct) : Decidable (Timely s a) := inferInstanceAs (Decidable (_ ∧ _))

theorem steps_along {ok : Sys → LAct → Prop} (as : List LAct) : ∀ {r s : Sys}, Steps ok r s → C25.Along ok s as → Steps ok r (s.runs as) := by
  induction as with
  | nil => intro r s h _; exact h
  | cons a as ih => intro r s h ha; exact ih (.step a h ha.1) ha.2

/-- A checkpoint that reads all rows at one time and looks at all logs at one time. -/
def simple (ok : Sys → LAct → Prop) (n : Nat) (before first second wait after : List LAct)
    (h1 : C25.Along ok Sys.init before) (h2 : C25.Along ok (Sys.init.runs before) first)
    (h3 : C25.Along ok ((Sys.init.runs before).runs first) second)
    (h4 : C25.Along ok (((Sys.init.runs before).runs first).runs second) wait)
    (h5 : C25.Along ok ((((Sys.init.runs before).runs first).runs second).runs wait) after)
    (hc : mayCommit (maxFlushed ((List.range n).map fun i =>
      (((((Sys.init.runs before).runs first).runs second).runs wait).logs i).flushedTo
        ((((Sys.init.runs before).runs first).runs second).runs wait).ge)) (((Sys.init.runs before).runs first).runs second).ge) :
    Ckp ok n (((((Sys.init.runs before).runs first).runs second).runs wait).runs after) where
  a := Sys.init.runs before
  scan := fun _ => (Sys.init.runs before).runs first
  b := ((Sys.init.runs before).runs first).runs second
  g := (((Sys.init.runs before).runs first).runs second).runs wait
  look := fun _ => (((Sys.init.runs before).runs first).runs second).runs wait
  start := C25.reach_along _ .init h1
  began := fun _ => steps_along _ .refl h2
  ended := fun _ => steps_along _ .refl h3
  later := steps_along _ .refl h4
  looked := fun _ => .refl
  crash := fun _ => steps_along _ .refl h5
  commit := hc

/-- A put in epoch `e`. -/
def req (e ts prev k : Nat) (l : List (Nat × Bytes)) : Req := ⟨.put, ⟨e, ts, prev⟩, [UInt8.ofNat k], C23.sent l⟩

/-- Key 10 is put through log 0 and modified through log 1 before, and through log 0 after its row is read for the
checkpoint; then both logs are flushed and another modification follows. -/
def demo : Ckp Ok 2 (((((Sys.init.runs
      [.update 0 (req 1 2 0 10 [(0, [120]), (1, [121])]), .update 1 (req 1 4 0 11 [(0, [1])]), .tick]).runs
      [.update 1 (req 2 6 2 10 [(1, [122])])]).runs
      [.update 0 (req 2 8 6 10 [(0, [119])])]).runs
      [.tick, .update 0 (req 3 10 4 11 [(0, [2])]), .update 1 (req 3 12 10 11 [(0, [3])]), .logger 0 false, .written 0, .logger 1 false,
        .written 1]).runs
      [.tick, .update 0 (req 4 14 8 10 [(0, [118])]), .update 1 (req 4 16 14 10 [(0, [117])])]) :=
  simple Ok 2 _ _ _ _ _ (by decide +kernel) (by decide +kernel) (by decide +kernel) (by decide +kernel) (by decide +kernel) (by decide +kernel)

/-- The state of the crash. -/
def demoEnd : Sys := ((((Sys.init.runs
      [.update 0 (req 1 2 0 10 [(0, [120]), (1, [121])]), .update 1 (req 1 4 0 11 [(0, [1])]), .tick]).runs
      [.update 1 (req 2 6 2 10 [(1, [122])])]).runs
      [.update 0 (req 2 8 6 10 [(0, [119])])]).runs
      [.tick, .update 0 (req 3 10 4 11 [(0, [2])]), .update 1 (req 3 12 10 11 [(0, [3])]), .logger 0 false, .written 0, .logger 1 false,
        .written 1]).runs
      [.tick, .update 0 (req 4 14 8 10 [(0, [118])]), .update 1 (req 4 16 14 10 [(0, [117])])]

/-- Of log 1 all that was not synced is lost. -/
def demoLeft (i : Nat) : Nat := if i = 0 then 100 else 6

-- the hypotheses of `recovers_prefix`
example : demo.AllFlushed ∧ (∀ z ∈ demoEnd.hist, z.log < 2) ∧ (∀ i < 2, (demoEnd.logs i).disk ≤ demoLeft i) ∧
    (∀ i < 2, (demoEnd.logs i).recs.take (demoLeft i) ≠ []) ∧ maxFirst ((left demoEnd 2 demoLeft).map info) < demo.a.ge ∧
    demo.b.ge < replayMax demo.b.ge (left demoEnd 2 demoLeft) ∧ C23.Logged (upds [10] demoEnd.hist) ∧
    (C23.history bagRows none (upds [10] demoEnd.hist)).isSome = true := by
  refine ⟨?_, by decide +kernel, by decide +kernel, by decide +kernel, by decide +kernel, by decide +kernel,
    ⟨by decide +kernel, by decide +kernel, by decide +kernel⟩, by decide +kernel⟩
  show ∀ i < 2, _
  decide +kernel

/-- All that is replayed, log 1 first. -/
def merged (s : Sys) (n : Nat) (k : Nat → Nat) (min max : Nat) : List Rec :=
  ((left s n k).flatMap fun rs => (replayLog min (replayMax max (left s n k)) 0 false rs).getD []).reverse

theorem merged_ok (s : Sys) (n : Nat) (k : Nat → Nat) (min max : Nat) : Merged s n k min max (merged s n k min max) := List.reverse_perm _

/-- The row of key 10 in the checkpoint. -/
def demoRow : Option Row.Bag.Row := (C23.history bagRows none (upds [10] (demo.scan [10]).hist)).getD none

-- the row of key 10: one column from the checkpoint, the other from the log; the modification of epoch 4 is not there
example : C23.cols (Cell.replay bagRows ⟨[], demoRow⟩ ((merged demoEnd 2 demoLeft 2 2).filterMap (updOf [10]))) =
    some (0, 8, [some [119], some [122]]) := by decide +kernel

-- and that is the row after the first four updates
example : C23.cols ((C23.history bagRows none (upds [10] (demoEnd.hist.take 4))).map fun v => ⟨[], v⟩) =
    some (0, 8, [some [119], some [122]]) := by decide +kernel

/-- A log that has never been flushed has flushed epoch 0, which `max_flushed_epoch` takes for "none": the
checkpoint is committed although an update of its epochs is not on disk. -/
theorem never_flushed_commits : ∃ (s : Sys) (c : Ckp Ok 2 s), ∃ i < 2, ∃ x ∈ s.undisked i, x.q.qt.epoch ≤ c.b.ge :=
  ⟨_, simple Ok 2 [.update 0 (req 1 2 0 10 []), .update 1 (req 1 4 0 11 [])] [] []
      [.tick, .update 1 (req 2 6 0 12 []), .logger 1 false, .written 1] []
      (by decide +kernel) (by decide +kernel) (by decide +kernel) (by decide +kernel) (by decide +kernel) (by decide +kernel),
    0, by decide, ⟨0, req 1 2 0 10 [], 0⟩, List.mem_cons_self .., by decide +kernel⟩

/-- A quiescent log counts as flushed up to the global epoch.  A thread that has read the epoch and is slow to
record its update (so `Prompt` fails) is not noticed: the checkpoint is committed although it may contain an update that is not on
disk. -/
theorem slow_update_committed : ∃ (s : Sys) (c : Ckp InOrder 1 s), c.AllFlushed ∧ ∃ x ∈ s.undisked 0, x.q.qt.epoch ≤ c.b.ge :=
  ⟨_, simple InOrder 1
      [.update 0 (req 1 2 0 10 []), .tick, .logger 0 false, .written 0, .logger 0 false, .written 0, .tick] [] [] [.tick] [.update 0 (req 3 4 0 11 [])]
      (by decide +kernel) (by decide +kernel) (by decide +kernel) (by decide +kernel) (by decide +kernel) (by decide +kernel),
    by show ∀ i < 1, _; decide +kernel, ⟨0, req 3 4 0 11 [], 3⟩, List.mem_cons_self .., by decide +kernel⟩

/-- A thread reads the epoch, and is slow to store the new row: the checkpoint begins in the next epoch and reads
the old row.  The update is on disk and of an epoch that is recovered, yet it is skipped by the replay, which starts
with the checkpoint's first epoch. -/
theorem slow_update_lost : ∃ (s : Sys) (c : Ckp InOrder 1 s), c.AllFlushed ∧ s.undisked 0 = [] ∧
    (∀ x ∈ upds [10] s.hist, x.ts ≤ 6) ∧ (∀ x ∈ s.hist, x.q.key = [10] → x.q.qt.epoch < replayMax c.b.ge (left s 1 fun _ => 100)) ∧
    C23.cols ((C23.history bagRows none (upds [10] s.hist)).map fun v => ⟨[], v⟩) = some (0, 6, [some [2]]) ∧
    ∃ ckpt, C23.history bagRows none (upds [10] (c.scan [10]).hist) = some ckpt ∧
    ∃ p, Merged s 1 (fun _ => 100) c.a.ge c.b.ge p ∧
      C23.cols (Cell.replay bagRows ⟨[], ckpt⟩ (p.filterMap (updOf [10]))) = some (0, 2, [some [1]]) := by
  refine ⟨_, simple InOrder 1 [.update 0 (req 1 2 0 10 [(0, [1])]), .tick] [] [.update 0 (req 1 6 2 10 [(0, [2])])]
    [.tick, .update 0 (req 3 8 0 11 [(0, [3])]), .logger 0 false, .written 0] []
    (by decide +kernel) (by decide +kernel) (by decide +kernel) (by decide +kernel) (by decide +kernel) (by decide +kernel),
    by show ∀ i < 1, _; decide +kernel, List.eq_nil_of_length_eq_zero (by decide +kernel), by decide +kernel, by decide +kernel, by decide +kernel,
    (C23.history bagRows none (upds [10] (Sys.init.runs [.update 0 (req 1 2 0 10 [(0, [1])]), .tick]).hist)).getD none, ?_,
    _, merged_ok _ _ _ _ _, by decide +kernel⟩
  have h : (C23.history bagRows none (upds [10] (Sys.init.runs [.update 0 (req 1 2 0 10 [(0, [1])]), .tick]).hist)).isSome = true := by
    decide +kernel
  obtain ⟨v, hv⟩ := Option.isSome_iff_exists.1 h
  rw [hv]
  exact hv

/-- A committed checkpoint from which recovery refuses to start: the assertion at /repo/mtd.cc:1465 fails although
everything is on disk.  Log 0 rests since epoch 2 and its logger has not noticed that log 1 woke up in
epoch 3. -/
theorem refused : ∃ (s : Sys) (c : Ckp Ok 2 s), c.AllFlushed ∧ (∀ i < 2, s.undisked i = []) ∧
    maxFirst ((left s 2 fun _ => 100).map info) < c.a.ge ∧ ¬ c.b.ge < replayMax c.b.ge (left s 2 fun _ => 100) :=
  ⟨_, simple Ok 2
      [.update 0 (req 1 2 0 10 []), .update 1 (req 1 4 0 11 []), .tick, .logger 0 false, .written 0, .logger 1 false, .written 1,
        .logger 0 false, .written 0, .logger 1 false, .written 1, .tick, .update 1 (req 3 6 0 12 []), .tick] [] [.tick]
      [.tick, .update 1 (req 6 8 0 13 []), .logger 1 false, .written 1] []
      (by decide +kernel) (by decide +kernel) (by decide +kernel) (by decide +kernel) (by decide +kernel) (by decide +kernel),
    by show ∀ i < 2, _; decide +kernel, fun i hi => List.eq_nil_of_length_eq_zero (by revert i; decide +kernel),
    by decide +kernel, by decide +kernel⟩

theorem fold_pick {α : Type} (f : α → Nat) (p : Nat → α → Prop) [∀ m x, Decidable (p m x)] : ∀ (l : List α) (a : Nat),
    l.foldl (fun m x => if p m x then f x else m) a = a ∨ ∃ x ∈ l, (∃ m, p m x) ∧ l.foldl (fun m x => if p m x then f x else m) a = f x
  | [], _ => Or.inl rfl
  | x :: l, a => by
    rw [List.foldl_cons]
    rcases fold_pick f p l (if p a x then f x else a) with h | ⟨y, hy, h⟩
    · rw [h]
      by_cases hp : p a x
      · rw [if_pos hp]; exact Or.inr ⟨x, by simp, ⟨a, hp⟩, rfl⟩
      · rw [if_neg hp]; exact Or.inl rfl
    · exact Or.inr ⟨y, by simp [hy], h⟩

/-- Recovery does start if every log rests or goes on beyond the checkpoint, and no resting log missed a wake-up. -/
theorem accepted (ckpMax : Nat) (hc : 0 < ckpMax) (logs : List (List Rec))
    (h : ∀ rs ∈ logs, (info rs).quiescent = true ∨ (info rs).last = 0 ∨ ckpMax < (info rs).last)
    (hw : ∀ x ∈ logs, ∀ y ∈ logs, (info x).quiescent = true → (info y).wake ≠ 0 → (info y).wake < (info x).last) :
    ckpMax < replayMax ckpMax logs := by
  have hmiss : missedFrom (logs.map info) = 0 := by
    unfold missedFrom
    split
    case isFalse => rfl
    case isTrue hm =>
    by_contra h0
    rcases fold_pick (fun x : Info => x.last) (fun m x => x.quiescent ∧ (m = 0 ∨ x.last < m)) (logs.map info) 0 with e | ⟨x, hx, ⟨_, hq, _⟩, e⟩
    · exact h0 e
    rcases fold_pick (fun x : Info => x.wake) (fun m x => x.wake ≠ 0 ∧ (m = 0 ∨ m < x.wake)) (logs.map info) 0 with e' | ⟨y, hy, ⟨_, hq', _⟩, e'⟩
    · exact hm.1 e'
    obtain ⟨a, ha, rfl⟩ := List.mem_map.1 hx
    obtain ⟨b, hb, rfl⟩ := List.mem_map.1 hy
    have := hw a ha b hb hq hq'
    have h1 : minQuiescentLast (logs.map info) = (info a).last := e
    have h2 : maxWake (logs.map info) = (info b).wake := e'
    rw [h1, h2] at hm
    omega
  have hmax : ckpMax < maxEpoch ckpMax (logs.map info) := by
    unfold maxEpoch
    rw [if_neg (by omega)]
    generalize hm : ckpMax + 1 = m
    have : ckpMax < m := by omega
    clear hm h hw hmiss
    generalize logs.map info = xs
    induction xs generalizing m with
    | nil => exact this
    | cons x xs ih => exact ih _ (by dsimp only; split <;> omega)
  rw [replayMax_eq, hmiss]
  generalize maxEpoch ckpMax (logs.map info) = m at hmax
  clear hw hmiss
  induction logs generalizing m with
  | nil => exact hmax
  | cons rs l ih =>
    refine ih (fun r hr => h r (List.mem_cons_of_mem _ hr)) _ ?_
    have hp : postWake 0 rs = 0 := by unfold postWake; rw [if_neg (by simp)]
    unfold lower1
    dsimp only
    rw [hp, if_neg (by simp)]
    rcases h rs (by simp) with h | h | h
    · rw [if_neg (by simp [h])]; exact hmax
    · rw [if_neg (by simp [h])]; exact hmax
    · split
      · exact h
      · exact hmax

-- two logs at rest since before the checkpoint's last epoch
example : 7 < replayMax 7 [[.epoch 3, .kv .put 2 [10] [], .epoch 5, .quiesce], [.epoch 4, .epoch 5, .quiesce]] :=
  accepted 7 (by decide) _ (by decide) (by decide)

end Verif.Props.C26
