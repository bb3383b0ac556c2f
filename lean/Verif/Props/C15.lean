import Verif.Timestamp.Model

/-!
# C15: timestamps of successive versions of a key strictly increase
-/
namespace Verif.Props.C15
open Verif.Timestamp Verif.CircularInt Verif.Key

/-! ### Arithmetic below 2^63 -/

theorem less_nat {a b : Ts} (ha : a.toNat < 2 ^ 63) (hb : b.toNat < 2 ^ 63) : less a b = decide (a.toNat < b.toNat) := by
  unfold less
  have : (a - b).toInt = (a.toNat : Int) - b.toNat := by
    rw [BitVec.toInt_sub, BitVec.toInt_eq_toNat_of_lt (by omega), BitVec.toInt_eq_toNat_of_lt (by omega)]
    simp [Int.bmod]; omega
  rw [this]
  exact decide_eq_decide.2 (by omega)

theorem lessEqual_nat {a b : Ts} (ha : a.toNat < 2 ^ 63) (hb : b.toNat < 2 ^ 63) :
    lessEqual a b = decide (a.toNat ≤ b.toNat) := by
  unfold lessEqual
  have : (a - b).toInt = (a.toNat : Int) - b.toNat := by
    rw [BitVec.toInt_sub, BitVec.toInt_eq_toNat_of_lt (by omega), BitVec.toInt_eq_toNat_of_lt (by omega)]
    simp [Int.bmod]; omega
  rw [this]
  exact decide_eq_decide.2 (by omega)

theorem or_one (x : Ts) (hx : x.toNat < 2 ^ 63) : ((x ||| 1) + 1).toNat = x.toNat / 2 * 2 + 2 := by
  have h1 : (x ||| 1).toNat = x.toNat / 2 * 2 + 1 := by
    rw [BitVec.toNat_or]
    show x.toNat ||| 1 = _
    apply Nat.eq_of_testBit_eq
    intro i
    rw [Nat.testBit_or]
    cases i with
    | zero => simp [Nat.testBit_zero]
    | succ i =>
      have h2 : Nat.testBit 1 (i + 1) = false := by simp [Nat.testBit_succ]
      rw [h2, Bool.or_false, Nat.testBit_succ, Nat.testBit_succ]
      congr 1; omega
  rw [BitVec.toNat_add, h1]
  simp; omega

theorem observe_spec {c p : Ts} (hc : c.toNat < 2 ^ 63) (hp : p.toNat < 2 ^ 63) :
    (observe c p).toNat = max c.toNat p.toNat := by
  unfold observe
  rw [less_nat hc hp]
  by_cases h : c.toNat < p.toNat
  · rw [if_pos (by simpa using h)]; omega
  · rw [if_neg (by simpa using h)]; omega

theorem update_spec {c x : Ts} (hc : c.toNat < 2 ^ 63) (hx : x.toNat < 2 ^ 63) :
    (update c x).toNat = if c.toNat ≤ x.toNat then x.toNat / 2 * 2 + 2 else c.toNat := by
  unfold update
  rw [lessEqual_nat hc hx]
  by_cases h : c.toNat ≤ x.toNat
  · rw [if_pos (by simpa using h), if_pos h, or_one x hx]
  · rw [if_neg (by simpa using h), if_neg h]

theorem raise_spec {p c : Ts} (hp : p.toNat < 2 ^ 63) (hc : c.toNat < 2 ^ 63) :
    (raise p c).toNat = if p.toNat ≤ c.toNat then c.toNat + 2 else p.toNat := by
  unfold raise
  rw [lessEqual_nat hp hc]
  by_cases h : p.toNat ≤ c.toNat
  · rw [if_pos (by simpa using h), if_pos h, BitVec.toNat_add]
    simp; omega
  · rw [if_neg (by simpa using h), if_neg h]

theorem absorbed_spec {p' p : Ts} (hp' : p'.toNat < 2 ^ 63) (hp : p.toNat < 2 ^ 63) :
    (absorbed p' p).toNat = max p'.toNat p.toNat := by
  unfold absorbed
  rw [less_nat hp' hp]
  by_cases h : p'.toNat < p.toNat
  · rw [if_pos (by simpa using h)]; omega
  · rw [if_neg (by simpa using h)]; omega

/-! ### Invariants -/

/-- All clocks and timestamps are at most `B`. -/
structure Below (s : St) (B : Nat) : Prop where
  clock : ∀ t, (s.clock t).toNat ≤ B
  row : ∀ k x, s.row k = some x → x.toNat ≤ B
  phantom : ∀ l, (s.phantom l).toNat ≤ B

/-- The next timestamp given to key `k` will exceed `n`. -/
def Above (s : St) (k : Bytes) (n : Nat) : Prop :=
  match s.row k with
  | some x => n ≤ x.toNat
  | none => n < (s.phantom (s.home k)).toNat

theorem upd_same {α β : Type} [DecidableEq α] (f : α → β) (x : α) (y : β) : upd f x y x = y := if_pos rfl
theorem upd_ne {α β : Type} [DecidableEq α] (f : α → β) {x z : α} (y : β) (h : z ≠ x) : upd f x y z = f z := if_neg h

theorem step_none {s : St} {t : Nat} {k : Bytes} (h : s.row k = none) : s.step (.remove t k) = (s, none) := by
  simp only [St.step]; rw [h]
theorem step_some {s : St} {t : Nat} {k : Bytes} {x : Ts} (h : s.row k = some x) :
    s.step (.remove t k) = (s.remove t k x, some ⟨k, .removed, update (s.clock t) x⟩) := by
  simp only [St.step]; rw [h]

theorem putClock_spec {s : St} {B : Nat} (hb : Below s B) (hB : B + 4 < 2 ^ 63) (t : Nat) (k : Bytes) :
    (s.putClock t k).toNat ≤ B + 2 ∧
      match s.row k with
      | some x => x.toNat < (s.putClock t k).toNat
      | none => (s.phantom (s.home k)).toNat ≤ (s.putClock t k).toNat := by
  have h1 := hb.clock t
  have h2 := hb.phantom (s.home k)
  unfold St.putClock
  cases hr : s.row k with
  | none =>
    dsimp only
    rw [observe_spec (by omega) (by omega)]
    omega
  | some x =>
    have h3 := hb.row k x hr
    dsimp only
    rw [update_spec (by omega) (by omega)]
    split <;> omega

theorem step_below {s : St} {B : Nat} (hb : Below s B) (hB : B + 4 < 2 ^ 63) (op : Op) : Below (s.step op).1 (B + 4) := by
  have hup : Below s (B + 4) :=
    ⟨fun t => Nat.le_trans (hb.clock t) (by omega), fun k x h => Nat.le_trans (hb.row k x h) (by omega),
      fun l => Nat.le_trans (hb.phantom l) (by omega)⟩
  cases op with
  | put t k =>
    have hc := (putClock_spec hb hB t k).1
    refine ⟨fun t' => ?_, fun k' x h => ?_, hup.phantom⟩
    · show (upd s.clock t _ t').toNat ≤ _
      unfold upd
      split
      · omega
      · exact hup.clock t'
    · have h : upd s.row k (some (s.putClock t k)) k' = some x := h
      unfold upd at h
      split at h
      · cases h; omega
      · exact hup.row k' x h
  | remove t k =>
    cases hr : s.row k with
    | none => rw [step_none hr]; exact hup
    | some x =>
      rw [step_some hr]
      have h1 := hb.clock t
      have h2 := hb.phantom (s.home k)
      have h3 := hb.row k x hr
      have hu := update_spec (c := s.clock t) (x := x) (by omega) (by omega)
      have hu' : (update (s.clock t) x).toNat ≤ B + 2 := by rw [hu]; split <;> omega
      have hp := raise_spec (p := s.phantom (s.home k)) (c := update (s.clock t) x) (by omega) (by omega)
      refine ⟨fun t' => ?_, fun k' x' h => ?_, fun l => ?_⟩
      · show (upd s.clock t _ t').toNat ≤ _
        unfold upd
        split
        · omega
        · exact hup.clock t'
      · have h : upd s.row k none k' = some x' := h
        unfold upd at h
        split at h
        · cases h
        · exact hup.row k' x' h
      · show (upd s.phantom (s.home k) _ l).toNat ≤ _
        unfold upd
        split
        · rw [hp]; split <;> omega
        · exact hup.phantom l
  | split a b moved =>
    refine ⟨hup.clock, hup.row, fun l => ?_⟩
    show (upd s.phantom b _ l).toNat ≤ _
    unfold upd
    split
    · exact hup.phantom a
    · exact hup.phantom l
  | absorb a b =>
    refine ⟨hup.clock, hup.row, fun l => ?_⟩
    show (upd s.phantom b _ l).toNat ≤ _
    unfold upd
    split
    · have h1 := hb.phantom a
      have h2 := hb.phantom b
      rw [absorbed_spec (by omega) (by omega)]; omega
    · exact hup.phantom l

/-- A step keeps what is promised about a key, and gives the key no smaller timestamp. -/
theorem step_above {s : St} {B : Nat} (hb : Below s B) (hB : B + 4 < 2 ^ 63) {op : Op} (hok : op.Ok s) {k : Bytes} {n : Nat}
    (ha : Above s k n) : Above (s.step op).1 k n ∧ ∀ e ∈ (s.step op).2, e.key = k → n < e.ts.toNat := by
  unfold Above at ha
  cases op with
  | put t k' =>
    by_cases hk : k = k'
    · subst hk
      have hc := (putClock_spec hb hB t k).2
      have hlt : n < (s.putClock t k).toNat := by
        cases hr : s.row k with
        | none => rw [hr] at ha hc; dsimp only at ha hc; omega
        | some x => rw [hr] at ha hc; dsimp only at ha hc; omega
      constructor
      · unfold Above
        have : (s.step (.put t k)).1.row k = some (s.putClock t k) := upd_same _ _ _
        rw [this]
        exact Nat.le_of_lt hlt
      · intro e he _
        cases he
        exact hlt
    · constructor
      · unfold Above
        have : (s.step (.put t k')).1.row k = s.row k := upd_ne _ _ hk
        rw [this]
        exact ha
      · intro e he hek
        cases he
        exact absurd hek.symm hk
  | remove t k' =>
    cases hr : s.row k' with
    | none => rw [step_none hr]; exact ⟨ha, fun e he => by cases he⟩
    | some x =>
      rw [step_some hr]
      have h1 := hb.clock t
      have h2 := hb.phantom (s.home k')
      have h3 := hb.row k' x hr
      have hu := update_spec (c := s.clock t) (x := x) (by omega) (by omega)
      have hgt : x.toNat < (update (s.clock t) x).toNat := by rw [hu]; split <;> omega
      have hu' : (update (s.clock t) x).toNat ≤ B + 2 := by rw [hu]; split <;> omega
      have hp := raise_spec (p := s.phantom (s.home k')) (c := update (s.clock t) x) (by omega) (by omega)
      have hp1 : (update (s.clock t) x).toNat < (raise (s.phantom (s.home k')) (update (s.clock t) x)).toNat := by
        rw [hp]; split <;> omega
      have hp2 : (s.phantom (s.home k')).toNat ≤ (raise (s.phantom (s.home k')) (update (s.clock t) x)).toNat := by
        rw [hp]; split <;> omega
      dsimp only
      by_cases hk : k = k'
      · subst hk
        rw [hr] at ha
        dsimp only at ha
        constructor
        · unfold Above
          have : (s.remove t k x).row k = none := upd_same _ _ _
          rw [this]
          show n < (upd s.phantom (s.home k) _ (s.home k)).toNat
          rw [upd_same]; omega
        · intro e he _
          cases he
          show n < (update (s.clock t) x).toNat
          omega
      · constructor
        · unfold Above
          have : (s.remove t k' x).row k = s.row k := upd_ne _ _ hk
          rw [this]
          cases hr' : s.row k with
          | some y => rw [hr'] at ha; exact ha
          | none =>
            rw [hr'] at ha
            show n < (upd s.phantom (s.home k') _ (s.home k)).toNat
            unfold upd
            split
            · rename_i e; rw [e] at ha; dsimp only at ha; omega
            · exact ha
        · intro e he hek
          cases he
          exact absurd hek.symm hk
  | split a b moved =>
    refine ⟨?_, fun e he => by cases he⟩
    unfold Above
    show match s.row k with
      | some x => n ≤ x.toNat
      | none => n < (upd s.phantom b (s.phantom a) (if s.home k = a ∧ moved k then b else s.home k)).toNat
    cases hr : s.row k with
    | some x => rw [hr] at ha; exact ha
    | none =>
      rw [hr] at ha
      dsimp only at ha ⊢
      by_cases hm : s.home k = a ∧ moved k
      · rw [if_pos hm, upd_same, ← hm.1]; exact ha
      · rw [if_neg hm, upd_ne _ _ (hok k)]; exact ha
  | absorb a b =>
    refine ⟨?_, fun e he => by cases he⟩
    unfold Above
    show match s.row k with
      | some x => n ≤ x.toNat
      | none => n < (upd s.phantom b (absorbed (s.phantom b) (s.phantom a)) (if s.home k = a then b else s.home k)).toNat
    cases hr : s.row k with
    | some x => rw [hr] at ha; exact ha
    | none =>
      rw [hr] at ha
      dsimp only at ha ⊢
      have h1 := hb.phantom a
      have h2 := hb.phantom b
      have h3 := absorbed_spec (p' := s.phantom b) (p := s.phantom a) (by omega) (by omega)
      by_cases hm : s.home k = a
      · rw [if_pos hm, upd_same, h3]
        rw [hm] at ha; omega
      · rw [if_neg hm]
        by_cases hm' : s.home k = b
        · rw [hm', upd_same, h3]
          rw [hm'] at ha; omega
        · rw [upd_ne _ _ hm']; exact ha

/-- After a timestamp was given to a key, later ones will exceed it. -/
theorem event_above {s : St} {B : Nat} (hb : Below s B) (hB : B + 4 < 2 ^ 63) {op : Op} {e : Event} (he : e ∈ (s.step op).2) :
    Above (s.step op).1 e.key e.ts.toNat := by
  cases op with
  | put t k =>
    cases he
    unfold Above
    have : (s.step (.put t k)).1.row k = some (s.putClock t k) := upd_same _ _ _
    dsimp only
    rw [this]
    exact Nat.le_refl _
  | remove t k =>
    cases hr : s.row k with
    | none => rw [step_none hr] at he; cases he
    | some x =>
      rw [step_some hr] at he ⊢
      cases he
      have h1 := hb.clock t
      have h2 := hb.phantom (s.home k)
      have h3 := hb.row k x hr
      have hu := update_spec (c := s.clock t) (x := x) (by omega) (by omega)
      have hu' : (update (s.clock t) x).toNat ≤ B + 2 := by rw [hu]; split <;> omega
      have hp := raise_spec (p := s.phantom (s.home k)) (c := update (s.clock t) x) (by omega) (by omega)
      unfold Above
      have : (s.remove t k x).row k = none := upd_same _ _ _
      dsimp only
      rw [this]
      show _ < (upd s.phantom (s.home k) _ (s.home k)).toNat
      rw [upd_same, hp]
      split <;> omega
  | split a b moved => cases he
  | absorb a b => cases he

theorem run_above {ops : List Op} : ∀ {s : St} {B : Nat}, Below s B → B + 4 * ops.length < 2 ^ 63 → OkRun s ops →
    ∀ {k : Bytes} {n : Nat}, Above s k n → ∀ e ∈ (s.run ops).2, e.key = k → n < e.ts.toNat := by
  induction ops with
  | nil => intro s B _ _ _ k n _ e he; cases he
  | cons op ops ih =>
    intro s B hb hB hok k n ha e he hk
    rw [List.length_cons] at hB
    have hB' : B + 4 < 2 ^ 63 := by omega
    obtain ⟨h1, h2⟩ := step_above hb hB' hok.1 ha
    have he : e ∈ (s.step op).2.toList ++ ((s.step op).1.run ops).2 := he
    rw [List.mem_append] at he
    rcases he with he | he
    · exact h2 e (by simpa using he) hk
    · exact ih (step_below hb hB' op) (by omega) hok.2 h1 e he hk

/-! ### The property -/

/-- The timestamps given to one key, oldest first. -/
def stamps (k : Bytes) (es : List Event) : List Nat := (es.filter fun e => e.key = k).map fun e => e.ts.toNat

/-- Whatever the threads' clocks were and however the updates of different threads, leaf splits,
layer creations and leaf removals follow each other, the timestamps of what happens to one key
strictly increase.  They do so for 2^60 steps from clocks and timestamps below 2^62: for hundreds of
years at a billion steps per second. -/
theorem strictly_increasing (s : St) (ops : List Op) (hb : Below s (2 ^ 62)) (hlen : ops.length < 2 ^ 60) (hok : OkRun s ops)
    (k : Bytes) : (stamps k (s.run ops).2).Pairwise (· < ·) := by
  have main : ∀ (ops : List Op) (s : St) (B : Nat), Below s B → B + 4 * ops.length < 2 ^ 63 → OkRun s ops →
      (stamps k (s.run ops).2).Pairwise (· < ·) := by
    intro ops
    induction ops with
    | nil => intro s B _ _ _; exact List.Pairwise.nil
    | cons op ops ih =>
      intro s B hb hB hok
      rw [List.length_cons] at hB
      have hB' : B + 4 < 2 ^ 63 := by omega
      have hb' := step_below hb hB' op
      have ih' := ih _ _ hb' (by omega) hok.2
      have e0 : (s.run (op :: ops)).2 = (s.step op).2.toList ++ ((s.step op).1.run ops).2 := rfl
      rw [e0]
      cases hev : (s.step op).2 with
      | none => exact ih'
      | some e =>
        show (stamps k (e :: ((s.step op).1.run ops).2)).Pairwise (· < ·)
        unfold stamps at ih' ⊢
        by_cases hk : e.key = k
        · rw [List.filter_cons_of_pos (by simpa using hk), List.map_cons, List.pairwise_cons]
          refine ⟨?_, ih'⟩
          intro n hn
          obtain ⟨e', he', rfl⟩ := List.mem_map.1 hn
          rw [List.mem_filter] at he'
          have ha := event_above (e := e) hb hB' (op := op) (by rw [hev]; simp)
          rw [hk] at ha
          exact run_above hb' (by omega) hok.2 ha e' he'.1 (by simpa using he'.2)
        · rw [List.filter_cons_of_neg (by simpa using hk)]
          exact ih'
  exact main ops s _ hb (by omega) hok

/-- A removal's timestamp lies strictly between that of the version it removes and that of any later
version: the stored timestamps of the key that come before the removal are smaller, those that
come after it are larger. -/
theorem removal_between (s : St) (ops : List Op) (hb : Below s (2 ^ 62)) (hlen : ops.length < 2 ^ 60) (hok : OkRun s ops)
    (before after : List Event) (r : Event) (h : (s.run ops).2 = before ++ r :: after) (hr : r.kind = .removed) :
    (∀ e ∈ before, e.key = r.key → e.ts.toNat < r.ts.toNat) ∧ (∀ e ∈ after, e.key = r.key → r.ts.toNat < e.ts.toNat) := by
  have hp := strictly_increasing s ops hb hlen hok r.key
  rw [h] at hp
  unfold stamps at hp
  rw [List.filter_append, List.filter_cons_of_pos (by simp), List.map_append, List.map_cons, List.pairwise_append,
    List.pairwise_cons] at hp
  refine ⟨fun e he hk => ?_, fun e he hk => ?_⟩
  · exact hp.2.2 _ (List.mem_map.2 ⟨e, List.mem_filter.2 ⟨he, by simpa using hk⟩, rfl⟩) _ (by simp)
  · exact hp.2.1.1 _ (List.mem_map.2 ⟨e, List.mem_filter.2 ⟨he, by simpa using hk⟩, rfl⟩)

/-- The row's own timestamp is the last one given to the key. -/
theorem stored_is_last (s : St) (op : Op) (e : Event) (he : (s.step op).2 = some e) :
    (s.step op).1.row e.key = if e.kind = .stored then some e.ts else none := by
  cases op with
  | put t k => cases he; exact upd_same _ _ _
  | remove t k =>
    cases hr : s.row k with
    | none => rw [step_none hr] at he; cases he
    | some x => rw [step_some hr] at he ⊢; cases he; exact upd_same _ _ _
  | split a b moved => cases he
  | absorb a b => cases he

/-! ### Timestamps of live rows are even, so no live row is taken for a marker -/

/-- Clocks and phantom epochs are even. -/
structure Even (s : St) : Prop where
  clock : ∀ t, (s.clock t).toNat % 2 = 0
  phantom : ∀ l, (s.phantom l).toNat % 2 = 0

theorem even_or (x : Ts) : ((x ||| 1) + 1).toNat % 2 = 0 := by
  have h1 : (x ||| 1).toNat % 2 = 1 := by
    rw [BitVec.toNat_or]
    show (x.toNat ||| 1) % 2 = 1
    have h0 : (x.toNat ||| 1).testBit 0 = true := by rw [Nat.testBit_or]; simp
    rw [Nat.testBit_zero] at h0
    simpa using h0
  rw [BitVec.toNat_add]
  show ((x ||| 1).toNat + 1) % 2 ^ 64 % 2 = 0
  omega

theorem step_even {s : St} (h : Even s) (op : Op) :
    Even (s.step op).1 ∧ ∀ e ∈ (s.step op).2, e.ts.toNat % 2 = 0 := by
  have hu : ∀ t x, (update (s.clock t) x).toNat % 2 = 0 := by
    intro t x
    unfold update
    split
    · exact even_or x
    · exact h.clock t
  cases op with
  | put t k =>
    have hc : (s.putClock t k).toNat % 2 = 0 := by
      unfold St.putClock
      cases s.row k with
      | none =>
        dsimp only
        unfold observe
        split
        · exact h.phantom _
        · exact h.clock t
      | some x => exact hu t x
    refine ⟨⟨fun t' => ?_, h.phantom⟩, fun e he => by cases he; exact hc⟩
    show (upd s.clock t _ t').toNat % 2 = 0
    unfold upd
    split
    · exact hc
    · exact h.clock t'
  | remove t k =>
    cases hr : s.row k with
    | none => rw [step_none hr]; exact ⟨h, fun e he => by cases he⟩
    | some x =>
      rw [step_some hr]
      refine ⟨⟨fun t' => ?_, fun l => ?_⟩, fun e he => by cases he; exact hu t x⟩
      · show (upd s.clock t _ t').toNat % 2 = 0
        unfold upd
        split
        · exact hu t x
        · exact h.clock t'
      · show (upd s.phantom (s.home k) _ l).toNat % 2 = 0
        unfold upd
        split
        · unfold raise
          split
          · have := hu t x
            rw [BitVec.toNat_add]
            show (_ + 2) % 2 ^ 64 % 2 = 0
            omega
          · exact h.phantom _
        · exact h.phantom l
  | split a b moved =>
    refine ⟨⟨h.clock, fun l => ?_⟩, fun e he => by cases he⟩
    show (upd s.phantom b _ l).toNat % 2 = 0
    unfold upd
    split
    · exact h.phantom a
    · exact h.phantom l
  | absorb a b =>
    refine ⟨⟨h.clock, fun l => ?_⟩, fun e he => by cases he⟩
    show (upd s.phantom b _ l).toNat % 2 = 0
    unfold upd
    split
    · unfold absorbed
      split
      · exact h.phantom a
      · exact h.phantom b
    · exact h.phantom l

/-- Every timestamp given out is even, also when the counters wrap around: only replay writes odd
timestamps, which mark a row as a marker (/repo/kvproto.hh:52-55). -/
theorem all_even (s : St) (ops : List Op) (h : Even s) : ∀ e ∈ (s.run ops).2, e.ts.toNat % 2 = 0 := by
  induction ops generalizing s with
  | nil => intro e he; cases he
  | cons op ops ih =>
    intro e he
    have he : e ∈ (s.step op).2.toList ++ ((s.step op).1.run ops).2 := he
    rw [List.mem_append] at he
    rcases he with he | he
    · exact (step_even h op).2 e (by simpa using he)
    · exact ih _ (step_even h op).1 e he

/-! ### Cases -/

/-- A new table: clocks at 2 (/repo/kvthread.cc:46), one leaf. -/
def fresh : St := ⟨fun _ => 2, fun _ => none, fun _ => 0, fun _ => 0⟩

/-- Thread 1 drives its clock up; key `a` is removed by it, its leaf splits, and the lagging thread 2
inserts it again. -/
def demoOps : List Op :=
  [.put 1 [97], .put 1 [97], .put 1 [97], .remove 1 [97], .split 0 1 (fun k => k = [97]), .put 2 [98], .put 2 [97],
    .remove 2 [97], .absorb 1 0, .put 3 [97]]

example : stamps [97] (fresh.run demoOps).2 = [2, 4, 6, 8, 10, 12, 14] := by decide +kernel
example : Below fresh (2 ^ 62) := ⟨fun _ => by simp [fresh], fun _ _ h => by simp [fresh] at h, fun _ => by simp [fresh]⟩
example : Even fresh := ⟨fun _ => by simp [fresh], fun _ => by simp [fresh]⟩
example : OkRun fresh [.put 1 [97], .split 0 1 (fun k => k = [97]), .put 2 [97]] := by
  refine ⟨trivial, fun k => ?_, trivial, trivial⟩
  show 0 ≠ 1
  decide

/-! ### A race

`remove_leaf` raises the phantom epoch of the previous leaf by compare-and-swap without that leaf's lock
(/repo/masstree_remove.hh:195-206), while a removal in that leaf tests and sets the same word with
ordinary accesses under the lock (/repo/kvrow.hh:261-263).  If the compare-and-swap falls between the
test and the assignment, it is lost. -/

/-- Thread `t` removes key `k`, with row timestamp `x`, from leaf `b`; between its test and its assignment
of the leaf's phantom epoch, leaf `a` is absorbed by leaf `b`. -/
def removeDuringAbsorb (s : St) (t : Nat) (k : Bytes) (x : Ts) (a b : Nat) : St :=
  let seen := s.phantom b
  let s1 := s.absorb a b
  { s1 with
    clock := upd s1.clock t (update (s.clock t) x)
    row := upd s1.row k none
    phantom := upd s1.phantom b (raise seen (update (s.clock t) x)) }

/-- Key `b` lives in leaf 1 and is removed at time 8; leaf 1 is absorbed by leaf 0 while key `a` is removed
there. -/
def raceState : St :=
  (fresh.run [.put 2 [97], .put 1 [98], .split 0 1 (fun k => k = [98]), .put 1 [98], .put 1 [98], .remove 1 [98]]).1

/-- After the race, the lagging thread 2 stores key `b` with a timestamp below that of its removal. -/
theorem race_breaks_order :
    (fresh.run [.put 2 [97], .put 1 [98], .split 0 1 (fun k => k = [98]), .put 1 [98], .put 1 [98], .remove 1 [98]]).2.getLast?.map
      (fun e => (e.key, e.kind, e.ts.toNat)) = some ([98], Kind.removed, 8) ∧
    raceState.row [97] = some 2 ∧ raceState.row [98] = none ∧
    ((removeDuringAbsorb raceState 2 [97] 2 1 0).putClock 2 [98]).toNat = 6 := by decide +kernel

/-- Without the race, in either order, the timestamp is above it. -/
theorem no_race_keeps_order :
    (((raceState.absorb 1 0).remove 2 [97] 2).putClock 2 [98]).toNat = 10 ∧
    (((raceState.remove 2 [97] 2).absorb 1 0).putClock 2 [98]).toNat = 10 := by decide +kernel

end Verif.Props.C15
