import Verif.Log.ReplayLemmas
import Verif.Msgpack.Parser

/-!
# C23: log replay gives the same row regardless of the order of the records
-/
namespace Verif.Props.C23
open Verif.Log
open Verif.Key (Bytes)
variable {V : Type}

/-- A row type whose operations give the row the timestamp they are told. -/
structure Lawful (R : Rows V) : Prop where
  create : ∀ ch t v, t < 2 ^ 64 → R.create ch t = some v → R.ts v = t
  create1 : ∀ b t, t < 2 ^ 64 → R.ts (R.create1 b t) = t
  update : ∀ v ch t v', t < 2 ^ 64 → R.update v ch t = some v' → R.ts v' = t

/-- What an update does to a key when it happens: puts and replaces make the row anew, a removal leaves the
marker row, and a modification must find the row it was made for. -/
def happen (R : Rows V) (row : Option V) (u : Upd) : Option V :=
  match u.cmd, row with
  | .replace, _ => some (R.create1 u.val u.ts)
  | .put, _ => (R.parse u.val).bind fun ch => R.create ch u.ts
  | .remove, _ => (R.parse removeMarker).bind fun ch => R.create ch (u.ts + 1)
  | .modify, some v => if R.ts v = u.prev then (R.parse u.val).bind fun ch => R.update v ch u.ts else none
  | .modify, none => none

/-- The updates of a key, one after the other. -/
def history (R : Rows V) (row : Option V) : List Upd → Option (Option V)
  | [] => some row
  | u :: us => (happen R row u).bind fun v => history R (some v) us

/-- What the server logs for a key: even timestamps, increasing; a modification names the even timestamp of a row. -/
structure Logged (us : List Upd) : Prop where
  increasing : us.Pairwise (fun a b => a.ts < b.ts)
  even : ∀ u ∈ us, u.ts % 2 = 0 ∧ u.ts < 2 ^ 64
  links : ∀ u ∈ us, u.cmd = .modify → u.prev % 2 = 0

/-! ### From a history to the facts of the proofs -/

theorem happen_prepare (R : Rows V) (row : Option V) {u : Upd} (he : u.ts % 2 = 0) :
    happen R row u = match u.prepare.cmd, row with
      | .modify, some v => if R.ts v = u.prepare.prev then (R.parse u.prepare.val).bind fun ch => R.update v ch u.prepare.ts else none
      | .modify, none => none
      | _, _ => make R u.prepare := by
  obtain ⟨cmd, ts, prev, val⟩ := u
  cases cmd with
  | put => rfl
  | replace => rfl
  | modify => cases row <;> rfl
  | remove =>
    have : ts ||| 1 = ts + 1 := lor_one he
    show (R.parse removeMarker).bind _ = (R.parse removeMarker).bind fun ch => R.create ch (ts ||| 1)
    rw [this]

theorem prepare_half {u : Upd} (he : u.ts % 2 = 0) : u.prepare.ts / 2 = u.ts / 2 := by
  unfold Upd.prepare
  split
  · show (u.ts ||| 1) / 2 = _
    rw [lor_one he]; omega
  · rfl

theorem prepare_cmd (u : Upd) : u.prepare.cmd = u.cmd := by
  unfold Upd.prepare
  split <;> rfl

theorem prepare_modify {u : Upd} (h : u.cmd = .modify) : u.prepare = u := by
  unfold Upd.prepare
  rw [if_neg (by simp [h])]

/-- The timestamp of the last row of a history from `c0`. -/
def lastTs (c0 : Option Nat) (us : List Upd) : Option Nat :=
  match us.getLast? with
  | none => c0
  | some u => some u.prepare.ts

theorem lastTs_snoc (c0 : Option Nat) (us : List Upd) (u : Upd) : lastTs c0 (us ++ [u]) = some u.prepare.ts := by
  simp [lastTs]

theorem history_snoc (R : Rows V) (us : List Upd) (u : Upd) (row : Option V) :
    history R row (us ++ [u]) = (history R row us).bind fun r => (happen R r u).map some := by
  induction us generalizing row with
  | nil =>
    show (happen R row u).bind _ = (happen R row u).map some
    cases happen R row u <;> rfl
  | cons x us ih =>
    show (happen R row x).bind _ = ((happen R row x).bind _).bind _
    cases happen R row x with
    | none => rfl
    | some v => exact ih (some v)

theorem prepare_lt {u : Upd} (he : u.ts % 2 = 0 ∧ u.ts < 2 ^ 64) : u.prepare.ts < 2 ^ 64 := by
  have := prepare_half he.1
  omega

theorem build {R : Rows V} (hR : Lawful R) {start : Option V} (d : V) (us : List Upd) (hl : Logged us)
    (h0 : ∀ v, start = some v → ∀ u ∈ us, R.ts v / 2 < u.ts / 2) (r : Option V) (hr : history R start us = some r) :
    ∃ H, Hist R (start.map R.ts) (us.map Upd.prepare) H ∧ (start.map R.ts).map H = start ∧
      (us.map Upd.prepare).foldl stepA (start.map R.ts, []) = (lastTs (start.map R.ts) us, []) ∧
      (lastTs (start.map R.ts) us).map H = r := by
  induction us using List.reverseRecOn generalizing r with
  | nil =>
    refine ⟨fun _ => start.getD d, ⟨.nil, by simp, by simp, by simp, ?_, by simp, by simp, by simp, by simp, by simp⟩, ?_, rfl, ?_⟩
    · intro c hc
      cases start with
      | none => simp at hc
      | some v => simpa using hc
    · cases start <;> rfl
    · have hr : some start = some r := hr
      cases hr
      cases start <;> rfl
  | append_singleton us u ih =>
    rw [history_snoc] at hr
    obtain ⟨r0, hr0, hr⟩ := Option.bind_eq_some_iff.1 hr
    obtain ⟨v, hv, hr⟩ := Option.map_eq_some_iff.1 hr
    subst hr
    have hinc := hl.increasing
    rw [List.pairwise_append] at hinc
    have hlt : ∀ x ∈ us, x.ts < u.ts := fun x hx => hinc.2.2 x hx u (by simp)
    have hev := hl.even u (by simp)
    obtain ⟨H, hh, hs, hf, hlast⟩ := ih ⟨hinc.1, fun x hx => hl.even x (by simp [hx]), fun x hx => hl.links x (by simp [hx])⟩
      (fun v hv x hx => h0 v hv x (by simp [hx])) r0 hr0
    have hhalf : ∀ x ∈ us.map Upd.prepare, x.ts / 2 < u.prepare.ts / 2 := by
      intro x hx
      obtain ⟨y, hy, rfl⟩ := List.mem_map.1 hx
      have h1 := (hl.even y (by simp [hy])).1
      rw [prepare_half h1, prepare_half hev.1]
      have := hlt y hy
      omega
    have hc : ∀ c, start.map R.ts = some c → c / 2 < u.prepare.ts / 2 := by
      intro c hc
      obtain ⟨w, hw, rfl⟩ := Option.map_eq_some_iff.1 hc
      rw [prepare_half hev.1]
      exact h0 w hw u (by simp)
    have hne : ∀ x ∈ us.map Upd.prepare, x.ts ≠ u.prepare.ts := fun x hx e => by have := hhalf x hx; rw [e] at this; omega
    have hne0 : ∀ c, start.map R.ts = some c → c ≠ u.prepare.ts := fun c h e => by have := hc c h; omega
    -- where the previous row is
    have hlt2 : ∀ b, lastTs (start.map R.ts) us = some b → b / 2 < u.prepare.ts / 2 ∧ R.ts (H b) = b ∧
        (∀ x ∈ us.map Upd.prepare, x.ts ≤ b) ∧ (∀ c, start.map R.ts = some c → c ≤ b) := by
      intro b hb
      unfold lastTs at hb
      cases hg : us.getLast? with
      | none =>
        rw [hg] at hb
        dsimp only at hb
        have : us = [] := by simpa using hg
        subst this
        exact ⟨hc b hb, hh.tsH0 b hb, by simp, fun c h => by rw [hb] at h; cases h; omega⟩
      | some x =>
        rw [hg] at hb
        dsimp only at hb
        cases hb
        have hx : x ∈ us := List.mem_of_getLast? hg
        refine ⟨hhalf _ (List.mem_map_of_mem hx), hh.tsH _ (List.mem_map_of_mem hx), ?_, ?_⟩
        · intro y hy
          obtain ⟨z, hz, rfl⟩ := List.mem_map.1 hy
          obtain ⟨A, hA⟩ := List.getLast?_eq_some_iff.1 hg
          rw [hA] at hz hinc
          rcases List.mem_append.1 hz with hz | hz
          · have h1 := (List.pairwise_append.1 hinc.1).2.2 z hz x (by simp)
            have e1 := (hl.even z (by rw [hA]; simp [hz])).1
            have e2 := (hl.even x (by simp [hx])).1
            have := prepare_half e1
            have := prepare_half e2
            omega
          · simp at hz; subst hz; exact Nat.le_refl _
        · intro c h
          have := hh.start c h _ (List.mem_map_of_mem hx)
          omega
    let H' : Nat → V := fun t => if t = u.prepare.ts then v else H t
    have hH : H' u.prepare.ts = v := if_pos rfl
    have hH' : ∀ t, t ≠ u.prepare.ts → H' t = H t := fun t h => if_neg h
    have htv : R.ts v = u.prepare.ts := by
      rw [happen_prepare R r0 hev.1] at hv
      have hlt := prepare_lt hev
      have hmk : make R u.prepare = some v → R.ts v = u.prepare.ts := by
        intro hv
        unfold make at hv
        split at hv
        · rw [← Option.some.inj hv]; exact hR.create1 _ _ hlt
        · obtain ⟨ch, _, h⟩ := Option.bind_eq_some_iff.1 hv
          exact hR.create _ _ _ hlt h
      split at hv
      · split at hv
        · obtain ⟨ch, _, h⟩ := Option.bind_eq_some_iff.1 hv
          exact hR.update _ _ _ _ hlt h
        · cases hv
      · cases hv
      · exact hmk hv
    -- a modification is of the last row
    have hmod : u.cmd = .modify → lastTs (start.map R.ts) us = some u.prev ∧
        ((R.parse u.val).bind fun ch => R.update (H u.prev) ch u.ts) = some v := by
      intro hm
      unfold happen at hv
      rw [hm] at hv
      cases hr0 : r0 with
      | none => rw [hr0] at hv; cases hv
      | some w =>
        rw [hr0] at hv hlast
        dsimp only at hv
        split at hv
        · rename_i hw
          obtain ⟨b, hb, hbw⟩ := Option.map_eq_some_iff.1 hlast
          have := (hlt2 b hb).2.1
          rw [hbw, hw] at this
          subst this
          exact ⟨hb, by rw [hbw]; exact hv⟩
        · cases hv
    have hstep : stepA (lastTs (start.map R.ts) us, []) u.prepare = (some u.prepare.ts, []) := by
      unfold stepA
      by_cases hm : u.prepare.cmd = .modify
      · have hm' : u.cmd = .modify := by rw [← prepare_cmd]; exact hm
        rw [if_neg (by simp [hm]), if_pos ⟨rfl, by rw [prepare_modify hm']; exact (hmod hm').1⟩]
      · rw [if_pos hm]
    refine ⟨H', ⟨?_, ?_, ?_, ?_, ?_, ?_, ?_, ?_, ?_, ?_⟩, ?_, ?_, ?_⟩
    · rw [List.map_append, List.pairwise_append]
      exact ⟨hh.sorted, by simp, fun a ha b hb => by simp at hb; subst hb; exact hhalf a ha⟩
    · intro c h x hx
      rw [List.map_append] at hx
      rcases List.mem_append.1 hx with hx | hx
      · exact hh.start c h x hx
      · simp at hx; subst hx; exact hc c h
    · intro x hx hm
      rw [List.map_append] at hx
      rcases List.mem_append.1 hx with hx | hx
      · exact hh.even x hx hm
      · simp at hx
        subst hx
        rw [prepare_cmd] at hm
        rw [prepare_modify hm]
        exact ⟨hev.1, hl.links u (by simp) hm⟩
    · intro x hx
      rw [List.map_append] at hx
      rcases List.mem_append.1 hx with hx | hx
      · rw [hH' _ (hne x hx)]; exact hh.tsH x hx
      · simp at hx; subst hx; rw [hH]; exact htv
    · intro c h
      rw [hH' _ (hne0 c h)]; exact hh.tsH0 c h
    · intro x hx hm
      rw [List.map_append] at hx
      rcases List.mem_append.1 hx with hx | hx
      · rw [hH' _ (hne x hx)]; exact hh.made x hx hm
      · simp at hx
        subst hx
        rw [hH]
        rw [happen_prepare R r0 hev.1] at hv
        split at hv
        · rename_i h; exact absurd h hm
        · rename_i h; exact absurd h hm
        · exact hv
    · intro x hx hm
      rw [List.map_append] at hx
      rcases List.mem_append.1 hx with hx | hx
      · obtain ⟨y, hy, rfl⟩ := List.mem_map.1 hx
        rw [prepare_cmd] at hm
        have hp := hl.links y (by simp [hy]) hm
        have hlk : y.prepare.prev ≠ u.prepare.ts := by
          have h1 := hh.older _ hx (by rw [prepare_cmd]; exact hm)
          have h2 := hhalf _ hx
          intro e
          omega
        rw [hH' _ (hne _ hx), hH' _ hlk]
        exact hh.up _ hx (by rw [prepare_cmd]; exact hm)
      · simp at hx
        subst hx
        rw [prepare_cmd] at hm
        rw [hH]
        have := hmod hm
        have hpn : u.prev ≠ u.prepare.ts := by have := (hlt2 _ this.1).1; intro e; omega
        rw [prepare_modify hm] at hpn ⊢
        show ((R.parse u.val).bind fun ch => R.update (H' u.prev) ch u.ts) = some v
        rw [show H' u.prev = H u.prev from if_neg (by rw [prepare_modify hm]; exact hpn)]
        exact this.2
    · intro x hx hm
      rw [List.map_append] at hx
      rcases List.mem_append.1 hx with hx | hx
      · exact hh.older x hx hm
      · simp at hx
        subst hx
        rw [prepare_cmd] at hm
        have := (hlt2 _ (hmod hm).1).1
        rw [prepare_modify hm] at this ⊢
        omega
    · intro x hx hm y hy hyx
      rw [List.map_append] at hx hy
      rcases List.mem_append.1 hx with hx | hx
      · rcases List.mem_append.1 hy with hy | hy
        · exact hh.link x hx hm y hy hyx
        · simp at hy; subst hy
          have := hhalf x hx
          omega
      · simp at hx
        subst hx
        rw [prepare_cmd] at hm
        have h2 := (hlt2 _ (hmod hm).1).2.2.1
        rw [prepare_modify hm] at hyx ⊢
        rcases List.mem_append.1 hy with hy | hy
        · exact h2 y hy
        · simp at hy; subst hy; rw [prepare_modify hm] at hyx; omega
    · intro x hx hm c h
      rw [List.map_append] at hx
      rcases List.mem_append.1 hx with hx | hx
      · exact hh.link0 x hx hm c h
      · simp at hx
        subst hx
        rw [prepare_cmd] at hm
        have h2 := (hlt2 _ (hmod hm).1).2.2.2 c h
        rw [prepare_modify hm]
        exact h2
    · cases hst : start with
      | none => rfl
      | some w =>
        have h1 := hne0 (R.ts w) (by rw [hst]; rfl)
        rw [hst] at hs
        show some (H' (R.ts w)) = some w
        rw [hH' _ h1]; exact hs
    · rw [List.map_append, List.foldl_append, hf, lastTs_snoc]
      exact hstep
    · rw [lastTs_snoc]
      show some (H' u.prepare.ts) = some v
      rw [hH]

theorem replay_prepared (R : Rows V) (c : Cell V) (us : List Upd) : c.replay R us = c.applyAll R (us.map Upd.prepare) := by
  induction us generalizing c with
  | nil => rfl
  | cons u us ih =>
    show (c.apply R u.prepare).bind _ = (c.apply R u.prepare).bind _
    congr 1
    funext c'
    exact ih c'

theorem nodup_prepare {us : List Upd} (hl : Logged us) : ∀ p : List Upd, p.Nodup → (∀ u ∈ p, u ∈ us) → (p.map Upd.prepare).Nodup := by
  intro p hp hsub
  have inj : ∀ x ∈ us, ∀ y ∈ us, x.prepare = y.prepare → x = y := by
    intro x hx y hy e
    have e1 := prepare_half (hl.even x hx).1
    have e2 := prepare_half (hl.even y hy).1
    have e3 : x.ts = y.ts := by
      have := (hl.even x hx).1
      have := (hl.even y hy).1
      rw [e] at e1
      omega
    by_contra hne
    obtain ⟨A, C, hAC⟩ := List.append_of_mem hx
    have hinc := hl.increasing
    rw [hAC, List.pairwise_append, List.pairwise_cons] at hinc
    rw [hAC] at hy
    rcases List.mem_append.1 hy with hy | hy
    · have := hinc.2.2 y hy x (by simp); omega
    · rcases List.mem_cons.1 hy with hy | hy
      · exact hne hy.symm
      · have := hinc.2.1.1 y hy; omega
  induction p with
  | nil => simp
  | cons x p ih =>
    rw [List.nodup_cons] at hp
    rw [List.map_cons, List.nodup_cons]
    refine ⟨fun h => ?_, ih hp.2 (fun u hu => hsub u (by simp [hu]))⟩
    obtain ⟨y, hy, e⟩ := List.mem_map.1 h
    have := inj y (hsub y (by simp [hy])) x (hsub x (by simp)) e
    exact hp.1 (this ▸ hy)

theorem filter_all {us : List Upd} {p : List Upd} (h : ∀ u ∈ us, u ∈ p) : us.filter (fun u => decide (u ∈ p)) = us :=
  List.filter_eq_self.2 (fun u hu => by simpa using h u hu)

/-! ### The property -/

/-- Let `us` be the updates of a key in timestamp order, starting from the row `start` or from nothing, and `v`
the row they lead to.  Replaying the log records in any order ends with exactly `v` and nothing pending. -/
theorem order_independent {R : Rows V} (hR : Lawful R) (start : Option V) (us : List Upd) (hl : Logged us)
    (h0 : ∀ v, start = some v → ∀ u ∈ us, R.ts v < u.ts) {v : Option V} (hv : history R start us = some v)
    (p : List Upd) (hp : p.Perm us) :
    Cell.replay R ⟨[], start⟩ p = some ⟨[], v⟩ := by
  by_cases hus : us = []
  · subst hus
    rw [List.perm_nil.1 hp]
    cases hv; rfl
  have hd : Nonempty V := by
    cases hst : start with
    | some w => exact ⟨w⟩
    | none =>
      cases us with
      | nil => exact absurd rfl hus
      | cons u us =>
        obtain ⟨w, _⟩ := Option.bind_eq_some_iff.1 hv
        exact ⟨w⟩
  obtain ⟨d⟩ := hd
  have h0' : ∀ v, start = some v → ∀ u ∈ us, R.ts v / 2 < u.ts / 2 := by
    intro v hv u hu
    have := h0 v hv u hu
    have := (hl.even u hu).1
    omega
  obtain ⟨H, hh, hs, hf, hlast⟩ := build hR d us hl h0' v hv
  have hnd : us.Nodup := hl.increasing.imp (fun {a b} hab e => by subst e; omega)
  have := applyAll_any hh (p.map Upd.prepare) (nodup_prepare hl p (hp.nodup_iff.2 hnd) (fun u hu => hp.subset hu))
    (fun u hu => by
      obtain ⟨x, hx, rfl⟩ := List.mem_map.1 hu
      exact List.mem_map_of_mem (hp.subset hx))
  rw [filter_all (fun u hu => by
    obtain ⟨x, hx, rfl⟩ := List.mem_map.1 hu
    exact List.mem_map_of_mem (hp.symm.subset hx)), hf] at this
  rw [replay_prepared]
  have e1 : real H (start.map R.ts, []) = ⟨[], start⟩ := by
    show Cell.mk _ _ = _
    rw [hs]; rfl
  have e2 : real H (lastTs (start.map R.ts) us, []) = ⟨[], v⟩ := by
    show Cell.mk _ _ = _
    rw [hlast]; rfl
  rw [e1, e2] at this
  exact this

/-- Even when some records are missing, the order of those present does not matter. -/
theorem order_independent_incomplete {R : Rows V} (hR : Lawful R) (start : Option V) (us : List Upd) (hl : Logged us)
    (h0 : ∀ v, start = some v → ∀ u ∈ us, R.ts v < u.ts) {v : Option V} (hv : history R start us = some v)
    (p q : List Upd) (hpq : p.Perm q) (hp : p.Nodup) (hsub : ∀ u ∈ p, u ∈ us) :
    Cell.replay R ⟨[], start⟩ p = Cell.replay R ⟨[], start⟩ q ∧ (Cell.replay R ⟨[], start⟩ p).isSome := by
  by_cases hus : us = []
  · subst hus
    have : p = [] := List.eq_nil_iff_forall_not_mem.2 (fun u hu => by simpa using hsub u hu)
    subst this
    rw [List.nil_perm.1 hpq]
    exact ⟨rfl, rfl⟩
  have hd : Nonempty V := by
    cases hst : start with
    | some w => exact ⟨w⟩
    | none =>
      cases us with
      | nil => exact absurd rfl hus
      | cons u us =>
        obtain ⟨w, _⟩ := Option.bind_eq_some_iff.1 hv
        exact ⟨w⟩
  obtain ⟨d⟩ := hd
  have h0' : ∀ v, start = some v → ∀ u ∈ us, R.ts v / 2 < u.ts / 2 := by
    intro v hv u hu
    have := h0 v hv u hu
    have := (hl.even u hu).1
    omega
  obtain ⟨H, hh, hs, hf, hlast⟩ := build hR d us hl h0' v hv
  have key : ∀ p : List Upd, p.Nodup → (∀ u ∈ p, u ∈ us) → Cell.replay R ⟨[], start⟩ p =
      some (real H (((us.map Upd.prepare).filter (fun u => decide (u ∈ p.map Upd.prepare))).foldl stepA (start.map R.ts, []))) := by
    intro p hp hsub
    have := applyAll_any hh (p.map Upd.prepare) (nodup_prepare hl p hp hsub) (fun u hu => by
      obtain ⟨x, hx, rfl⟩ := List.mem_map.1 hu
      exact List.mem_map_of_mem (hsub x hx))
    rw [replay_prepared]
    have e1 : real H (start.map R.ts, []) = ⟨[], start⟩ := by
      show Cell.mk _ _ = _
      rw [hs]; rfl
    rw [e1] at this
    exact this
  rw [key p hp hsub, key q (hpq.nodup_iff.1 hp) (fun u hu => hsub u (hpq.symm.subset hu))]
  refine ⟨?_, rfl⟩
  have : (us.map Upd.prepare).filter (fun u => decide (u ∈ p.map Upd.prepare)) =
      (us.map Upd.prepare).filter (fun u => decide (u ∈ q.map Upd.prepare)) := by
    apply List.filter_congr
    intro x _
    have := (hpq.map Upd.prepare).mem_iff (a := x)
    simp only [this]
  rw [this]

/-- The default row type is lawful. -/
theorem bag_lawful : Lawful bagRows := by
  have hup : ∀ (r : Row.Bag.Row) ch (t : BitVec 64) r', r.update ch t = some r' → r'.ts = t := by
    intro r ch t r' h
    unfold Row.Bag.Row.update at h
    dsimp only at h
    repeat' split at h
    all_goals first | (cases h; rfl) | cases h
  refine ⟨?_, ?_, ?_⟩
  · intro ch t v ht h
    have := hup _ _ _ _ h
    show v.ts.toNat = t
    rw [this]
    exact Nat.mod_eq_of_lt ht
  · intro b t ht
    exact Nat.mod_eq_of_lt ht
  · intro v ch t v' ht h
    have := hup _ _ _ _ h
    show v'.ts.toNat = t
    rw [this]
    exact Nat.mod_eq_of_lt ht

/-- Replaying a removal is undefined in the code: it hands the bytes of the marker to the change set parser,
which finds column 1 followed by a byte that begins no string. -/
theorem remove_undefined (c : Cell Row.Bag.Row) (u : Upd) (hu : u.cmd = .remove)
    (hnew : ∀ v, c.base = some v → v.ts.toNat < u.ts ||| 1) (hd : c.deltas = []) : c.run bagRows u = none := by
  have hp : u.prepare = { u with ts := u.ts ||| 1, val := removeMarker } := by unfold Upd.prepare; rw [if_pos hu]
  unfold Cell.run
  rw [hp]
  unfold Cell.apply
  dsimp only
  rw [hd, List.takeWhile_nil, List.dropWhile_nil, if_neg]
  · have : change bagRows [] c.base { u with ts := u.ts ||| 1, val := removeMarker } = none := by
      unfold change
      dsimp only
      rw [hu]
      dsimp only
      have : bagRows.parse removeMarker = none := by decide +kernel
      rw [this]; rfl
    rw [this]; rfl
  · intro h
    rw [Option.any_eq_true] at h
    obtain ⟨t, h1, h2⟩ := h
    obtain ⟨v, hv, rfl⟩ := Option.map_eq_some_iff.1 h1
    have := hnew v hv
    have h2 : (u.ts ||| 1) ≤ v.ts.toNat := of_decide_eq_true h2
    omega

/-- The bytes of a list of changes as a client sends them. -/
def sent : List (Nat × Bytes) → Bytes
  | [] => []
  | (i, v) :: l => Msgpack.writeU32 i ++ Msgpack.writeString v ++ sent l

theorem readInt_shorter {bs : Bytes} {i : Int} {r : Bytes} (h : Msgpack.readInt bs = some (i, r)) : r.length < bs.length := by
  have ht : ∀ n (b : Bytes) (f : Bytes → Int), (Msgpack.takeN n b).map (fun x => (f x.1, x.2)) = some (i, r) → r.length ≤ b.length := by
    intro n b f h
    unfold Msgpack.takeN at h
    split at h
    · cases h
    · cases h; rw [List.length_drop]; omega
  cases bs with
  | nil => cases h
  | cons b bs =>
    unfold Msgpack.readInt at h
    dsimp only at h
    rw [List.length_cons]
    repeat' split at h
    all_goals first | (have := ht _ _ (fun x => (Msgpack.unbe x : Int)) h; omega) | (have := ht _ _ Msgpack.sunbe h; omega) | (cases h; omega) | cases h

/-- What was sent is what is replayed: the parser reads back every list of changes. -/
theorem changes_read_back (l : List (Nat × Bytes)) (h : ∀ c ∈ l, c.1 < 2 ^ 32 ∧ c.2.length < 2 ^ 31) :
    parseChangeset (sent l) = some l := by
  have key : ∀ (l : List (Nat × Bytes)), (∀ c ∈ l, c.1 < 2 ^ 32 ∧ c.2.length < 2 ^ 31) → ∀ n, (sent l).length ≤ n →
      parseChanges n (sent l) = some l := by
    intro l
    induction l with
    | nil => intro _ n _; cases n <;> rfl
    | cons c l ih =>
      intro h n hn
      obtain ⟨i, v⟩ := c
      have hc : i < 2 ^ 32 ∧ v.length < 2 ^ 31 := h (i, v) (by simp)
      have hi := Msgpack.readInt_writeU32 (x := i) hc.1 (Msgpack.writeString v ++ sent l)
      have hv := Msgpack.readStr_writeString (s := v) hc.2 (sent l)
      have e : sent ((i, v) :: l) = Msgpack.writeU32 i ++ (Msgpack.writeString v ++ sent l) := by
        show _ ++ _ ++ _ = _
        rw [List.append_assoc]
      have h1 := readInt_shorter hi
      rw [e] at hn ⊢
      generalize hb : Msgpack.writeU32 i ++ (Msgpack.writeString v ++ sent l) = bs at *
      cases bs with
      | nil => simp at h1
      | cons b bs =>
        cases n with
        | zero => simp at hn
        | succ n =>
          show (Msgpack.readInt (b :: bs)).bind _ = _
          rw [hi]
          show (Msgpack.readStr (Msgpack.writeString v ++ sent l)).bind _ = _
          rw [hv]
          show (parseChanges n (sent l)).map _ = _
          rw [ih (fun c hc => h c (by simp [hc])) n (by rw [List.length_append] at h1; omega)]
          have : ((i : Int) % 2 ^ 32).toNat = i := by have := hc.1; omega
          show some (((((i : Nat) : Int) % 2 ^ 32).toNat, v) :: l) = _
          rw [this]
  exact key l h _ (Nat.le_refl _)

/-! ### Cases -/

/-- Columns of a row of the default type. -/
def cols (c : Option (Cell Row.Bag.Row)) : Option (Nat × Nat × List (Option Bytes)) :=
  c.bind fun c => c.base.map fun r => (c.deltas.length, r.ts.toNat, (List.range r.ncol).map r.col)

/-- A put of columns 0 and 1, two modifications, a replacement, a modification. -/
def demo : List Upd :=
  [⟨.put, 2, 0, sent [(0, [120]), (1, [121])]⟩, ⟨.modify, 6, 2, sent [(1, [122, 122])]⟩, ⟨.modify, 8, 6, sent [(0, [119])]⟩,
    ⟨.replace, 12, 0, [113]⟩, ⟨.modify, 14, 12, sent [(1, [114])]⟩]

example : Logged demo := ⟨by decide +kernel, by decide +kernel, by decide +kernel⟩

example : (history bagRows none demo).isSome = true := by decide +kernel

example : cols (Cell.replay bagRows ⟨[], none⟩ demo.reverse) = some (0, 14, [some [113], some [114]]) := by decide +kernel

example : cols (Cell.replay bagRows ⟨[], none⟩ (demo.take 3).reverse) = some (0, 8, [some [119], some [122, 122]]) := by decide +kernel

example : Cell.run bagRows ⟨[], none⟩ ⟨.remove, 16, 14, []⟩ = none :=
  remove_undefined _ _ rfl (by simp) rfl

end Verif.Props.C23
