import Verif.Props.C23

/-!
# C24: replay is idempotent and never goes back in time
-/
namespace Verif.Props.C24
open Verif.Log
open Verif.Key (Bytes)
variable {V : Type}

/-- The timestamp with which a record is applied. -/
def stamp (u : Upd) : Nat := if u.cmd = .remove then u.ts ||| 1 else u.ts

theorem prepare_ts (u : Upd) : u.prepare.ts = stamp u := by
  unfold Upd.prepare stamp
  split <;> rfl

/-- A record that is not newer than the stored row, nor than any pending modification, changes nothing. -/
theorem stale_unchanged (R : Rows V) (c : Cell V) (u : Upd) (v : V) (hb : c.base = some v) (hv : stamp u ≤ R.ts v)
    (hd : ∀ d ∈ c.deltas, stamp u < d.ts) : c.run R u = some c := by
  rw [← prepare_ts] at hv hd
  exact apply_stale hb hv hd

/-! ### Time only advances -/

/-- Pending modifications are newer than the row, in order, and 64-bit. -/
structure Ordered (R : Rows V) (c : Cell V) : Prop where
  down : c.deltas.Pairwise (fun a b => b.ts ≤ a.ts)
  above : ∀ v, c.base = some v → ∀ d ∈ c.deltas, R.ts v < d.ts
  wide : ∀ d ∈ c.deltas, d.ts < 2 ^ 64

theorem resolve_mono {R : Rows V} (hR : C23.Lawful R) : ∀ (ds : List Delta) (b : Option V) (ds' : List Delta) (b' : Option V),
    ds.Pairwise (fun a b => a.ts ≤ b.ts) → (∀ v, b = some v → ∀ d ∈ ds, R.ts v < d.ts) → (∀ d ∈ ds, d.ts < 2 ^ 64) →
    resolve R ds b = some (ds', b') →
    ds'.Pairwise (fun a b => a.ts ≤ b.ts) ∧ (∀ v, b' = some v → ∀ d ∈ ds', R.ts v < d.ts) ∧ (∀ d ∈ ds', d.ts < 2 ^ 64) ∧
      ∀ v, b = some v → ∃ v', b' = some v' ∧ R.ts v ≤ R.ts v'
  | [], b, ds', b', h1, h2, h3, h => by
    cases h
    exact ⟨h1, h2, h3, fun v hv => ⟨v, hv, Nat.le_refl _⟩⟩
  | d :: ds, none, ds', b', h1, h2, h3, h => by
    cases h
    exact ⟨h1, h2, h3, fun v hv => ⟨v, hv, Nat.le_refl _⟩⟩
  | d :: ds, some v, ds', b', h1, h2, h3, h => by
    unfold resolve at h
    split at h
    · obtain ⟨ch, _, h⟩ := Option.bind_eq_some_iff.1 h
      obtain ⟨v', hv', h⟩ := Option.bind_eq_some_iff.1 h
      have hd := h2 v rfl d (by simp)
      have hw := h3 d (by simp)
      have ht := hR.update _ _ _ _ (by omega) hv'
      rw [List.pairwise_cons] at h1
      obtain ⟨r1, r2, r3, r4⟩ := resolve_mono hR ds (some v') ds' b' h1.2 (fun w hw d' hd' => by
        cases hw
        have := h1.1 d' hd'
        omega) (fun x hx => h3 x (by simp [hx])) h
      refine ⟨r1, r2, r3, fun w hw => ?_⟩
      cases hw
      obtain ⟨v'', e1, e2⟩ := r4 v' rfl
      exact ⟨v'', e1, by omega⟩
    · cases h
      exact ⟨h1, h2, h3, fun v hv => ⟨v, hv, Nat.le_refl _⟩⟩

theorem lor_bounds (n : Nat) : n ≤ n ||| 1 ∧ n ||| 1 ≤ n + 1 := by
  rcases Nat.mod_two_eq_zero_or_one n with h | h
  · rw [lor_one h]; omega
  · have : n ||| 1 = n := by
      have h0 := Nat.two_pow_add_eq_or_of_lt (i := 1) (b := 1) (by omega) (n / 2)
      have h1 := Nat.or_assoc (2 * (n / 2)) 1 1
      rw [Nat.or_self] at h1
      rw [show 2 ^ 1 * (n / 2) = 2 * (n / 2) by omega] at h0
      rw [← h0] at h1
      rw [show 2 * (n / 2) + 1 = n by omega] at h1
      exact h1
    omega

theorem mem_takeWhile {α : Type} {p : α → Bool} {l : List α} {x : α} (h : x ∈ l.takeWhile p) : p x = true := by
  induction l with
  | nil => simp at h
  | cons a l ih =>
    rw [List.takeWhile_cons] at h
    split at h
    · rename_i ha
      rcases List.mem_cons.1 h with rfl | h
      · exact ha
      · exact ih h
    · simp at h

theorem apply_mono {R : Rows V} (hR : C23.Lawful R) {c c' : Cell V} (hc : Ordered R c) {u : Upd} (hu : u.ts < 2 ^ 64 - 1)
    (h : c.apply R u = some c') : Ordered R c' ∧ ∀ v, c.base = some v → ∃ v', c'.base = some v' ∧ R.ts v ≤ R.ts v' := by
  unfold Cell.apply at h
  dsimp only at h
  split at h
  · cases h
    exact ⟨hc, fun v hv => ⟨v, hv, Nat.le_refl _⟩⟩
  · rename_i hnew
    have hnew : ∀ t, headTs R (c.deltas.dropWhile (fun d => decide (u.ts < d.ts))) c.base = some t → t < u.ts := by
      intro t ht
      by_contra hlt
      exact hnew (by rw [Option.any_eq_true]; exact ⟨t, ht, decide_eq_true (by omega)⟩)
    obtain ⟨⟨tl', base'⟩, hch, h⟩ := Option.bind_eq_some_iff.1 h
    obtain ⟨⟨ds, b⟩, hres, h⟩ := Option.map_eq_some_iff.1 h
    dsimp only at h
    subst h
    have hsplit : c.deltas = c.deltas.takeWhile (fun d => decide (u.ts < d.ts)) ++ c.deltas.dropWhile (fun d => decide (u.ts < d.ts)) :=
      (List.takeWhile_append_dropWhile).symm
    generalize hhd : c.deltas.takeWhile (fun d => decide (u.ts < d.ts)) = hd at *
    generalize htl : c.deltas.dropWhile (fun d => decide (u.ts < d.ts)) = tl at *
    have hhd' : ∀ d ∈ hd, u.ts < d.ts := by
      intro d hd'
      rw [← hhd] at hd'
      have := mem_takeWhile hd'
      simpa using this
    have hdown := hc.down
    rw [hsplit, List.pairwise_append] at hdown
    have htl' : ∀ d ∈ tl, d.ts < u.ts := by
      cases htl0 : tl with
      | nil => simp
      | cons x r =>
        rw [htl0] at hnew hdown
        have hx := hnew x.ts rfl
        intro d hd'
        rcases List.mem_cons.1 hd' with rfl | hd'
        · exact hx
        · have := (List.pairwise_cons.1 hdown.2.1).1 d hd'
          omega
    have hbase : ∀ v, c.base = some v → R.ts v < u.ts := by
      intro v hv
      cases htl0 : tl with
      | nil => exact hnew _ (by rw [htl0, hv]; rfl)
      | cons x r =>
        have h1 := hc.above v hv x (by rw [hsplit, htl0]; simp)
        have h2 := htl' x (by rw [htl0]; simp)
        omega
    have hwide : ∀ d ∈ hd ++ tl, d.ts < 2 ^ 64 := fun d hd' => hc.wide d (by rw [hsplit]; exact hd')
    -- what the change leaves
    have key : (∃ v', tl' = [] ∧ base' = some v' ∧ R.ts v' = u.ts) ∨ (tl' = u.mark :: tl ∧ base' = c.base) := by
      unfold change at hch
      cases hcmd : u.cmd with
      | replace =>
        rw [hcmd] at hch
        cases hch
        exact .inl ⟨_, rfl, rfl, hR.create1 _ _ (by omega)⟩
      | put =>
        rw [hcmd] at hch
        obtain ⟨ch, _, h⟩ := Option.bind_eq_some_iff.1 hch
        obtain ⟨v, hv, h⟩ := Option.map_eq_some_iff.1 h
        cases h
        exact .inl ⟨_, rfl, rfl, hR.create _ _ _ (by omega) hv⟩
      | remove =>
        rw [hcmd] at hch
        obtain ⟨ch, _, h⟩ := Option.bind_eq_some_iff.1 hch
        obtain ⟨v, hv, h⟩ := Option.map_eq_some_iff.1 h
        cases h
        exact .inl ⟨_, rfl, rfl, hR.create _ _ _ (by omega) hv⟩
      | modify =>
        rw [hcmd] at hch
        dsimp only at hch
        split at hch
        · split at hch
          · obtain ⟨ch, _, h⟩ := Option.bind_eq_some_iff.1 hch
            obtain ⟨v, hv, h⟩ := Option.map_eq_some_iff.1 h
            cases h
            exact .inl ⟨_, rfl, rfl, hR.update _ _ _ _ (by omega) hv⟩
          · cases hch
        · cases hch
          exact .inr ⟨rfl, rfl⟩
    have hb := lor_bounds u.ts
    have pre : (hd ++ tl').reverse.Pairwise (fun a b => a.ts ≤ b.ts) ∧ (∀ v, base' = some v → ∀ d ∈ (hd ++ tl').reverse, R.ts v < d.ts) ∧
        (∀ d ∈ (hd ++ tl').reverse, d.ts < 2 ^ 64) ∧ (∀ v, c.base = some v → ∃ v', base' = some v' ∧ R.ts v ≤ R.ts v') := by
      simp only [List.pairwise_reverse, List.mem_reverse]
      rcases key with ⟨v', rfl, rfl, hv'⟩ | ⟨rfl, rfl⟩
      · rw [List.append_nil]
        exact ⟨hdown.1, fun v hv d hd' => by cases hv; rw [hv']; exact hhd' d hd', fun d hd' => hwide d (by simp [hd']),
          fun v hv => ⟨v', rfl, by have := hbase v hv; omega⟩⟩
      · refine ⟨?_, ?_, ?_, fun v hv => ⟨v, hv, Nat.le_refl _⟩⟩
        · rw [List.pairwise_append, List.pairwise_cons]
          refine ⟨hdown.1, ⟨fun d hd' => ?_, hdown.2.1⟩, fun a ha b hb' => ?_⟩
          · have := htl' d hd'
            show d.ts ≤ u.ts ||| 1
            omega
          · rcases List.mem_cons.1 hb' with rfl | hb'
            · have := hhd' a ha
              show u.ts ||| 1 ≤ a.ts
              omega
            · exact hdown.2.2 a ha b hb'
        · intro v hv d hd'
          have hv' := hbase v hv
          rcases List.mem_append.1 hd' with hd' | hd'
          · have := hhd' d hd'
            omega
          · rcases List.mem_cons.1 hd' with rfl | hd'
            · show R.ts v < u.ts ||| 1
              omega
            · exact hc.above v hv d (by rw [hsplit]; simp [hd'])
        · intro d hd'
          rcases List.mem_append.1 hd' with hd' | hd'
          · exact hwide d (by simp [hd'])
          · rcases List.mem_cons.1 hd' with rfl | hd'
            · show u.ts ||| 1 < 2 ^ 64
              omega
            · exact hwide d (by simp [hd'])
    obtain ⟨r1, r2, r3, r4⟩ := resolve_mono hR _ _ _ _ pre.1 pre.2.1 pre.2.2.1 hres
    refine ⟨⟨?_, ?_, ?_⟩, fun v hv => ?_⟩
    · exact List.pairwise_reverse.2 r1
    · exact fun v hv d hd' => r2 v hv d (List.mem_reverse.1 hd')
    · exact fun d hd' => r3 d (List.mem_reverse.1 hd')
    · obtain ⟨v1, e1, e2⟩ := pre.2.2.2 v hv
      obtain ⟨v2, e3, e4⟩ := r4 v1 e1
      exact ⟨v2, e3, by omega⟩

/-- Whatever records are replayed, in whatever order and however often: the row stored for a key is never
replaced by an older one. -/
theorem never_back {R : Rows V} (hR : C23.Lawful R) (start : Option V) (before after : List Upd)
    (hts : ∀ u ∈ before ++ after, u.ts < 2 ^ 64 - 2) {c c' : Cell V} (h : Cell.replay R ⟨[], start⟩ before = some c)
    (h' : c.replay R after = some c') {v : V} (hv : c.base = some v) : ∃ v', c'.base = some v' ∧ R.ts v ≤ R.ts v' := by
  have key : ∀ (us : List Upd) (c c' : Cell V), (∀ u ∈ us, u.ts < 2 ^ 64 - 2) → Ordered R c → c.replay R us = some c' →
      Ordered R c' ∧ ∀ v, c.base = some v → ∃ v', c'.base = some v' ∧ R.ts v ≤ R.ts v' := by
    intro us
    induction us with
    | nil => intro c c' _ hc h; cases h; exact ⟨hc, fun v hv => ⟨v, hv, Nat.le_refl _⟩⟩
    | cons u us ih =>
      intro c c' hts hc h
      obtain ⟨c1, h1, h2⟩ := Option.bind_eq_some_iff.1 h
      have hp : u.prepare.ts < 2 ^ 64 - 1 := by
        rw [prepare_ts]
        unfold stamp
        have := hts u (by simp)
        have := lor_bounds u.ts
        split <;> omega
      obtain ⟨r1, r2⟩ := apply_mono hR hc hp h1
      obtain ⟨r3, r4⟩ := ih c1 c' (fun x hx => hts x (by simp [hx])) r1 h2
      refine ⟨r3, fun v hv => ?_⟩
      obtain ⟨v1, e1, e2⟩ := r2 v hv
      obtain ⟨v2, e3, e4⟩ := r4 v1 e1
      exact ⟨v2, e3, by omega⟩
  obtain ⟨h1, _⟩ := key before ⟨[], start⟩ c (fun u hu => hts u (by simp [hu])) ⟨by simp, by simp, by simp⟩ h
  exact (key after c c' (fun u hu => hts u (by simp [hu])) h1 h').2 v hv

/-! ### Replaying again, and over a checkpoint -/

/-- Records not newer than the starting row, wherever they come, change nothing. -/
theorem applyAll_skip {R : Rows V} {c : Nat} {us : List Upd} {H : Nat → V} (hh : Hist R (some c) us H) (p : List Upd)
    (hp : (p.filter (fun u => decide (c < u.ts))).Nodup) (hsub : ∀ u ∈ p, c < u.ts → u ∈ us) :
    (real H (some c, [])).applyAll R p = (real H (some c, [])).applyAll R (p.filter (fun u => decide (c < u.ts))) := by
  induction p using List.reverseRecOn with
  | nil => rfl
  | append_singleton p u ih =>
    rw [List.filter_append] at hp ⊢
    rw [applyAll_append, applyAll_append]
    have hp1 := (List.nodup_append.1 hp).1
    rw [ih hp1 (fun x hx => hsub x (by simp [hx]))]
    by_cases hu : c < u.ts
    · rw [List.filter_cons_of_pos (by simpa using hu)]
      rfl
    · rw [List.filter_cons_of_neg (by simpa using hu), applyAll_any hh _ hp1 (fun x hx => by
        have := List.mem_filter.1 hx
        exact hsub x (by simp [this.1]) (by simpa using this.2))]
      have hF := from_fold (some c) (us.filter (fun x => decide (x ∈ p.filter (fun u => decide (c < u.ts)))))
      have hsub2 : ∀ x ∈ us.filter (fun x => decide (x ∈ p.filter (fun u => decide (c < u.ts)))), x ∈ us := fun x hx => (List.mem_filter.1 hx).1
      have hb0 : ∀ (L : List Upd) (s : Abs), s.1.isSome → (L.foldl stepA s).1.isSome := by
        intro L
        induction L with
        | nil => intro s h; exact h
        | cons x L ih =>
          intro s h
          rw [List.foldl_cons]
          apply ih
          unfold stepA
          split
          · rfl
          · split
            · rfl
            · exact h
      have hsome := hb0 (us.filter (fun x => decide (x ∈ p.filter (fun u => decide (c < u.ts))))) (some c, []) rfl
      generalize (us.filter (fun x => decide (x ∈ p.filter (fun u => decide (c < u.ts))))).foldl stepA (some c, []) = s at *
      obtain ⟨b, hb⟩ := Option.isSome_iff_exists.1 hsome
      have hcb : c ≤ b ∧ R.ts (H b) = b := by
        rcases hF.base b hb with h | ⟨x, hx, rfl⟩
        · cases h; exact ⟨Nat.le_refl _, hh.tsH0 c rfl⟩
        · have := hh.start c rfl x (hsub2 x hx)
          exact ⟨by omega, hh.tsH x (hsub2 x hx)⟩
      show ((real H s).apply R u).bind _ = some (real H s)
      rw [apply_stale (v := H b) (by simp [real, hb]) (by omega)]
      · rfl
      · intro d hd
        have hd : d ∈ (s.2.map Upd.mark).reverse := hd
        rw [List.mem_reverse, List.mem_map] at hd
        obtain ⟨x, hx, rfl⟩ := hd
        have hx' := hF.pend x hx
        rw [mark_ts (hh.even x (hsub2 x hx'.1) hx'.2).1]
        have := hh.start c rfl x (hsub2 x hx'.1)
        omega

/-- A checkpoint holds the row `v0` that the updates `old` led to; `new` are the updates after it.  Replaying the
logs over it, with the records of `new` in any order, interleaved with any records of `old` in any order and
any number, gives what all updates lead to. -/
theorem over_checkpoint {R : Rows V} (hR : C23.Lawful R) (old new : List Upd) (hl : C23.Logged (old ++ new)) {v0 : V} {v : Option V}
    (hold : C23.history R none old = some (some v0)) (hall : C23.history R none (old ++ new) = some v)
    (p : List Upd) (hnew : (p.filter (fun u => decide (u ∈ new))).Perm new) (hsub : ∀ u ∈ p, u ∈ old ++ new) :
    Cell.replay R ⟨[], some v0⟩ p = some ⟨[], v⟩ := by
  have hinc := List.pairwise_append.1 hl.increasing
  have hlo : C23.Logged old := ⟨hinc.1, fun u hu => hl.even u (by simp [hu]), fun u hu => hl.links u (by simp [hu])⟩
  have hln : C23.Logged new := ⟨hinc.2.1, fun u hu => hl.even u (by simp [hu]), fun u hu => hl.links u (by simp [hu])⟩
  have hsplit : ∀ (a b : List Upd) (r : Option V), C23.history R r (a ++ b) = (C23.history R r a).bind fun r' => C23.history R r' b := by
    intro a b
    induction a with
    | nil => intro r; rfl
    | cons x a ih =>
      intro r
      show (C23.happen R r x).bind _ = ((C23.happen R r x).bind _).bind _
      cases C23.happen R r x with
      | none => rfl
      | some w => exact ih (some w)
  rw [hsplit, hold] at hall
  have hall : C23.history R (some v0) new = some v := hall
  -- the checkpointed row has the last timestamp of the old updates
  obtain ⟨H0, hh0, _, _, hlast0⟩ := C23.build hR (start := none) v0 old hlo (by simp) _ hold
  obtain ⟨c, hc, hcv⟩ := Option.map_eq_some_iff.1 hlast0
  have hlast : ∃ x ∈ old, R.ts v0 = x.prepare.ts ∧ ∀ y ∈ old, y.ts ≤ x.ts := by
    unfold C23.lastTs at hc
    cases hg : old.getLast? with
    | none => rw [hg] at hc; simp at hc
    | some x =>
      rw [hg] at hc
      dsimp only at hc
      cases hc
      have hx := List.mem_of_getLast? hg
      refine ⟨x, hx, ?_, ?_⟩
      · rw [← hcv]; exact hh0.tsH _ (List.mem_map_of_mem hx)
      · obtain ⟨A, hA⟩ := List.getLast?_eq_some_iff.1 hg
        intro y hy
        rw [hA] at hy
        have := hlo.increasing
        rw [hA] at this
        rcases List.mem_append.1 hy with hy | hy
        · exact Nat.le_of_lt ((List.pairwise_append.1 this).2.2 y hy x (by simp))
        · simp at hy; subst hy; exact Nat.le_refl _
  obtain ⟨x, hx, hxt, hxmax⟩ := hlast
  have hxe := (hlo.even x hx).1
  have hxh := C23.prepare_half hxe
  have hstart : ∀ v, some v0 = some v → ∀ u ∈ new, R.ts v / 2 < u.ts / 2 := by
    intro v hv u hu
    cases hv
    rw [hxt, hxh]
    have := hinc.2.2 x hx u hu
    have := (hln.even u hu).1
    omega
  obtain ⟨H, hh, hs, hf, hlast⟩ := C23.build hR v0 new hln hstart v hall
  have e1 : real H ((some v0).map R.ts, []) = ⟨[], some v0⟩ := by
    show Cell.mk _ _ = _
    rw [hs]; rfl
  have e2 : real H (C23.lastTs ((some v0).map R.ts) new, []) = ⟨[], v⟩ := by
    show Cell.mk _ _ = _
    rw [hlast]; rfl
  have hcut : ∀ u ∈ p, (R.ts v0 < u.prepare.ts ↔ u ∈ new) := by
    intro u hu
    have hue := (hl.even u (hsub u hu)).1
    have huh := C23.prepare_half hue
    constructor
    · intro h
      rcases List.mem_append.1 (hsub u hu) with ho | hn
      · exfalso
        have hle := hxmax u ho
        by_cases he : u.ts = x.ts
        · -- the same record
          have : u = x := by
            by_contra hne
            obtain ⟨A, C, hAC⟩ := List.append_of_mem ho
            have hi := hlo.increasing
            rw [hAC, List.pairwise_append, List.pairwise_cons] at hi
            rw [hAC] at hx
            rcases List.mem_append.1 hx with hx | hx
            · have := hi.2.2 x hx u (by simp); omega
            · rcases List.mem_cons.1 hx with hx | hx
              · exact hne hx.symm
              · have := hi.2.1.1 x hx; omega
          subst this
          omega
        · omega
      · exact hn
    · intro h
      have := hinc.2.2 x hx u h
      omega
  have hfil : (p.map Upd.prepare).filter (fun u => decide (R.ts v0 < u.ts)) = (p.filter (fun u => decide (u ∈ new))).map Upd.prepare := by
    rw [List.filter_map]
    congr 1
    apply List.filter_congr
    intro u hu
    exact decide_eq_decide.2 (hcut u hu)
  have hnd : new.Nodup := hln.increasing.imp (fun {a b} hab e => by subst e; omega)
  have hq := hnew.nodup_iff.2 hnd
  have hqs : ∀ u ∈ p.filter (fun u => decide (u ∈ new)), u ∈ new := fun u hu => hnew.subset hu
  rw [C23.replay_prepared, ← e1]
  have := applyAll_skip (c := R.ts v0) hh (p.map Upd.prepare) (by
    rw [hfil]; exact C23.nodup_prepare hln _ hq hqs) (by
    intro u hu hlt
    obtain ⟨w, hw, rfl⟩ := List.mem_map.1 hu
    exact List.mem_map_of_mem ((hcut w hw).1 hlt))
  show (real H (some (R.ts v0), [])).applyAll R _ = _
  rw [this, hfil, ← C23.replay_prepared]
  show Cell.replay R (real H ((some v0).map R.ts, [])) _ = _
  rw [e1]
  exact C23.order_independent hR (some v0) new hln (fun v hv u hu => by have := hstart v hv u hu; omega) hall _ hnew

/-- Replaying a log again changes nothing: after all updates of a key have been replayed, in any order, any of
them may be replayed again, in any order and number. -/
theorem idempotent {R : Rows V} (hR : C23.Lawful R) (us : List Upd) (hl : C23.Logged us) {v : V}
    (hv : C23.history R none us = some (some v)) (p again : List Upd) (hp : p.Perm us) (hsub : ∀ u ∈ again, u ∈ us) :
    Cell.replay R ⟨[], none⟩ (p ++ again) = Cell.replay R ⟨[], none⟩ p := by
  have happ : ∀ (a b : List Upd) (c : Cell V), c.replay R (a ++ b) = (c.replay R a).bind fun c' => c'.replay R b := by
    intro a b
    induction a with
    | nil => intro c; rfl
    | cons x a ih =>
      intro c
      show (c.run R x).bind _ = ((c.run R x).bind _).bind _
      cases c.run R x with
      | none => rfl
      | some c' => exact ih c'
  rw [happ, C23.order_independent hR none us hl (by simp) hv p hp]
  exact over_checkpoint hR us [] (by rw [List.append_nil]; exact hl) hv (by rw [List.append_nil]; exact hv) again
    (by simp) (by rw [List.append_nil]; exact hsub)

/-- But a modification replayed twice while it waits for an earlier update leaves a marker behind that is never
resolved: all updates have been replayed, yet the key has a pending marker and so counts as absent. -/
theorem pending_twice_lost :
    ∃ us : List Upd, C23.Logged us ∧ (C23.history bagRows none us).isSome = true ∧
      ∃ p : List Upd, (∀ u, u ∈ p ↔ u ∈ us) ∧ (Cell.replay bagRows ⟨[], none⟩ p).map (fun c => c.deltas.length) = some 1 :=
  ⟨[⟨.put, 2, 0, C23.sent [(0, [120])]⟩, ⟨.modify, 6, 2, C23.sent [(0, [121])]⟩],
    ⟨by decide +kernel, by decide +kernel, by decide +kernel⟩, by decide +kernel,
    [⟨.modify, 6, 2, C23.sent [(0, [121])]⟩, ⟨.modify, 6, 2, C23.sent [(0, [121])]⟩, ⟨.put, 2, 0, C23.sent [(0, [120])]⟩],
    by intro u; simp only [List.mem_cons, List.not_mem_nil, or_false]; tauto, by decide +kernel⟩

/-! ### Cases -/

example : C23.cols (Cell.replay bagRows ⟨[], none⟩ (C23.demo ++ C23.demo.reverse)) = some (0, 14, [some [113], some [114]]) := by
  decide +kernel

example : (C23.demo.reverse.filter (fun u => decide (u ∈ C23.demo.drop 3))).Perm (C23.demo.drop 3) := by
  decide +kernel

example : (C23.history bagRows none (C23.demo.take 3)).map Option.isSome = some true := by decide +kernel

end Verif.Props.C24
