import Verif.Log.Replay
import Mathlib.Data.List.Induction

/-!
# What a set of replayed records leaves, whatever their order
-/
namespace Verif.Log
open Verif.Key (Bytes)
variable {V : Type}

/-- The row made by a record that does not depend on what was there. -/
def make (R : Rows V) (u : Upd) : Option V :=
  match u.cmd with
  | .replace => some (R.create1 u.val u.ts)
  | _ => (R.parse u.val).bind fun ch => R.create ch u.ts

/-- The facts about a history that the proofs use: `H t` is the row with timestamp `t`. -/
structure Hist (R : Rows V) (c0 : Option Nat) (us : List Upd) (H : Nat → V) : Prop where
  sorted : us.Pairwise (fun a b => a.ts / 2 < b.ts / 2)
  start : ∀ c, c0 = some c → ∀ u ∈ us, c / 2 < u.ts / 2
  even : ∀ u ∈ us, u.cmd = .modify → u.ts % 2 = 0 ∧ u.prev % 2 = 0
  tsH : ∀ u ∈ us, R.ts (H u.ts) = u.ts
  tsH0 : ∀ c, c0 = some c → R.ts (H c) = c
  made : ∀ u ∈ us, u.cmd ≠ .modify → make R u = some (H u.ts)
  up : ∀ u ∈ us, u.cmd = .modify → ((R.parse u.val).bind fun ch => R.update (H u.prev) ch u.ts) = some (H u.ts)
  older : ∀ u ∈ us, u.cmd = .modify → u.prev < u.ts
  link : ∀ u ∈ us, u.cmd = .modify → ∀ x ∈ us, x.ts < u.ts → x.ts ≤ u.prev
  link0 : ∀ u ∈ us, u.cmd = .modify → ∀ c, c0 = some c → c ≤ u.prev

/-- The abstract state: the timestamp of the row, and the pending modifications, oldest first. -/
abbrev Abs := Option Nat × List Upd

/-- Replaying in timestamp order. -/
def stepA (s : Abs) (u : Upd) : Abs :=
  if u.cmd ≠ .modify then (some u.ts, [])
  else if s.2 = [] ∧ s.1 = some u.prev then (some u.ts, [])
  else (s.1, s.2 ++ [u])

def real (H : Nat → V) (s : Abs) : Cell V := ⟨(s.2.map Upd.mark).reverse, s.1.map H⟩

theorem lor_one {n : Nat} (h : n % 2 = 0) : n ||| 1 = n + 1 := by
  have := Nat.two_pow_add_eq_or_of_lt (i := 1) (b := 1) (by omega) (n / 2)
  rw [show 2 ^ 1 * (n / 2) = n by omega] at this
  exact this.symm

/-- Modifications that cannot be applied yet pile up. -/
theorem fold_stuck : ∀ (L : List Upd) (B : Option Nat) (D : List Upd), (∀ u ∈ L, u.cmd = .modify) →
    (D ≠ [] ∨ ∀ u ∈ L, B ≠ some u.prev) → L.foldl stepA (B, D) = (B, D ++ L)
  | [], B, D, _, _ => by simp
  | u :: L, B, D, hm, h => by
    have : stepA (B, D) u = (B, D ++ [u]) := by
      unfold stepA
      rw [if_neg (by simp [hm u (by simp)]), if_neg]
      rintro ⟨h1, h2⟩
      rcases h with h | h
      · exact h h1
      · exact h u (by simp) h2
    rw [List.foldl_cons, this, fold_stuck L B (D ++ [u]) (fun x hx => hm x (by simp [hx])) (.inl (by simp))]
    simp

/-- A record that does not depend on what was there hides it. -/
theorem fold_reset : ∀ (L : List Upd), (∃ u ∈ L, u.cmd ≠ .modify) → ∀ s s' : Abs, L.foldl stepA s = L.foldl stepA s'
  | [], h, _, _ => by simp at h
  | u :: L, h, s, s' => by
    by_cases hu : u.cmd = .modify
    · exact fold_reset L (by
        obtain ⟨x, hx, hx'⟩ := h
        rcases List.mem_cons.1 hx with rfl | hx
        · exact absurd hu hx'
        · exact ⟨x, hx, hx'⟩) _ _
    · have : ∀ s, stepA s u = (some u.ts, []) := fun s => by unfold stepA; rw [if_pos hu]
      rw [List.foldl_cons, List.foldl_cons, this, this]

/-- What an abstract state reached from `c0` consists of. -/
structure From (c0 : Option Nat) (L : List Upd) (s : Abs) : Prop where
  base : ∀ b, s.1 = some b → c0 = some b ∨ ∃ u ∈ L, u.ts = b
  pend : ∀ d ∈ s.2, d ∈ L ∧ d.cmd = .modify
  stuck : ∀ d D, s.2 = d :: D → s.1 ≠ some d.prev

theorem from_fold (c0 : Option Nat) (L : List Upd) : From c0 L (L.foldl stepA (c0, [])) := by
  induction L using List.reverseRecOn with
  | nil => exact ⟨fun b h => .inl h, fun d h => by simp at h, fun d D h => by simp at h⟩
  | append_singleton L u ih =>
    rw [List.foldl_append, List.foldl_cons, List.foldl_nil]
    generalize L.foldl stepA (c0, []) = s at ih
    unfold stepA
    have hu : u ∈ L ++ [u] := by simp
    split
    · exact ⟨fun b h => .inr ⟨u, hu, by simpa using h⟩, fun d h => by simp at h, fun d D h => by simp at h⟩
    · rename_i hm
      have hm : u.cmd = .modify := by simpa using hm
      split
      · exact ⟨fun b h => .inr ⟨u, hu, by simpa using h⟩, fun d h => by simp at h, fun d D h => by simp at h⟩
      · rename_i hc
        refine ⟨fun b h => ?_, fun d h => ?_, fun d D h => ?_⟩
        · rcases ih.base b h with h | ⟨x, hx, h⟩
          · exact .inl h
          · exact .inr ⟨x, by simp [hx], h⟩
        · rcases List.mem_append.1 h with h | h
          · exact ⟨by simp [(ih.pend d h).1], (ih.pend d h).2⟩
          · simp at h; subst h; exact ⟨hu, hm⟩
        · dsimp only at h ⊢
          cases hs : s.2 with
          | nil =>
            rw [hs] at h
            simp at h
            obtain ⟨rfl, _⟩ := h
            exact fun e => hc ⟨hs, e⟩
          | cons x l =>
            rw [hs] at h
            simp at h
            obtain ⟨rfl, _⟩ := h
            exact ih.stuck _ _ hs

/-- After replaying `L` which contains such a record, everything stored is at least as new as some element of `L`. -/
theorem fold_ge (k : Nat) : ∀ (L : List Upd) (s : Abs), (∀ u ∈ L, k < u.ts / 2) → (∃ u ∈ L, u.cmd ≠ .modify) →
    ∃ b, (L.foldl stepA s).1 = some b ∧ k < b / 2 ∧ ∀ d ∈ (L.foldl stepA s).2, k < d.ts / 2 := by
  intro L s hk hn
  have key : ∀ (L : List Upd), (∀ u ∈ L, k < u.ts / 2) → ∀ s : Abs, (∃ b, s.1 = some b ∧ k < b / 2 ∧ ∀ d ∈ s.2, k < d.ts / 2) →
      ∃ b, (L.foldl stepA s).1 = some b ∧ k < b / 2 ∧ ∀ d ∈ (L.foldl stepA s).2, k < d.ts / 2 := by
    intro L
    induction L with
    | nil => intro _ s h; exact h
    | cons u L ih =>
      intro hk s ⟨b, h1, h2, h3⟩
      rw [List.foldl_cons]
      apply ih (fun x hx => hk x (by simp [hx]))
      have hu := hk u (by simp)
      unfold stepA
      split
      · exact ⟨u.ts, rfl, hu, fun d h => by simp at h⟩
      · split
        · exact ⟨u.ts, rfl, hu, fun d h => by simp at h⟩
        · refine ⟨b, h1, h2, fun d h => ?_⟩
          rcases List.mem_append.1 h with h | h
          · exact h3 d h
          · simp at h; subst h; exact hu
  induction L generalizing s with
  | nil => simp at hn
  | cons u L ih =>
    rw [List.foldl_cons]
    by_cases hu : u.cmd = .modify
    · apply ih _ (fun x hx => hk x (by simp [hx]))
      obtain ⟨x, hx, hx'⟩ := hn
      rcases List.mem_cons.1 hx with rfl | hx
      · exact absurd hu hx'
      · exact ⟨x, hx, hx'⟩
    · have : stepA s u = (some u.ts, []) := by unfold stepA; rw [if_pos hu]
      rw [this]
      exact key L (fun x hx => hk x (by simp [hx])) _ ⟨u.ts, rfl, hk u (by simp), fun d h => by simp at h⟩

theorem takeWhile_split {α : Type} (p : α → Bool) (a b : List α) (ha : ∀ x ∈ a, p x = true) (hb : ∀ x ∈ b, p x = false) :
    (a ++ b).takeWhile p = a ∧ (a ++ b).dropWhile p = b := by
  induction a with
  | nil =>
    cases b with
    | nil => exact ⟨rfl, rfl⟩
    | cons x b => simp [hb x (by simp)]
  | cons x a ih =>
    obtain ⟨h1, h2⟩ := ih (fun y hy => ha y (by simp [hy]))
    simp [ha x (by simp), h1, h2]

/-- Records not newer than everything stored change nothing. -/
theorem apply_stale {R : Rows V} {c : Cell V} {u : Upd} {v : V} (hb : c.base = some v) (hv : u.ts ≤ R.ts v)
    (hd : ∀ d ∈ c.deltas, u.ts < d.ts) : c.apply R u = some c := by
  have h2 : c.deltas.dropWhile (fun d => decide (u.ts < d.ts)) = [] := by
    have := (takeWhile_split (fun d : Delta => decide (u.ts < d.ts)) c.deltas [] (fun d h => by simpa using hd d h) (by simp)).2
    rwa [List.append_nil] at this
  unfold Cell.apply
  dsimp only
  rw [h2, hb, if_pos]
  simpa [headTs] using hv

theorem mark_ts {u : Upd} (h : u.ts % 2 = 0) : u.mark.ts = u.ts + 1 := lor_one h

section
variable {R : Rows V} {c0 : Option Nat} {us : List Upd} {H : Nat → V}

/-- Resolving the markers of `L` above the row with timestamp `b` is replaying `L`. -/
theorem resolve_fold (hh : Hist R c0 us H) : ∀ (L : List Upd) (B : Option Nat), (∀ u ∈ L, u ∈ us ∧ u.cmd = .modify) →
    (∀ b, B = some b → R.ts (H b) = b) →
    resolve R (L.map Upd.mark) (B.map H) =
      some ((L.foldl stepA (B, [])).2.map Upd.mark, (L.foldl stepA (B, [])).1.map H)
  | [], B, _, _ => by cases B <;> rfl
  | u :: L, none, hL, hB => by
    rw [fold_stuck (u :: L) none [] (fun x hx => (hL x hx).2) (.inr (fun x _ h => by simp at h))]
    rfl
  | u :: L, some b, hL, hB => by
    have hu := hL u (by simp)
    have hm : ¬ u.cmd ≠ .modify := by simp [hu.2]
    have hb := hB b rfl
    have he := hh.even u hu.1 hu.2
    rw [List.foldl_cons]
    show (if u.prev = R.ts (H b) then _ else _) = _
    rw [hb]
    by_cases h : u.prev = b
    · have hs : stepA (some b, []) u = (some u.ts, []) := by
        unfold stepA
        rw [if_neg hm, if_pos ⟨rfl, by rw [h]⟩]
      have hup := hh.up u hu.1 hu.2
      rw [if_pos h, hs, ← resolve_fold hh L (some u.ts) (fun x hx => hL x (by simp [hx]))
        (fun b hb => by cases hb; exact hh.tsH u hu.1)]
      rw [h] at hup
      obtain ⟨ch, hp, hup⟩ := Option.bind_eq_some_iff.1 hup
      have ht : u.mark.ts - 1 = u.ts := by rw [mark_ts he.1]; rfl
      show (R.parse u.val).bind _ = _
      rw [hp]
      show (R.update (H b) ch (u.mark.ts - 1)).bind _ = _
      rw [ht, hup]; rfl
    · have hs : stepA (some b, []) u = (some b, [u]) := by
        unfold stepA
        rw [if_neg hm, if_neg (by rintro ⟨_, h2⟩; cases h2; exact h rfl)]; rfl
      rw [if_neg h, hs, fold_stuck L _ _ (fun x hx => (hL x (by simp [hx])).2) (.inl (by simp))]
      rfl

/-- The central step: replaying one more record, late or early, gives what replaying all in order gives. -/
theorem apply_insert (hh : Hist R c0 us H) {L1 L2 : List Upd} {u : Upd} (hsub : ∀ x ∈ L1 ++ u :: L2, x ∈ us)
    (hsort : (L1 ++ u :: L2).Pairwise (fun a b => a.ts / 2 < b.ts / 2)) :
    (real H ((L1 ++ L2).foldl stepA (c0, []))).apply R u = some (real H ((L1 ++ u :: L2).foldl stepA (c0, []))) := by
  rw [List.foldl_append, List.foldl_append, List.foldl_cons]
  have hF := from_fold c0 L1
  generalize L1.foldl stepA (c0, []) = s at hF
  obtain ⟨B, D⟩ := s
  have hu := hsub u (by simp)
  rw [List.pairwise_append, List.pairwise_cons] at hsort
  obtain ⟨_, ⟨hu2, hs2⟩, h1u⟩ := hsort
  have h1 : ∀ x ∈ L1, x.ts / 2 < u.ts / 2 := fun x hx => h1u x hx u (by simp)
  by_cases hn : ∃ x ∈ L2, x.cmd ≠ .modify
  · -- a later record hides this one
    rw [fold_reset L2 hn (stepA (B, D) u) (B, D)]
    obtain ⟨b, hb1, hb2, hb3⟩ := fold_ge (u.ts / 2) L2 (B, D) hu2 hn
    have hF2 : From c0 (L1 ++ L2) (L2.foldl stepA (B, D)) := by
      -- from the start, by appending
      have e : ∀ (L : List Upd) (s : Abs) (A : List Upd), From c0 A s → From c0 (A ++ L) (L.foldl stepA s) := by
        intro L
        induction L with
        | nil => intro s A h; rw [List.append_nil]; exact h
        | cons x L ih =>
          intro s A h
          rw [List.foldl_cons, show A ++ x :: L = (A ++ [x]) ++ L by simp]
          apply ih
          have hx : x ∈ A ++ [x] := by simp
          unfold stepA
          split
          · exact ⟨fun b h => .inr ⟨x, hx, by simpa using h⟩, fun d h => by simp at h, fun d D h => by simp at h⟩
          · rename_i hm
            split
            · exact ⟨fun b h => .inr ⟨x, hx, by simpa using h⟩, fun d h => by simp at h, fun d D h => by simp at h⟩
            · rename_i hc
              refine ⟨fun b hb => ?_, fun d hd => ?_, fun d D hd => ?_⟩
              · rcases h.base b hb with h | ⟨y, hy, h⟩
                · exact .inl h
                · exact .inr ⟨y, by simp [hy], h⟩
              · rcases List.mem_append.1 hd with hd | hd
                · exact ⟨by simp [(h.pend d hd).1], (h.pend d hd).2⟩
                · simp at hd; subst hd; exact ⟨hx, by simpa using hm⟩
              · dsimp only at hd ⊢
                cases hs : s.2 with
                | nil =>
                  rw [hs] at hd
                  simp at hd
                  obtain ⟨rfl, _⟩ := hd
                  exact fun e => hc ⟨hs, e⟩
                | cons z l =>
                  rw [hs] at hd
                  simp at hd
                  obtain ⟨rfl, _⟩ := hd
                  exact h.stuck _ _ hs
      exact e L2 (B, D) L1 hF
    refine apply_stale (v := H b) (by simp [real, hb1]) ?_ ?_
    · have : R.ts (H b) = b := by
        rcases hF2.base b hb1 with h | ⟨x, hx, rfl⟩
        · exact hh.tsH0 b h
        · exact hh.tsH x (hsub x (by rcases List.mem_append.1 hx with h | h <;> simp [h]))
      rw [this]; omega
    · intro d hd
      have hd : d ∈ ((L2.foldl stepA (B, D)).2.map Upd.mark).reverse := hd
      rw [List.mem_reverse, List.mem_map] at hd
      obtain ⟨x, hx, rfl⟩ := hd
      have hx2 := hb3 x hx
      have hx3 := hF2.pend x hx
      rw [mark_ts (hh.even x (hsub x (by rcases List.mem_append.1 hx3.1 with h | h <;> simp [h])) hx3.2).1]
      omega
  · have hL2 : ∀ x ∈ L2, x ∈ us ∧ x.cmd = .modify := fun x hx => ⟨hsub x (by simp [hx]), by
      by_contra h
      exact hn ⟨x, hx, h⟩⟩
    have hD : ∀ x ∈ D, x ∈ us ∧ x.cmd = .modify := fun x hx => ⟨hsub x (by simp [(hF.pend x hx).1]), (hF.pend x hx).2⟩
    have hBlt : ∀ b, B = some b → b / 2 < u.ts / 2 ∧ R.ts (H b) = b := by
      intro b hb
      rcases hF.base b hb with h | ⟨x, hx, rfl⟩
      · exact ⟨hh.start b h u hu, hh.tsH0 b h⟩
      · exact ⟨h1 x hx, hh.tsH x (hsub x (by simp [hx]))⟩
    -- nothing in `L2` can be applied before `u`
    have hst : L2.foldl stepA (B, D) = (B, D ++ L2) := by
      apply fold_stuck L2 B D (fun x hx => (hL2 x hx).2)
      right
      intro x hx h
      have := (hBlt x.prev h).1
      have := hh.link x (hL2 x hx).1 (hL2 x hx).2 u hu (by have := hu2 x hx; omega)
      omega
    rw [hst]
    -- where the record goes
    have e1 : (real H (B, D ++ L2)).deltas = (L2.map Upd.mark).reverse ++ (D.map Upd.mark).reverse := by
      simp [real]
    have hsplit := takeWhile_split (fun d : Delta => decide (u.ts < d.ts)) (L2.map Upd.mark).reverse (D.map Upd.mark).reverse
      (by
        intro d hd
        rw [List.mem_reverse, List.mem_map] at hd
        obtain ⟨x, hx, rfl⟩ := hd
        rw [mark_ts (hh.even x (hL2 x hx).1 (hL2 x hx).2).1]
        have := hu2 x hx
        exact decide_eq_true (by omega))
      (by
        intro d hd
        rw [List.mem_reverse, List.mem_map] at hd
        obtain ⟨x, hx, rfl⟩ := hd
        rw [mark_ts (hh.even x (hD x hx).1 (hD x hx).2).1]
        have := h1 x (hF.pend x hx).1
        have := (hh.even x (hD x hx).1 (hD x hx).2).1
        exact decide_eq_false (by omega))
    have hhead : ∀ t, headTs R (D.map Upd.mark).reverse (B.map H) = some t →
        t < u.ts ∧ ((D = [] ∧ B = some t) ∨ (D ≠ [] ∧ t % 2 = 1)) := by
      intro t ht
      cases hr : (D.map Upd.mark).reverse with
      | nil =>
        have hD0 : D = [] := by simpa using hr
        rw [hr] at ht
        cases hB0 : B with
        | none => rw [hB0] at ht; simp [headTs] at ht
        | some b =>
          rw [hB0] at ht
          have hb := hBlt b hB0
          simp [headTs, hb.2] at ht
          subst ht
          exact ⟨by omega, .inl ⟨hD0, rfl⟩⟩
      | cons d l =>
        rw [hr] at ht
        simp [headTs] at ht
        have hd : d ∈ (D.map Upd.mark).reverse := by rw [hr]; simp
        rw [List.mem_reverse, List.mem_map] at hd
        obtain ⟨x, hx, rfl⟩ := hd
        have := h1 x (hF.pend x hx).1
        have he := (hh.even x (hD x hx).1 (hD x hx).2).1
        rw [mark_ts he] at ht
        exact ⟨by omega, .inr ⟨fun h => by rw [h] at hx; simp at hx, by omega⟩⟩
    unfold Cell.apply
    dsimp only
    rw [e1, hsplit.1, hsplit.2]
    have e2 : (real H (B, D ++ L2)).base = B.map H := rfl
    rw [e2, if_neg (by
      intro h
      rw [Option.any_eq_true] at h
      obtain ⟨t, h1, h2⟩ := h
      have := (hhead t h1).1
      simp at h2
      omega)]
    by_cases hm : u.cmd = .modify
    · have hev := hh.even u hu hm
      by_cases hc : D = [] ∧ B = some u.prev
      · -- applied to the row
        obtain ⟨rfl, rfl⟩ := hc
        have hch : change R ((([] : List Upd).map Upd.mark).reverse) ((some u.prev).map H) u = some ([], some (H u.ts)) := by
          have hup := hh.up u hu hm
          obtain ⟨ch, hp, hup⟩ := Option.bind_eq_some_iff.1 hup
          unfold change
          rw [hm]
          dsimp only
          rw [if_pos (by simp [headTs, (hBlt _ rfl).2])]
          simp [hp, hup]
        have hs : stepA (some u.prev, []) u = (some u.ts, []) := by
          unfold stepA
          rw [if_neg (by simp [hm]), if_pos ⟨rfl, rfl⟩]
        rw [hch, hs]
        have := resolve_fold hh L2 (some u.ts) hL2 (fun b hb => by cases hb; exact hh.tsH u hu)
        show (resolve R ((L2.map Upd.mark).reverse ++ []).reverse (some (H u.ts))).map _ = _
        rw [List.append_nil, List.reverse_reverse]
        rw [show some (H u.ts) = (some u.ts).map H from rfl, this]
        rfl
      · -- left pending
        have hch : change R (D.map Upd.mark).reverse (B.map H) u = some (u.mark :: (D.map Upd.mark).reverse, B.map H) := by
          unfold change
          rw [hm]
          dsimp only
          rw [if_neg]
          intro h
          rcases (hhead _ h).2 with h | h
          · exact hc h
          · omega
        have hs : stepA (B, D) u = (B, D ++ [u]) := by
          unfold stepA
          rw [if_neg (by simp [hm]), if_neg hc]
        have hst2 : L2.foldl stepA (B, D ++ [u]) = (B, D ++ u :: L2) := by
          rw [fold_stuck L2 _ _ (fun x hx => (hL2 x hx).2) (.inl (by simp))]; simp
        have hall : ∀ x ∈ D ++ u :: L2, x ∈ us ∧ x.cmd = .modify := by
          intro x hx
          rcases List.mem_append.1 hx with hx | hx
          · exact hD x hx
          · rcases List.mem_cons.1 hx with rfl | hx
            · exact ⟨hu, hm⟩
            · exact hL2 x hx
        rw [hch, hs, hst2]
        have e3 : ((L2.map Upd.mark).reverse ++ u.mark :: (D.map Upd.mark).reverse).reverse = (D ++ u :: L2).map Upd.mark := by simp
        show (resolve R ((L2.map Upd.mark).reverse ++ u.mark :: (D.map Upd.mark).reverse).reverse (B.map H)).map _ = _
        rw [e3, resolve_fold hh _ B hall (fun b hb => (hBlt b hb).2)]
        have hst3 : (D ++ u :: L2).foldl stepA (B, []) = (B, D ++ u :: L2) := by
          cases hD0 : D with
          | nil =>
            have hc' : B ≠ some u.prev := fun e => hc ⟨hD0, e⟩
            have : stepA (B, []) u = (B, [u]) := by
              unfold stepA
              rw [if_neg (by simp [hm]), if_neg (fun h => hc' h.2)]; rfl
            rw [List.nil_append, List.foldl_cons, this, fold_stuck L2 _ _ (fun x hx => (hL2 x hx).2) (.inl (by simp))]
            rfl
          | cons d D' =>
            have hd := hF.stuck d D' hD0
            have hdm := (hD d (by rw [hD0]; simp)).2
            have : stepA (B, []) d = (B, [d]) := by
              unfold stepA
              rw [if_neg (by simp [hdm]), if_neg (fun h => hd h.2)]; rfl
            rw [List.cons_append, List.foldl_cons, this, fold_stuck _ _ _ (fun x hx => (hall x (by rw [hD0]; simp at hx ⊢; tauto)).2) (.inl (by simp))]
            rfl
        rw [hst3]
        rfl
    · -- a record that hides everything before it
      have hch : change R (D.map Upd.mark).reverse (B.map H) u = some ([], some (H u.ts)) := by
        have hmk := hh.made u hu hm
        unfold make at hmk
        unfold change
        cases hcmd : u.cmd with
        | modify => exact absurd hcmd hm
        | replace => rw [hcmd] at hmk; dsimp only at hmk ⊢; rw [Option.some.inj hmk]
        | put =>
          rw [hcmd] at hmk
          dsimp only at hmk ⊢
          obtain ⟨ch, hp, hc⟩ := Option.bind_eq_some_iff.1 hmk
          simp [hp, hc]
        | remove =>
          rw [hcmd] at hmk
          dsimp only at hmk ⊢
          obtain ⟨ch, hp, hc⟩ := Option.bind_eq_some_iff.1 hmk
          simp [hp, hc]
      have hs : stepA (B, D) u = (some u.ts, []) := by
        unfold stepA
        rw [if_pos hm]
      rw [hch, hs]
      have := resolve_fold hh L2 (some u.ts) hL2 (fun b hb => by cases hb; exact hh.tsH u hu)
      show (resolve R ((L2.map Upd.mark).reverse ++ []).reverse (some (H u.ts))).map _ = _
      rw [List.append_nil, List.reverse_reverse]
      rw [show some (H u.ts) = (some u.ts).map H from rfl, this]
      rfl

/-- Replaying prepared records one after the other. -/
def Cell.applyAll (R : Rows V) (c : Cell V) : List Upd → Option (Cell V)
  | [] => some c
  | u :: us => (c.apply R u).bind fun c' => c'.applyAll R us

theorem applyAll_append (R : Rows V) (c : Cell V) (a b : List Upd) :
    c.applyAll R (a ++ b) = (c.applyAll R a).bind fun c' => c'.applyAll R b := by
  induction a generalizing c with
  | nil => rfl
  | cons u a ih =>
    show (c.apply R u).bind _ = ((c.apply R u).bind _).bind _
    cases c.apply R u with
    | none => rfl
    | some c' => exact ih c'

theorem sorted_nodup {us : List Upd} (h : us.Pairwise (fun a b => a.ts / 2 < b.ts / 2)) : us.Nodup :=
  h.imp (fun {a b} hab e => by subst e; omega)

/-- Replaying some of the records of a history in any order leaves what replaying them in timestamp order leaves. -/
theorem applyAll_any (hh : Hist R c0 us H) (p : List Upd) (hp : p.Nodup) (hsub : ∀ u ∈ p, u ∈ us) :
    (real H (c0, [])).applyAll R p = some (real H ((us.filter (fun u => decide (u ∈ p))).foldl stepA (c0, []))) := by
  induction p using List.reverseRecOn with
  | nil =>
    have : us.filter (fun u => decide (u ∈ ([] : List Upd))) = [] := List.filter_eq_nil_iff.2 (by simp)
    rw [this]; rfl
  | append_singleton p u ih =>
    rw [List.nodup_append] at hp
    obtain ⟨hp1, _, hp3⟩ := hp
    have hup : u ∉ p := fun h => hp3 u h u (by simp) rfl
    rw [applyAll_append, ih hp1 (fun x hx => hsub x (by simp [hx]))]
    obtain ⟨A, C, hAC⟩ := List.append_of_mem (hsub u (by simp))
    have hnd := sorted_nodup hh.sorted
    rw [hAC, List.nodup_append, List.nodup_cons] at hnd
    obtain ⟨_, ⟨huC, _⟩, hdis⟩ := hnd
    have huA : u ∉ A := fun h => hdis u h u (by simp) rfl
    have e1 : us.filter (fun x => decide (x ∈ p)) = A.filter (fun x => decide (x ∈ p)) ++ C.filter (fun x => decide (x ∈ p)) := by
      rw [hAC, List.filter_append, List.filter_cons_of_neg (by simpa using hup)]
    have e2 : us.filter (fun x => decide (x ∈ p ++ [u])) = A.filter (fun x => decide (x ∈ p)) ++ u :: C.filter (fun x => decide (x ∈ p)) := by
      rw [hAC, List.filter_append, List.filter_cons_of_pos (by simp)]
      congr 1
      · apply List.filter_congr
        intro x hx
        have : x ≠ u := fun h => huA (h ▸ hx)
        simp [this]
      · congr 1
        apply List.filter_congr
        intro x hx
        have : x ≠ u := fun h => huC (h ▸ hx)
        simp [this]
    rw [e1, e2]
    have hsl : (A.filter (fun x => decide (x ∈ p)) ++ u :: C.filter (fun x => decide (x ∈ p))).Sublist us := by
      rw [hAC]
      exact List.Sublist.append List.filter_sublist (List.Sublist.cons_cons u List.filter_sublist)
    show ((real H _).apply R u).bind _ = _
    rw [apply_insert hh (fun x hx => hsl.subset hx) (hh.sorted.sublist hsl)]
    rfl

end
end Verif.Log
