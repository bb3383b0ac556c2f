import Verif.Leaflink.Inv
import Mathlib.Tactic.ClearExcept

/-!
# Every step keeps the invariant
-/
namespace Verif.Leaflink
open Function (update)

theorem Op.pending_right {o : Op} {r : Nat} (h : o.pending = some r) : o.right = some r := by
  cases o <;> simp_all [Op.pending, Op.right]

theorem Op.pending_ne {o : Op} {r : Nat} (h : o.pending = some r) : o ≠ .idle := by
  rintro rfl; simp [Op.pending] at h

theorem Op.right_cases {o : Op} {r : Nat} (h : o.right = some r) : o.pending = some r ∨ ∃ nx, o = .s4 r nx := by
  cases o <;> simp_all [Op.pending, Op.right]

theorem Op.holds_locked {o : Op} {p : Nat} (h : o.holds = some p) : ∃ nx, o.locked = some nx ∧ o.half = false := by
  cases o <;> simp_all [Op.holds, Op.locked, Op.half]

local macro "auto" : tactic => `(tactic| first
  | assumption
  | ((try simp only [Function.update_apply, assign])
     grind [Op.locked, Op.pending, Op.right, Op.unlinks, Op.holds, Op.half, Op.moved, Op.pending_right, Op.pending_ne,
       Op.right_cases, Op.holds_locked]))

set_option maxHeartbeats 1000000 in
theorem inv_split {key : Nat → Nat} {s : State} (h : Inv key s) (n nr : Nat) (hn : s.status n = .live) (ho : s.op n = .idle) (hl : ¬ s.linking n)
      (hr : s.status nr = .free) (hk : key n < key nr) (hk' : ∀ x, s.status x = .live → key n < key x → key nr < key x) : Inv key { s with op := update s.op n (.s0 nr), status := update s.status nr .pending } := by
  obtain ⟨lsp, lps, first, others, keyInj, opLive, pendS, rightIdle, rightInj, pendKey, pendGap, notFirst, lockNext, lockLs, s4Ls, s3Next, sPrev, u3p, holdsP, u5p, next, prev, dead, markSome, marked⟩ := h
  simp only [State.linking] at hl
  constructor
  all_goals dsimp only
  case rightInj =>
    clear * - rightInj ho hr pendS s4Ls lsp hn hl
    auto
  case pendKey =>
    clear * - pendKey hn ho hl hr hk hk' 
    auto
  case pendGap =>
    clear * - pendGap hn ho hl hr hk hk' 
    auto
  case u5p =>
    clear * - u5p hn ho hl hr hk hk' 
    auto
  case s4Ls =>
    have keep : ∀ {a t}, Leads s a t → Leads _ a t := fun h => Leads.keep (s := s) (s' := { s with op := update s.op n (.s0 nr), status := update s.status nr .pending }) (by auto) h
    auto
  case lsp => auto
  case lps => auto
  case first => auto
  case others => auto
  case keyInj => auto
  case opLive => auto
  case pendS => auto
  case rightIdle => auto
  case notFirst => auto
  case lockNext => auto
  case lockLs => auto
  case s3Next => auto
  case sPrev => auto
  case u3p => auto
  case holdsP => auto
  case next => auto
  case prev => auto
  case dead => auto
  case markSome => auto
  case marked => auto

set_option maxHeartbeats 1000000 in
theorem inv_s0 {key : Nat → Nat} {s : State} (h : Inv key s) (n nr : Nat) (ho : s.op n = .s0 nr) : Inv key { s with prev := update s.prev nr (some n), op := update s.op n (.s1 nr) } := by
  obtain ⟨lsp, lps, first, others, keyInj, opLive, pendS, rightIdle, rightInj, pendKey, pendGap, notFirst, lockNext, lockLs, s4Ls, s3Next, sPrev, u3p, holdsP, u5p, next, prev, dead, markSome, marked⟩ := h
  have u5Ls : ∀ m nx p, s.op m = .u5 nx p → s.ls m = nx := fun m nx p h => lockLs m nx (by simp [h, Op.locked]) (by simp [h, Op.half])
  have hpn : s.status nr = .pending := pendS n nr (by simp [ho, Op.pending])
  constructor
  all_goals dsimp only
  case rightInj =>
    clear * - rightInj ho 
    auto
  case pendKey =>
    clear * - pendKey ho 
    auto
  case pendGap =>
    clear * - pendGap ho 
    auto
  case sPrev =>
    clear * - sPrev ho pendS rightInj hpn
    auto
  case u5p =>
    clear * - u5p ho u5Ls lsp hpn
    auto
  case s4Ls =>
    have keep : ∀ {a t}, Leads s a t → Leads _ a t := fun h => Leads.keep (s := s) (s' := { s with prev := update s.prev nr (some n), op := update s.op n (.s1 nr) }) (by auto) h
    auto
  case lsp => auto
  case lps => auto
  case first => auto
  case others => auto
  case keyInj => auto
  case opLive => auto
  case pendS => auto
  case rightIdle => auto
  case notFirst => auto
  case lockNext => auto
  case lockLs => auto
  case s3Next => auto
  case u3p => auto
  case holdsP => auto
  case next => auto
  case prev => auto
  case dead => auto
  case markSome => auto
  case marked => auto

set_option maxHeartbeats 1000000 in
theorem inv_s1null {key : Nat → Nat} {s : State} (h : Inv key s) (n nr : Nat) (ho : s.op n = .s1 nr) (hx : s.next n = none) : Inv key { s with op := update s.op n (.s2 nr none) } := by
  obtain ⟨lsp, lps, first, others, keyInj, opLive, pendS, rightIdle, rightInj, pendKey, pendGap, notFirst, lockNext, lockLs, s4Ls, s3Next, sPrev, u3p, holdsP, u5p, next, prev, dead, markSome, marked⟩ := h
  constructor
  all_goals dsimp only
  case rightInj =>
    clear * - rightInj ho hx 
    auto
  case pendKey =>
    clear * - pendKey ho hx 
    auto
  case pendGap =>
    clear * - pendGap ho hx 
    auto
  case u5p =>
    clear * - u5p ho hx 
    auto
  case s4Ls =>
    have keep : ∀ {a t}, Leads s a t → Leads _ a t := fun h => Leads.keep (s := s) (s' := { s with op := update s.op n (.s2 nr none) }) (by auto) h
    auto
  case lsp => auto
  case lps => auto
  case first => auto
  case others => auto
  case keyInj => auto
  case opLive => auto
  case pendS => auto
  case rightIdle => auto
  case notFirst => auto
  case lockNext => auto
  case lockLs => auto
  case s3Next => auto
  case sPrev => auto
  case u3p => auto
  case holdsP => auto
  case next => auto
  case prev => auto
  case dead => auto
  case markSome => auto
  case marked => auto

set_option maxHeartbeats 1000000 in
theorem inv_s1 {key : Nat → Nat} {s : State} (h : Inv key s) (n nr b : Nat) (ho : s.op n = .s1 nr) (hx : s.next n = some b) (hm : s.mark n = false) : Inv key { s with mark := update s.mark n true, op := update s.op n (.s2 nr (some b)) } := by
  obtain ⟨lsp, lps, first, others, keyInj, opLive, pendS, rightIdle, rightInj, pendKey, pendGap, notFirst, lockNext, lockLs, s4Ls, s3Next, sPrev, u3p, holdsP, u5p, next, prev, dead, markSome, marked⟩ := h
  constructor
  all_goals dsimp only
  case lsp =>
    clear * - lsp ho hx hm 
    auto
  case first =>
    clear * - first ho hx hm 
    auto
  case opLive =>
    clear * - opLive ho hx hm 
    auto
  case pendS =>
    clear * - pendS ho hx hm 
    auto
  case rightIdle =>
    clear * - rightIdle ho hx hm opLive
    auto
  case rightInj =>
    clear * - rightInj ho hx hm 
    auto
  case pendKey =>
    clear * - pendKey ho hx hm 
    auto
  case pendGap =>
    clear * - pendGap ho hx hm 
    auto
  case notFirst =>
    clear * - notFirst ho hx hm 
    auto
  case lockNext =>
    clear * - lockNext ho hx hm 
    auto
  case lockLs =>
    clear * - lockLs ho hx hm  next opLive
    auto
  case s4Ls =>
    have keep : ∀ {a t}, Leads s a t → Leads _ a t := fun h => Leads.keep (s := s) (s' := { s with mark := update s.mark n true, op := update s.op n (.s2 nr (some b)) }) (fun b hb => ⟨hb, rfl⟩) h
    clear * - s4Ls keep ho
    auto
  case s3Next =>
    intro m r x h
    have hm : m ≠ n := by rintro rfl; simp at h
    have hr : r ≠ n := by
      rintro rfl
      have := pendS m r
      have := opLive r
      simp_all [Op.pending]
    simp only [Function.update_of_ne hm, Function.update_of_ne hr] at h ⊢
    exact s3Next m r x h
  case sPrev =>
    clear * - sPrev ho hx hm 
    auto
  case u3p =>
    clear * - u3p ho hx hm 
    auto
  case holdsP =>
    clear * - holdsP ho hx hm 
    auto
  case u5p =>
    clear * - u5p ho hx hm 
    auto
  case next =>
    have hq : (s.op n).half = false := by simp [ho, Op.half]
    clear * - next hq ho hx
    auto
  case prev =>
    clear * - prev ho hx hm 
    auto
  case dead =>
    clear * - dead ho hx hm  opLive
    auto
  case markSome =>
    clear * - markSome ho hx hm 
    auto
  case marked =>
    clear * - marked ho hx hm  holdsP
    auto
  case lps => auto
  case others => auto
  case keyInj => auto

set_option maxHeartbeats 1000000 in
theorem inv_s2 {key : Nat → Nat} {s : State} (h : Inv key s) (n nr : Nat) (nx : Option Nat) (ho : s.op n = .s2 nr nx) : Inv key { s with
        next := update s.next nr nx, mark := update s.mark nr false, op := update s.op n (.s3 nr nx) } := by
  obtain ⟨lsp, lps, first, others, keyInj, opLive, pendS, rightIdle, rightInj, pendKey, pendGap, notFirst, lockNext, lockLs, s4Ls, s3Next, sPrev, u3p, holdsP, u5p, next, prev, dead, markSome, marked⟩ := h
  constructor
  all_goals dsimp only
  case rightInj =>
    clear * - rightInj ho 
    auto
  case pendKey =>
    clear * - pendKey ho 
    auto
  case pendGap =>
    clear * - pendGap ho 
    auto
  case u5p =>
    clear * - u5p ho 
    auto
  case s4Ls =>
    have keep : ∀ {a t}, Leads s a t → Leads _ a t := fun h => Leads.keep (s := s) (s' := { s with         next := update s.next nr nx, mark := update s.mark nr false, op := update s.op n (.s3 nr nx) }) (by auto) h
    auto
  case lsp => auto
  case lps => auto
  case first => auto
  case others => auto
  case keyInj => auto
  case opLive => auto
  case pendS => auto
  case rightIdle => auto
  case notFirst => auto
  case lockNext => auto
  case lockLs => auto
  case s3Next => auto
  case sPrev => auto
  case u3p => auto
  case holdsP => auto
  case next => auto
  case prev => auto
  case dead => auto
  case markSome => auto
  case marked => auto

set_option maxHeartbeats 1000000 in
theorem inv_s3 {key : Nat → Nat} {s : State} (h : Inv key s) (n nr : Nat) (nx : Option Nat) (ho : s.op n = .s3 nr nx) : Inv key { s with
        prev := assign s.prev nx nr, op := update s.op n (.s4 nr nx), status := update s.status nr .live,
        ls := update (update s.ls n (some nr)) nr nx, lp := assign (update s.lp nr (some n)) nx nr,
        all := insertAfter n nr s.all } := by
  obtain ⟨lsp, lps, first, others, keyInj, opLive, pendS, rightIdle, rightInj, pendKey, pendGap, notFirst, lockNext, lockLs, s4Ls, s3Next, sPrev, u3p, holdsP, u5p, next, prev, dead, markSome, marked⟩ := h
  have u5Ls : ∀ m nx p, s.op m = .u5 nx p → s.ls m = nx := fun m nx p h => lockLs m nx (by simp [h, Op.locked]) (by simp [h, Op.half])
  have hls : s.ls n = nx := lockLs n nx (by simp [ho, Op.locked]) (by simp [ho, Op.half])
  have hpn : s.status nr = .pending := pendS n nr (by simp [ho, Op.pending])
  have hn : s.status n = .live := opLive n (by simp [ho])
  have hri : s.op nr = .idle := rightIdle n nr (by simp [ho, Op.right])
  have hlk := lockNext n nx (by simp [ho, Op.locked])
  have hnk : key n < key nr := pendKey n nr (by simp [ho, Op.pending])
  have hgap : ∀ x, s.status x = .live → key n < key x → key nr < key x := fun x => pendGap n nr x (by simp [ho, Op.pending])
  have hsp : s.prev nr = some n := by have := sPrev n nr; simp [ho, Op.pending] at this; exact this
  have hne : nr ≠ n := by rintro rfl; simp [hn] at hpn
  have hsn := s3Next n nr nx ho
  constructor
  all_goals dsimp only
  case lsp =>
    cases nx <;> clear * - lsp lps hls hpn hn hnk hgap hne <;> auto
  case lps =>
    cases nx <;> clear * - lsp lps hls hpn hn hnk hgap hne <;> auto
  case first =>
    cases nx <;> clear * - lsp lps hls hpn hn hnk hgap hne first <;> auto
  case others =>
    cases nx <;> clear * - lsp lps hls hpn hn hnk hgap hne others <;> auto
  case keyInj =>
    clear * - keyInj ho  hgap hnk hn
    auto
  case pendS =>
    clear * - pendS ho  rightInj hpn
    auto
  case rightInj =>
    clear * - rightInj ho 
    auto
  case pendKey =>
    clear * - pendKey ho 
    auto
  case pendGap =>
    intro m r x h hx hk
    by_cases hm : m = n
    · subst hm; simp [Op.pending] at h
    · simp only [Function.update_of_ne hm] at h
      by_cases hxr : x = nr
      · subst hxr
        have hml : s.status m = .live := opLive m (Op.pending_ne h)
        rcases Nat.lt_trichotomy (key m) (key n) with hlt | heq | hgt
        · exact Nat.lt_trans (pendGap m r n h hn hlt) hnk
        · exact absurd (keyInj m n hml hn heq) hm
        · have := hgap m hml hgt; omega
      · simp only [Function.update_of_ne hxr] at hx
        exact pendGap m r x h hx hk
  case lockLs =>
    clear * - lockLs ho  hri hpn opLive
    auto
  case s4Ls =>
    have keep : ∀ {a t}, Leads s a t → Leads _ a t := fun h => Leads.keep (s := s) (s' := { s with prev := assign s.prev nx nr, op := update s.op n (.s4 nr nx), status := update s.status nr .live, ls := update (update s.ls n (some nr)) nr nx, lp := assign (update s.lp nr (some n)) nx nr, all := insertAfter n nr s.all }) (fun b hb => ⟨by
        simp only [Function.update_apply]; rw [if_neg (by rintro rfl; simp [hpn] at hb)]; exact hb, rfl⟩) h
    intro m r x h
    by_cases hm : m = n
    · subst hm
      simp only [Function.update_self, Op.s4.injEq] at h
      obtain ⟨rfl, rfl⟩ := h
      rw [Function.update_of_ne (Ne.symm hne), Function.update_self, Function.update_self]
      exact ⟨rfl, .refl _⟩
    · simp only [Function.update_of_ne hm] at h
      obtain ⟨h1, h2⟩ := s4Ls m r x h
      have hr : r ≠ nr := by rintro rfl; have := (lsp m r h1).2.2.1; simp [hpn] at this
      have hrn : r ≠ n := by rintro rfl; have := rightIdle m r (by simp [h, Op.right]); simp [ho] at this
      have hmr : m ≠ nr := by rintro rfl; simp [hri] at h
      simp only [Function.update_of_ne hr, Function.update_of_ne hm, Function.update_of_ne hrn, Function.update_of_ne hmr]
      exact ⟨h1, keep h2⟩
  case sPrev =>
    cases nx <;> clear * - sPrev lsp hls hpn hn pendS hne ho <;> auto
  case holdsP =>
    clear * - holdsP ho  hri hls hpn hn hlk lsp
    auto
  case u5p =>
    cases nx <;> clear * - u5p u5Ls lsp ho hls <;> auto
  case next =>
    clear * - next ho  hlk hri hsn hls hpn
    auto
  case prev =>
    cases nx <;> clear * - lsp lps hls hpn hn hsp hne prev ho hri <;> auto
  case marked =>
    clear * - marked ho  hsn hne
    auto
  case opLive => auto
  case rightIdle => auto
  case notFirst => auto
  case lockNext => auto
  case s3Next => auto
  case u3p => auto
  case dead => auto
  case markSome => auto

set_option maxHeartbeats 1000000 in
theorem inv_s4 {key : Nat → Nat} {s : State} (h : Inv key s) (n nr : Nat) (nx : Option Nat) (ho : s.op n = .s4 nr nx) : Inv key { s with
        next := update s.next n (some nr), mark := update s.mark n false, op := update s.op n .idle } := by
  obtain ⟨lsp, lps, first, others, keyInj, opLive, pendS, rightIdle, rightInj, pendKey, pendGap, notFirst, lockNext, lockLs, s4Ls, s3Next, sPrev, u3p, holdsP, u5p, next, prev, dead, markSome, marked⟩ := h
  constructor
  all_goals dsimp only
  case rightInj =>
    clear * - rightInj ho 
    auto
  case pendKey =>
    clear * - pendKey ho 
    auto
  case pendGap =>
    clear * - pendGap ho 
    auto
  case u5p =>
    clear * - u5p ho 
    auto
  case s4Ls =>
    have keep : ∀ {a t}, Leads s a t → Leads _ a t := fun h => Leads.keep (s := s) (s' := { s with         next := update s.next n (some nr), mark := update s.mark n false, op := update s.op n .idle }) (by auto) h
    auto
  case lsp => auto
  case lps => auto
  case first => auto
  case others => auto
  case keyInj => auto
  case opLive => auto
  case pendS => auto
  case rightIdle => auto
  case notFirst => auto
  case lockNext => auto
  case lockLs => auto
  case s3Next => auto
  case sPrev => auto
  case u3p => auto
  case holdsP => auto
  case next => auto
  case prev => auto
  case dead => auto
  case markSome => auto
  case marked => auto

set_option maxHeartbeats 1000000 in
theorem inv_unlink {key : Nat → Nat} {s : State} (h : Inv key s) (n : Nat) (hn : s.status n = .live) (ho : s.op n = .idle) (hl : ¬ s.linking n)
      (hp : s.prev n ≠ none) : Inv key { s with op := update s.op n .u1 } := by
  obtain ⟨lsp, lps, first, others, keyInj, opLive, pendS, rightIdle, rightInj, pendKey, pendGap, notFirst, lockNext, lockLs, s4Ls, s3Next, sPrev, u3p, holdsP, u5p, next, prev, dead, markSome, marked⟩ := h
  simp only [State.linking] at hl
  constructor
  all_goals dsimp only
  case rightInj =>
    clear * - rightInj hn ho hl hp 
    auto
  case pendKey =>
    clear * - pendKey hn ho hl hp 
    auto
  case pendGap =>
    clear * - pendGap hn ho hl hp 
    auto
  case u5p =>
    clear * - u5p hn ho hl hp 
    auto
  case s4Ls =>
    have keep : ∀ {a t}, Leads s a t → Leads _ a t := fun h => Leads.keep (s := s) (s' := { s with op := update s.op n .u1 }) (by auto) h
    auto
  case lsp => auto
  case lps => auto
  case first => auto
  case others => auto
  case keyInj => auto
  case opLive => auto
  case pendS => auto
  case rightIdle => auto
  case notFirst => auto
  case lockNext => auto
  case lockLs => auto
  case s3Next => auto
  case sPrev => auto
  case u3p => auto
  case holdsP => auto
  case next => auto
  case prev => auto
  case dead => auto
  case markSome => auto
  case marked => auto

set_option maxHeartbeats 1000000 in
theorem inv_u1null {key : Nat → Nat} {s : State} (h : Inv key s) (n : Nat) (ho : s.op n = .u1) (hx : s.next n = none) : Inv key { s with op := update s.op n (.u2 none) } := by
  obtain ⟨lsp, lps, first, others, keyInj, opLive, pendS, rightIdle, rightInj, pendKey, pendGap, notFirst, lockNext, lockLs, s4Ls, s3Next, sPrev, u3p, holdsP, u5p, next, prev, dead, markSome, marked⟩ := h
  constructor
  all_goals dsimp only
  case rightInj =>
    clear * - rightInj ho hx 
    auto
  case pendKey =>
    clear * - pendKey ho hx 
    auto
  case pendGap =>
    clear * - pendGap ho hx 
    auto
  case u5p =>
    clear * - u5p ho hx 
    auto
  case s4Ls =>
    have keep : ∀ {a t}, Leads s a t → Leads _ a t := fun h => Leads.keep (s := s) (s' := { s with op := update s.op n (.u2 none) }) (by auto) h
    auto
  case lsp => auto
  case lps => auto
  case first => auto
  case others => auto
  case keyInj => auto
  case opLive => auto
  case pendS => auto
  case rightIdle => auto
  case notFirst => auto
  case lockNext => auto
  case lockLs => auto
  case s3Next => auto
  case sPrev => auto
  case u3p => auto
  case holdsP => auto
  case next => auto
  case prev => auto
  case dead => auto
  case markSome => auto
  case marked => auto

set_option maxHeartbeats 1000000 in
theorem inv_u1 {key : Nat → Nat} {s : State} (h : Inv key s) (n b : Nat) (ho : s.op n = .u1) (hx : s.next n = some b) (hm : s.mark n = false) : Inv key { s with mark := update s.mark n true, op := update s.op n (.u2 (some b)) } := by
  obtain ⟨lsp, lps, first, others, keyInj, opLive, pendS, rightIdle, rightInj, pendKey, pendGap, notFirst, lockNext, lockLs, s4Ls, s3Next, sPrev, u3p, holdsP, u5p, next, prev, dead, markSome, marked⟩ := h
  constructor
  all_goals dsimp only
  case rightInj =>
    clear * - rightInj ho hx hm 
    auto
  case pendKey =>
    clear * - pendKey ho hx hm 
    auto
  case pendGap =>
    clear * - pendGap ho hx hm 
    auto
  case u5p =>
    clear * - u5p ho hx hm 
    auto
  case s4Ls =>
    have keep : ∀ {a t}, Leads s a t → Leads _ a t := fun h => Leads.keep (s := s) (s' := { s with mark := update s.mark n true, op := update s.op n (.u2 (some b)) }) (by auto) h
    auto
  case lsp => auto
  case lps => auto
  case first => auto
  case others => auto
  case keyInj => auto
  case opLive => auto
  case pendS => auto
  case rightIdle => auto
  case notFirst => auto
  case lockNext => auto
  case lockLs => auto
  case s3Next => auto
  case sPrev => auto
  case u3p => auto
  case holdsP => auto
  case next => auto
  case prev => auto
  case dead => auto
  case markSome => auto
  case marked => auto

set_option maxHeartbeats 1000000 in
theorem inv_u2 {key : Nat → Nat} {s : State} (h : Inv key s) (n p : Nat) (nx : Option Nat) (ho : s.op n = .u2 nx) (hp : s.prev n = some p) : Inv key { s with op := update s.op n (.u3 nx p) } := by
  obtain ⟨lsp, lps, first, others, keyInj, opLive, pendS, rightIdle, rightInj, pendKey, pendGap, notFirst, lockNext, lockLs, s4Ls, s3Next, sPrev, u3p, holdsP, u5p, next, prev, dead, markSome, marked⟩ := h
  constructor
  all_goals dsimp only
  case rightInj =>
    clear * - rightInj ho hp 
    auto
  case pendKey =>
    clear * - pendKey ho hp 
    auto
  case pendGap =>
    clear * - pendGap ho hp 
    auto
  case u3p =>
    intro m x q h
    by_cases hm : m = n
    · subst hm
      simp only [Function.update_self, Op.u3.injEq] at h
      obtain ⟨rfl, rfl⟩ := h
      have hl : s.status m = .live := opLive m (by simp [ho])
      have h0 := notFirst m (by simp [ho, Op.unlinks])
      cases hq : s.lp m with
      | none => exact absurd hq (others m hl h0)
      | some q =>
        have hq' := lps q m hq
        by_cases hmv : (s.op q).moved = some m
        · have : ∃ r, s.op q = .u5 (some m) r := by
            revert hmv
            cases s.op q <;> simp [Op.moved]
          obtain ⟨r, hr⟩ := this
          have h1 := u5p q r m hr
          rw [hp] at h1
          cases h1
          exact .inl (lsp p q (holdsP q p (by simp [hr, Op.holds])).1).2.1
        · have h1 := prev q m hq' hmv
          rw [hp] at h1
          cases h1
          exact .inl (lsp _ _ hq').2.1
    · simp only [Function.update_of_ne hm] at h
      exact u3p m x q h
  case u5p =>
    clear * - u5p ho hp 
    auto
  case s4Ls =>
    have keep : ∀ {a t}, Leads s a t → Leads _ a t := fun h => Leads.keep (s := s) (s' := { s with op := update s.op n (.u3 nx p) }) (by auto) h
    auto
  case lsp => auto
  case lps => auto
  case first => auto
  case others => auto
  case keyInj => auto
  case opLive => auto
  case pendS => auto
  case rightIdle => auto
  case notFirst => auto
  case lockNext => auto
  case lockLs => auto
  case s3Next => auto
  case sPrev => auto
  case holdsP => auto
  case next => auto
  case prev => auto
  case dead => auto
  case markSome => auto
  case marked => auto

set_option maxHeartbeats 1000000 in
theorem inv_u3 {key : Nat → Nat} {s : State} (h : Inv key s) (n p : Nat) (nx : Option Nat) (ho : s.op n = .u3 nx p) (hx : s.next p = some n)
      (hm : s.mark p = false) : Inv key { s with mark := update s.mark p true, op := update s.op n (.u4 nx p) } := by
  obtain ⟨lsp, lps, first, others, keyInj, opLive, pendS, rightIdle, rightInj, pendKey, pendGap, notFirst, lockNext, lockLs, s4Ls, s3Next, sPrev, u3p, holdsP, u5p, next, prev, dead, markSome, marked⟩ := h
  have hm' := hm
  constructor
  all_goals dsimp only
  case rightInj =>
    clear * - rightInj ho hx hm 
    auto
  case pendKey =>
    clear * - pendKey ho hx hm 
    auto
  case pendGap =>
    clear * - pendGap ho hx hm 
    auto
  case holdsP =>
    intro m q h
    by_cases hm : m = n
    · subst hm
      simp only [Function.update_self, Op.holds, Option.some.injEq] at h
      subst h
      have hl : s.status p = .live := by
        rcases u3p m nx p ho with hl | hd
        · exact hl
        · have := dead p hd; simp [hm', hx] at this
      have hlk : (s.op p).locked = none := by
        cases hc : (s.op p).locked with
        | none => rfl
        | some x =>
          have := lockNext p x hc
          rw [hx] at this
          simp [← this.1, hm'] at this
      have hhalf : (s.op p).half = false := by
        revert hlk
        cases s.op p <;> simp [Op.locked, Op.half]
      have hpn : p ≠ m := by rintro rfl; simp [ho, Op.locked] at hlk
      have := next p hl hhalf
      refine ⟨this ▸ hx, hx, Function.update_self .., ?_⟩
      rw [Function.update_of_ne hpn]
      exact hlk
    · simp only [Function.update_of_ne hm] at h
      obtain ⟨h1, h2, h3, h4⟩ := holdsP m q h
      have hqn : q ≠ n := by rintro rfl; simp [ho, Op.locked] at h4
      refine ⟨h1, h2, ?_, ?_⟩
      · rw [Function.update_apply]; split <;> simp [h3]
      · rw [Function.update_of_ne hqn]; exact h4
  case u5p =>
    clear * - u5p ho hx hm 
    auto
  case s4Ls =>
    have keep : ∀ {a t}, Leads s a t → Leads _ a t := fun h => Leads.keep (s := s) (s' := { s with mark := update s.mark p true, op := update s.op n (.u4 nx p) }) (by auto) h
    auto
  case lsp => auto
  case lps => auto
  case first => auto
  case others => auto
  case keyInj => auto
  case opLive => auto
  case pendS => auto
  case rightIdle => auto
  case notFirst => auto
  case lockNext => auto
  case lockLs => auto
  case s3Next => auto
  case sPrev => auto
  case u3p => auto
  case next => auto
  case prev => auto
  case dead => auto
  case markSome => auto
  case marked => auto

set_option maxHeartbeats 1000000 in
theorem inv_u3fail {key : Nat → Nat} {s : State} (h : Inv key s) (n p : Nat) (nx : Option Nat) (ho : s.op n = .u3 nx p)
      (hx : ¬ (s.next p = some n ∧ s.mark p = false)) : Inv key { s with op := update s.op n (.u2 nx) } := by
  obtain ⟨lsp, lps, first, others, keyInj, opLive, pendS, rightIdle, rightInj, pendKey, pendGap, notFirst, lockNext, lockLs, s4Ls, s3Next, sPrev, u3p, holdsP, u5p, next, prev, dead, markSome, marked⟩ := h
  constructor
  all_goals dsimp only
  case rightInj =>
    clear * - rightInj ho hx 
    auto
  case pendKey =>
    clear * - pendKey ho hx 
    auto
  case pendGap =>
    clear * - pendGap ho hx 
    auto
  case u5p =>
    clear * - u5p ho hx 
    auto
  case s4Ls =>
    have keep : ∀ {a t}, Leads s a t → Leads _ a t := fun h => Leads.keep (s := s) (s' := { s with op := update s.op n (.u2 nx) }) (by auto) h
    auto
  case lsp => auto
  case lps => auto
  case first => auto
  case others => auto
  case keyInj => auto
  case opLive => auto
  case pendS => auto
  case rightIdle => auto
  case notFirst => auto
  case lockNext => auto
  case lockLs => auto
  case s3Next => auto
  case sPrev => auto
  case u3p => auto
  case holdsP => auto
  case next => auto
  case prev => auto
  case dead => auto
  case markSome => auto
  case marked => auto

set_option maxHeartbeats 1000000 in
theorem inv_u4 {key : Nat → Nat} {s : State} (h : Inv key s) (n p : Nat) (nx : Option Nat) (ho : s.op n = .u4 nx p) : Inv key { s with prev := assign s.prev nx p, op := update s.op n (.u5 nx p) } := by
  obtain ⟨lsp, lps, first, others, keyInj, opLive, pendS, rightIdle, rightInj, pendKey, pendGap, notFirst, lockNext, lockLs, s4Ls, s3Next, sPrev, u3p, holdsP, u5p, next, prev, dead, markSome, marked⟩ := h
  have u5Ls : ∀ m nx p, s.op m = .u5 nx p → s.ls m = nx := fun m nx p h => lockLs m nx (by simp [h, Op.locked]) (by simp [h, Op.half])
  have hls : s.ls n = nx := lockLs n nx (by simp [ho, Op.locked]) (by simp [ho, Op.half])
  have hlk := lockNext n nx (by simp [ho, Op.locked])
  have hh := holdsP n p (by simp [ho, Op.holds])
  constructor
  all_goals dsimp only
  case first =>
    cases nx <;> clear * - first lsp hls <;> auto
  case rightInj =>
    clear * - rightInj ho 
    auto
  case pendKey =>
    clear * - pendKey ho 
    auto
  case pendGap =>
    clear * - pendGap ho 
    auto
  case lockNext =>
    clear * - lockNext ho 
    auto
  case s4Ls =>
    have keep : ∀ {a t}, Leads s a t → Leads _ a t := fun h => Leads.keep (s := s) (s' := { s with prev := assign s.prev nx p, op := update s.op n (.u5 nx p) }) (fun b hb => ⟨hb, rfl⟩) h
    intro m r x h
    have hm : m ≠ n := by rintro rfl; simp at h
    simp only [Function.update_of_ne hm] at h
    exact ⟨(s4Ls m r x h).1, keep (s4Ls m r x h).2⟩
  case sPrev =>
    cases nx <;> clear * - sPrev ho hls lsp pendS <;> auto
  case holdsP =>
    clear * - holdsP ho 
    auto
  case u5p =>
    cases nx <;> clear * - u5p u5Ls lsp ho hls <;> auto
  case prev =>
    cases nx <;> clear * - prev ho hls lsp <;> auto
  case marked =>
    clear * - marked ho 
    auto
  case lsp => auto
  case lps => auto
  case others => auto
  case keyInj => auto
  case opLive => auto
  case pendS => auto
  case rightIdle => auto
  case notFirst => auto
  case lockLs => auto
  case s3Next => auto
  case u3p => auto
  case next => auto
  case dead => auto
  case markSome => auto

set_option maxHeartbeats 1000000 in
theorem inv_u5 {key : Nat → Nat} {s : State} (h : Inv key s) (n p : Nat) (nx : Option Nat) (ho : s.op n = .u5 nx p) : Inv key { s with
        next := update s.next p nx, mark := update s.mark p false, op := update s.op n .idle,
        status := update s.status n .dead, ls := update (update s.ls p nx) n none, lp := update (assign s.lp nx p) n none,
        all := s.all.filter fun x => x ≠ n } := by
  obtain ⟨lsp, lps, first, others, keyInj, opLive, pendS, rightIdle, rightInj, pendKey, pendGap, notFirst, lockNext, lockLs, s4Ls, s3Next, sPrev, u3p, holdsP, u5p, next, prev, dead, markSome, marked⟩ := h
  have hnl : s.status n = .live := opLive n (by simp [ho])
  have hls : s.ls n = nx := lockLs n nx (by simp [ho, Op.locked]) (by simp [ho, Op.half])
  have hlk := lockNext n nx (by simp [ho, Op.locked])
  have hh := holdsP n p (by simp [ho, Op.holds])
  have hn0 := notFirst n (by simp [ho, Op.unlinks])
  have hk1 := (lsp p n hh.1).2.2.2
  have hne : p ≠ n := by rintro rfl; omega
  have hpl := (lsp p n hh.1).2.1
  have hpb : ∀ b, nx = some b → s.prev b = some p := by rintro b rfl; exact u5p n p b ho
  constructor
  all_goals dsimp only
  case lsp =>
    cases nx <;> clear * - lsp lps hls hh hk1 hne <;> auto
  case lps =>
    cases nx <;> clear * - lsp lps hls hh hk1 hne <;> auto
  case first =>
    cases nx <;> clear * - lsp lps hls hh hk1 hne first hn0 <;> auto
  case others =>
    cases nx <;> clear * - lsp lps hls hh hk1 hne others <;> auto
  case rightInj =>
    clear * - rightInj ho 
    auto
  case pendKey =>
    clear * - pendKey ho 
    auto
  case pendGap =>
    clear * - pendGap ho 
    auto
  case s4Ls =>
    have keep : ∀ {a t}, Leads s a t → Leads _ a t := fun h => Leads.keep (s := s) (s' := { s with next := update s.next p nx, mark := update s.mark p false, op := update s.op n .idle, status := update s.status n .dead, ls := update (update s.ls p nx) n none, lp := update (assign s.lp nx p) n none, all := s.all.filter fun x => x ≠ n }) (fun b hb => ⟨by
        simp only [Function.update_apply]; split <;> simp [hb], by
        simp only [Function.update_apply]; rw [if_neg (by rintro rfl; simp [hpl] at hb)]⟩) h
    intro m r x h
    have hm : m ≠ n := by rintro rfl; simp at h
    simp only [Function.update_of_ne hm] at h
    obtain ⟨h1, h2⟩ := s4Ls m r x h
    have hmp : m ≠ p := by rintro rfl; have := hh.2.2.2; simp [h, Op.locked] at this
    have hrn : r ≠ n := by rintro rfl; have := rightIdle m r (by simp [h, Op.right]); simp [ho] at this
    rw [Function.update_of_ne hm, Function.update_of_ne hmp, Function.update_of_ne hrn]
    refine ⟨h1, ?_⟩
    by_cases hrp : r = p
    · subst hrp
      rw [Function.update_self]
      rw [hh.1] at h2
      refine (keep h2).trans (.dead (Function.update_self ..) ?_)
      dsimp only
      rw [Function.update_of_ne (Ne.symm hne), hlk.1]
      exact .refl _
    · rw [Function.update_of_ne hrp]
      exact keep h2
  case u5p =>
    clear * - u5p ho 
    auto
  case prev =>
    cases nx <;> clear * - lsp lps hls hh hk1 hne prev hpb ho <;> auto
  case keyInj => auto
  case opLive => auto
  case pendS => auto
  case rightIdle => auto
  case notFirst => auto
  case lockNext => auto
  case lockLs => auto
  case s3Next => auto
  case sPrev => auto
  case u3p => auto
  case holdsP => auto
  case next => auto
  case dead => auto
  case markSome => auto
  case marked => auto

theorem step_inv {key : Nat → Nat} {s s' : State} (h : Inv key s) (st : Step key s s') : Inv key s' := by
  cases st with
  | split n nr hn ho hl hr hk hk' => exact inv_split h n nr hn ho hl hr hk hk'
  | s0 n nr ho => exact inv_s0 h n nr ho
  | s1null n nr ho hx => exact inv_s1null h n nr ho hx
  | s1 n nr b ho hx hm => exact inv_s1 h n nr b ho hx hm
  | s2 n nr nx ho => exact inv_s2 h n nr nx ho
  | s3 n nr nx ho => exact inv_s3 h n nr nx ho
  | s4 n nr nx ho => exact inv_s4 h n nr nx ho
  | unlink n hn ho hl hp => exact inv_unlink h n hn ho hl hp
  | u1null n ho hx => exact inv_u1null h n ho hx
  | u1 n b ho hx hm => exact inv_u1 h n b ho hx hm
  | u2 n p nx ho hp => exact inv_u2 h n p nx ho hp
  | u3 n p nx ho hx hm => exact inv_u3 h n p nx ho hx hm
  | u3fail n p nx ho hx => exact inv_u3fail h n p nx ho hx
  | u4 n p nx ho => exact inv_u4 h n p nx ho
  | u5 n p nx ho => exact inv_u5 h n p nx ho

theorem reachable_inv {key : Nat → Nat} {s : State} (h : Reachable key s) : Inv key s := by
  induction h with
  | init => exact init_inv key
  | step _ st ih => exact step_inv ih st

end Verif.Leaflink
