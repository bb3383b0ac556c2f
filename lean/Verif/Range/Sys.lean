import Verif.Range.Ops

/-!
# What threads publish

A history as in `Verif.Range.World` arises if every publication is one of `Role`.
-/
namespace Verif.Range

open Verif.Key (Bytes slice)

variable {W : Type}

/-- What an insertion of `w` does to the entry: a link, or the suffix of another key, it leaves
(/repo/masstree_insert.hh:30-38 and 62-122; the operation goes on). -/
def putting (k : Bytes) (w : W) : Option (Ent W) → Option (Ent W)
  | some (.link m) => some (.link m)
  | some (.suf ρ w') => if ρ = k.drop 8 then some (ent k w) else some (.suf ρ w')
  | _ => some (ent k w)

/-- What a removal does: /repo/masstree_remove.hh:146-178. -/
def removing (k : Bytes) : Option (Ent W) → Option (Ent W)
  | some (.link m) => some (.link m)
  | some (.suf ρ w') => if ρ = k.drop 8 then none else some (.suf ρ w')
  | _ => none

/-- What a thread does that has made the layer `l'` for a key with the suffix `ρ`: /repo/masstree_insert.hh:103-121. -/
def layering (ρ : Bytes) (l' : Nat) : Option (Ent W) → Option (Ent W)
  | some (.suf ρ' w) => if ρ' = ρ then some (.link l') else some (.suf ρ' w)
  | e => e

/-- What the collection of layer `l'` does: /repo/masstree_remove.hh:142-143 and 168-170. -/
def collecting (l' : Nat) : Option (Ent W) → Option (Ent W)
  | some (.link m) => if m = l' then none else some (.link m)
  | e => e

/-- Thread `i` publishes the update `f` in the layer, at time `t`. -/
def Lay.Publishes (t i : Nat) (f : Option (Nat → Option (Ent W)) → Option (Nat → Option (Ent W))) : Lay W → Prop
  | .blink r => Blink.Publishes (r t) (r (t + 1)) i f
  | .prune _ r => Prune.Publishes (r t) (r (t + 1)) i f

/-- The slice it does that for. -/
def Lay.key (t i : Nat) : Lay W → Nat
  | .blink r => (r t).key i
  | .prune _ r => (r t).key i

/-- What a thread may publish for the key `k` of layer `l`. -/
inductive Role (L : Nat → Lay W) (t l : Nat) (k : Bytes) (f : Option (Nat → Option (Ent W)) → Option (Nat → Option (Ent W))) :
    Prop where
  | put (w : W) (hf : Edits k f (putting k w))
  | remove (hf : Edits k f (removing k))
  /-- The new layer has the key that was there, and is not yet in the tree. -/
  | layer (ρ : Bytes) (l' : Nat) (hf : Edits k f (layering ρ l')) (h0 : l' ≠ 0)
      (hn : ∀ w, at_ L t l (pos k) = some (.suf ρ w) → (∀ m q, at_ L t m q ≠ some (.link l')) ∧ Twig L t l' ρ w)
  /-- The layer has been marked. -/
  | collect (l' : Nat) (hf : Edits k f (collecting l')) (hs : at_ L t l (pos k) = some (.link l') → ∃ x, x ≤ t ∧ (L l').Shut x)
  /-- The thread has locked a leaf and found that it has nothing to do there. -/
  | skip (hf : Edits k f id)

structure Sys (L : Nat → Lay W) : Prop where
  runs : ∀ l, (L l).Runs
  fits : ∀ l p e, at_ L 0 l p = some e → Fits l p e
  once : ∀ l p l' p' m, at_ L 0 l p = some (.link m) → at_ L 0 l' p' = some (.link m) → l = l' ∧ p = p'
  role : ∀ t l i f, (L l).Publishes t i f → ∃ k, (L l).key t i = slice k ∧ (l ≠ 0 → k ≠ []) ∧ Role L t l k f
  /-- One access at a time. -/
  one : ∀ t l i f l' i' f', (L l).Publishes t i f → (L l').Publishes t i' f' → l = l'

variable {L : Nat → Lay W}

/-- A publication changes the layer so; nothing else does. -/
theorem Lay.next {y : Lay W} (hr : y.Runs) (t : Nat) :
    (∀ p, entry (y.hist.m (t + 1)) p = entry (y.hist.m t) p) ∨
    ∃ i f, y.Publishes t i f ∧ ∀ k φ, y.key t i = slice k → Edits k f φ →
      ∀ p, entry (y.hist.m (t + 1)) p = if p = pos k then φ (entry (y.hist.m t) p) else entry (y.hist.m t) p := by
  cases y with
  | blink r =>
    have hr : Blink.Run r := hr
    rcases hr.step t with h5 | h5
    · left; intro p; show entry ((r (t + 1)).m) p = _; rw [h5]; rfl
    · rcases Blink.step_map (hr.inv t) h5 with ⟨h6, _⟩ | ⟨j, g, h6, h8, _⟩
      · left; intro p; show entry ((r (t + 1)).m) p = _; rw [h6]; rfl
      · right
        refine ⟨j, g, h6, fun k φ hk hf p => ?_⟩
        change (r t).key j = slice k at hk
        show entry ((r (t + 1)).m) p = _
        rw [h8, hk]
        exact entry_update hf p
  | prune up r =>
    have hr : Prune.TidyRun up r := hr
    rcases hr.step t with h5 | h5
    · left; intro p; show entry ((r (t + 1)).m) p = _; rw [h5]; rfl
    · rcases Prune.step_map (hr.inv t) h5 with ⟨h6, _⟩ | ⟨j, g, h6, h8, _⟩
      · left; intro p; show entry ((r (t + 1)).m) p = _; rw [h6]; rfl
      · right
        refine ⟨j, g, h6, fun k φ hk hf p => ?_⟩
        change (r t).key j = slice k at hk
        show entry ((r (t + 1)).m) p = _
        rw [h8, hk]
        exact entry_update hf p

/-- Every role has an effect on one entry. -/
theorem Role.edits {t l : Nat} {k : Bytes} {f : Option (Nat → Option (Ent W)) → Option (Nat → Option (Ent W))}
    (h : Role L t l k f) : ∃ φ, Edits k f φ := by
  cases h with
  | put w hf => exact ⟨_, hf⟩
  | remove hf => exact ⟨_, hf⟩
  | layer ρ l' hf _ _ => exact ⟨_, hf⟩
  | collect l' hf _ => exact ⟨_, hf⟩
  | skip hf => exact ⟨_, hf⟩

/-- Where a layer changes. -/
theorem Sys.spot (h : Sys L) (t l : Nat) :
    (∀ p, at_ L (t + 1) l p = at_ L t l p) ∨
    ∃ i f k, (L l).Publishes t i f ∧ (l ≠ 0 → k ≠ []) ∧ Role L t l k f ∧
      ∀ φ, Edits k f φ → ∀ p, at_ L (t + 1) l p = if p = pos k then φ (at_ L t l p) else at_ L t l p := by
  rcases Lay.next (h.runs l) t with h1 | ⟨i, f, h1, h2⟩
  · exact Or.inl h1
  · obtain ⟨k, k1, k2, k3⟩ := h.role t l i f h1
    exact Or.inr ⟨i, f, k, h1, k2, k3, fun φ hf => h2 k φ k1 hf⟩

theorem Sys.single (h : Sys L) {t l p l' p' : Nat} (h1 : at_ L (t + 1) l p ≠ at_ L t l p)
    (h2 : at_ L (t + 1) l' p' ≠ at_ L t l' p') : l = l' ∧ p = p' := by
  rcases h.spot t l with h3 | ⟨i, f, k, k1, _, k3, k4⟩
  · exact absurd (h3 p) h1
  obtain ⟨φ, hφ⟩ := k3.edits
  have e : ∀ q, at_ L (t + 1) l q ≠ at_ L t l q → q = pos k := by
    intro q hq
    by_contra hn
    rw [k4 φ hφ q, if_neg hn] at hq
    exact hq rfl
  rcases h.spot t l' with h3 | ⟨i', f', k', k1', _⟩
  · exact absurd (h3 p') h2
  obtain rfl := h.one t l i f l' i' f' k1 k1'
  exact ⟨rfl, (e p h1).trans (e p' h2).symm⟩

theorem ent_short {k : Bytes} (w : W) (hk : k.length ≤ 8) : ent k w = .val w := if_pos hk

theorem ent_long {k : Bytes} (w : W) (hk : 8 < k.length) : ent k w = .suf (k.drop 8) w := if_neg (by omega)

theorem drop_ne {k : Bytes} (hk : 8 < k.length) : k.drop 8 ≠ [] := by
  intro h1
  have := congrArg List.length h1
  rw [List.length_drop, List.length_nil] at this
  omega

theorem slot_long {k : Bytes} (hk : 8 < k.length) : Slot (pos k) := by
  refine ⟨k.take 8, by rw [List.length_take]; omega, ?_⟩
  rw [Key.slice_take8]
  unfold pos
  omega

/-- What is published changes the tree as in `Change`. -/
theorem Sys.change (h : Sys L) {t l p : Nat} (hh : Holds L t) (hc : at_ L (t + 1) l p ≠ at_ L t l p) :
    Change L t l p (at_ L t l p) (at_ L (t + 1) l p) := by
  rcases h.spot t l with h3 | ⟨i, f, k, _, hk, hr, h4⟩
  · exact absurd (h3 p) hc
  have hp : p = pos k := by
    obtain ⟨φ, hφ⟩ := hr.edits
    by_contra hn
    rw [h4 φ hφ p, if_neg hn] at hc
    exact hc rfl
  subst hp
  have h5 : ∀ φ, Edits k f φ → at_ L (t + 1) l (pos k) = φ (at_ L t l (pos k)) := by
    intro φ hφ
    rw [h4 φ hφ, if_pos rfl]
  have short : ∀ w, at_ L t l (pos k) = some (.val w) → k.length ≤ 8 := by
    intro w hw
    cases hh.fits l _ _ hw with
    | val k' _ hk' hp _ => obtain rfl := eq_of_pos hp.symm hk'; exact hk'
  have long : ∀ ρ w, at_ L t l (pos k) = some (.suf ρ w) → 8 < k.length := by
    intro ρ w hw
    cases hh.fits l _ _ hw with
    | suf _ _ hp _ => exact hp.long
  generalize hv : at_ L t l (pos k) = v at *
  cases hr with
  | put w hf =>
    have h6 := h5 _ hf
    rw [h6] at hc ⊢
    match v with
    | none =>
      show Change L t l (pos k) none (some (ent k w))
      by_cases hl : k.length ≤ 8
      · rw [ent_short w hl]
        exact .put none k w hl rfl hk fun e he => nomatch he
      · rw [ent_long w (by omega)]
        exact .putLong none _ w (slot_long (by omega)) (drop_ne (by omega)) fun e he => nomatch he
    | some (.val w') =>
      have hl := short w' rfl
      show Change L t l (pos k) _ (some (ent k w))
      rw [ent_short w hl]
      exact .put _ k w hl rfl hk fun e he => ⟨w', (Option.some.inj he).symm⟩
    | some (.suf ρ w') =>
      have hl := long ρ w' rfl
      have h7 : putting k w (some (.suf ρ w')) = if ρ = k.drop 8 then some (ent k w) else some (.suf ρ w') := rfl
      rw [h7] at hc ⊢
      by_cases hρ : ρ = k.drop 8
      · rw [if_pos hρ, ent_long w hl]
        subst hρ
        exact .putLong _ _ w (slot_long hl) (drop_ne hl) fun e he => ⟨w', (Option.some.inj he).symm⟩
      · rw [if_neg hρ] at hc; exact absurd rfl hc
    | some (.link m) => exact absurd rfl hc
  | remove hf =>
    have h6 := h5 _ hf
    rw [h6] at hc ⊢
    match v with
    | none => exact absurd rfl hc
    | some (.val w') => exact .remove w'
    | some (.suf ρ w') =>
      have h7 : removing k (some (.suf ρ w')) = if ρ = k.drop 8 then none else some (.suf ρ w') := rfl
      rw [h7] at hc ⊢
      by_cases hρ : ρ = k.drop 8
      · rw [if_pos hρ]; exact .removeLong ρ w'
      · rw [if_neg hρ] at hc; exact absurd rfl hc
    | some (.link m) => exact absurd rfl hc
  | layer ρ l' hf h0 hn =>
    have h6 := h5 _ hf
    rw [h6] at hc ⊢
    match v with
    | none => exact absurd rfl hc
    | some (.val w') => exact absurd rfl hc
    | some (.suf ρ' w') =>
      have h7 : layering ρ l' (some (.suf ρ' w')) = if ρ' = ρ then some (.link l') else some (.suf ρ' w') := rfl
      rw [h7] at hc ⊢
      by_cases hρ : ρ' = ρ
      · subst hρ
        rw [if_pos rfl]
        obtain ⟨n1, n2⟩ := hn w' (by first | rfl | exact hv)
        exact .layer ρ' w' l' h0 n1 n2
      · rw [if_neg hρ] at hc; exact absurd rfl hc
    | some (.link m) => exact absurd rfl hc
  | collect l' hf hs =>
    have h6 := h5 _ hf
    rw [h6] at hc ⊢
    match v with
    | none => exact absurd rfl hc
    | some (.val w') => exact absurd rfl hc
    | some (.suf ρ' w') => exact absurd rfl hc
    | some (.link m) =>
      have h7 : collecting l' (some (Ent.link m : Ent W)) = if m = l' then none else some (.link m) := rfl
      rw [h7] at hc ⊢
      by_cases hm : m = l'
      · subst hm
        rw [if_pos rfl]
        obtain ⟨x, x1, x2⟩ := hs (by first | rfl | exact hv)
        exact .collect m x x1 x2
      · rw [if_neg hm] at hc; exact absurd rfl hc
  | skip hf =>
    have h6 := h5 _ hf
    rw [h6] at hc
    exact absurd rfl hc

theorem Sys.world (h : Sys L) : World L := by
  have hh : ∀ t, Holds L t := by
    intro t
    induction t with
    | zero => exact ⟨h.fits, h.once⟩
    | succ t ih => exact ih.next (fun l p hc => h.change ih hc) fun l p l' p' h1 h2 => h.single h1 h2
  exact ⟨h.runs, h.fits, h.once, fun t l p hc => h.change (hh t) hc, fun t l p l' p' h1 h2 => h.single h1 h2⟩

end Verif.Range
