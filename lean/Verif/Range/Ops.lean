import Verif.Range.Paths
import Verif.Props.C11
import Verif.Props.C47

/-!
# Operations on the whole tree

An operation goes down through the layers: in each layer but the last it looks up a slice and finds a link.
-/
namespace Verif.Range

open Verif.Key (Bytes slice)

variable {W : Type} {L : Nat → Lay W}

/-- Thread `i`, whose operation on key `κ` begins at time `a`, is at time `b` at layer `l` with the rest `k` of the key:
/repo/masstree_get.hh:49-55 and 91-95. -/
inductive Down (L : Nat → Lay W) (i a : Nat) (κ : Bytes) : Nat → Bytes → Nat → Prop where
  | root {b : Nat} (h : a ≤ b) : Down L i a κ 0 κ b
  | down {l l' b a' b' c : Nat} {k : Bytes} (h : Down L i a κ l k b) (h1 : b ≤ a')
      (hl : (L l).Looks i k a' b' (some (.link l'))) (h2 : b' ≤ c) : Down L i a κ l' (k.drop 8) c

/-- A lookup in a layer reads an entry that was there. -/
theorem Lay.Looks.seen {y : Lay W} (hr : y.Runs) {i a b : Nat} {k : Bytes} {v : Option (Ent W)} (h : y.Looks i k a b v) :
    a < b ∧ ∃ t, a < t ∧ t ≤ b ∧ entry (y.hist.m t) (pos k) = v := by
  cases y with
  | blink r =>
    obtain ⟨h1, h2, g, h3, h4⟩ := h
    obtain ⟨t, t1, t2, t3⟩ := Props.C11.lookup hr h1 h3
    refine ⟨h1.lt, t, t1, t2, ?_⟩
    show entry ((r t).m) (pos k) = v
    unfold entry
    rw [pos_div, pos_mod, ← h2, t3, h4]
  | prune up r =>
    obtain ⟨h1, h2, g, h3, h4⟩ := h
    obtain ⟨t, t1, t2, t3⟩ := Props.C47.lookup hr h1 h3
    refine ⟨h1.lt, t, t1, t2, ?_⟩
    show entry ((r t).m) (pos k) = v
    unfold entry
    rw [pos_div, pos_mod, ← h2, t3, h4]

theorem World.looks (h : World L) {l i a b : Nat} {k : Bytes} {v : Option (Ent W)} (hl : (L l).Looks i k a b v) :
    a < b ∧ ∃ t, a < t ∧ t ≤ b ∧ at_ L t l (pos k) = v := hl.seen (h.runs l)

theorem Down.le (h : World L) {i a l b : Nat} {κ k : Bytes} (hd : Down L i a κ l k b) : a ≤ b := by
  induction hd with
  | root h => exact h
  | down _ h1 hl h2 ih => have := (h.looks hl).1; omega

/-- What is found below a layer was, at some time, what is in the tree. -/
theorem World.below (h : World L) {i a l b : Nat} {κ k : Bytes} (hd : Down L i a κ l k b) {t : Nat} (ht : b ≤ t) :
    ∃ u, a ≤ u ∧ u ≤ t ∧ get L u κ = find (fun l => (L l).hist) t l k := by
  induction hd generalizing t with
  | root h => exact ⟨t, by omega, Nat.le_refl _, rfl⟩
  | @down l l' b a' b' c k hd h1 hl h2 ih =>
    obtain ⟨_, u, u1, u2, u3⟩ := h.looks hl
    have hlong := (h.slot u3).1.long
    -- the link stays until t, or is removed at some time
    have key : ∀ d, at_ L (u + d) l (pos k) = some (.link l') ∨
        ∃ x, u ≤ x ∧ x < u + d ∧ at_ L (x + 1) l (pos k) = none ∧ ∃ z, z ≤ x ∧ (L l').Shut z := by
      intro d
      induction d with
      | zero => exact Or.inl u3
      | succ d ihd =>
        rcases ihd with h3 | ⟨x, x1, x2, x3⟩
        · rcases h.held h3 with h4 | ⟨h4, h5⟩
          · exact Or.inl h4
          · exact Or.inr ⟨u + d, by omega, by omega, h4, h5⟩
        · exact Or.inr ⟨x, x1, by omega, x3⟩
    rcases key (t - u) with h3 | ⟨x, x1, x2, x3, z, z1, x4⟩
    · rw [show u + (t - u) = t by omega] at h3
      obtain ⟨v, v1, v2, v3⟩ := ih (t := t) (by omega)
      exact ⟨v, v1, v2, by rw [v3, at_link h3 hlong]⟩
    · obtain ⟨v, v1, v2, v3⟩ := ih (t := x + 1) (by omega)
      refine ⟨v, v1, by omega, ?_⟩
      rw [v3, at_none x3, at_none (h.shut x4 (by omega) _)]

/-- The value that a lookup takes from the entry it has found in the last layer. -/
def value (k : Bytes) : Option (Ent W) → Option (Option W)
  | none => some none
  | some (.val w) => some (some w)
  | some (.suf ρ w) => some (if ρ = k.drop 8 then some w else none)
  | some (.link _) => none

theorem value_find {t l : Nat} {k : Bytes} {v : Option W} (hv : value k (at_ L t l (pos k)) = some v) :
    find (fun l => (L l).hist) t l k = v := by
  cases he : at_ L t l (pos k) with
  | none => rw [he] at hv; rw [at_none he]; exact Option.some.inj hv
  | some e =>
    rw [he] at hv
    cases e with
    | val w => rw [at_val he]; exact Option.some.inj hv
    | suf ρ w => rw [at_suf he]; exact Option.some.inj hv
    | link l' => cases hv

/-! ### Where an update takes effect -/

/-- A link to a layer with entries was there all the time. -/
theorem World.linked (h : World L) {u x v l p m : Nat} (he : at_ L u l p = some (.link m)) (h1 : u ≤ x) (h2 : x ≤ v)
    (hn : ∃ q, at_ L v m q ≠ none) : at_ L x l p = some (.link m) := by
  have key : ∀ d, u + d ≤ v → at_ L (u + d) l p = some (.link m) := by
    intro d
    induction d with
    | zero => intro _; exact he
    | succ d ih =>
      intro hd
      rcases h.held (ih (by omega)) with h3 | ⟨_, z, hz, h3⟩
      · exact h3
      · obtain ⟨q, hq⟩ := hn
        exact absurd (h.shut h3 (by omega) q) hq
  have := key (x - u) (by omega)
  rwa [show u + (x - u) = x by omega] at this

/-- The layer a thread has come to is attached as long as it has entries. -/
theorem World.attached (h : World L) {i a l b : Nat} {κ k : Bytes} (hd : Down L i a κ l k b) {x v : Nat} (h1 : b ≤ x) (h2 : x ≤ v)
    (hn : ∃ q, at_ L v l q ≠ none) : ∃ pre, κ = pre ++ k ∧ Path L x l pre := by
  induction hd generalizing x v with
  | root _ => exact ⟨[], rfl, .root⟩
  | @down l l' b a' b' c k hd h3 hl h4 ih =>
    obtain ⟨_, u, u1, u2, u3⟩ := h.looks hl
    have e1 := h.linked u3 (x := x) (by omega) h2 hn
    have e2 := h.linked u3 (x := v) (by omega) (Nat.le_refl _) hn
    obtain ⟨pre, p1, p2⟩ := ih (x := x) (v := v) (by omega) h2 ⟨pos k, by rw [e2]; simp⟩
    refine ⟨pre ++ keyAt (pos k), ?_, .down p2 e1⟩
    rw [keyAt_pos, List.append_assoc, List.take_append_drop, p1]

theorem Down.ne (h : World L) {i a l b : Nat} {κ k : Bytes} (hd : Down L i a κ l k b) : k ≠ [] ∨ l = 0 := by
  cases hd with
  | root _ => exact Or.inr rfl
  | down hd _ hl _ =>
    obtain ⟨_, u, _, _, u3⟩ := h.looks hl
    have := (h.slot u3).1.long
    refine Or.inl fun h1 => ?_
    have := congrArg List.length h1
    rw [List.length_drop, List.length_nil] at this
    omega

/-- A thread that has come down to a layer and changes the entry of its key there changes the value of its key in the tree,
from what it has found, and no other. -/
theorem World.effect (h : World L) {i a l b t : Nat} {κ k : Bytes} {v : Option W} (hd : Down L i a κ l k b) (ht : b ≤ t)
    (hw : Writes L t l k v) (hc : at_ L (t + 1) l (pos k) ≠ at_ L t l (pos k)) :
    get L t κ = find (fun l => (L l).hist) t l k ∧ get L (t + 1) = Function.update (get L t) κ v := by
  have hp : ∃ pre, κ = pre ++ k ∧ Path L t l pre := by
    cases hw with
    | put w he => exact h.attached hd ht (v := t + 1) (by omega) ⟨_, by rw [he]; simp⟩
    | remove w he _ => exact h.attached hd ht (v := t) (by omega) ⟨_, by rw [he]; simp⟩
  obtain ⟨pre, rfl, hp⟩ := hp
  exact ⟨h.path_find hp (hd.ne h), h.written hc hp (hd.ne h) hw⟩

/-- Thread `i` begins an update `f` of the slice of `k` in the layer after time `a` and returns from it after time `b`. -/
def Lay.Updates (i : Nat) (k : Bytes) (f : Option (Nat → Option (Ent W)) → Option (Nat → Option (Ent W))) (a b : Nat) : Lay W → Prop
  | .blink r => Blink.Op r i a b ∧ (r b).key i = slice k ∧ (r b).fn i = some f ∧ (r (b + 1)).pc i = .idle
  | .prune _ r => Prune.Op r i a b ∧ (r b).key i = slice k ∧ (r b).fn i = some f ∧ (r (b + 1)).pc i = .idle

/-- The update changes only the entry of `k`, by `φ`. -/
def Edits (k : Bytes) (f : Option (Nat → Option (Ent W)) → Option (Nat → Option (Ent W)))
    (φ : Option (Ent W) → Option (Ent W)) : Prop :=
  ∀ g q, (f g).bind (· q) = if q = min k.length 9 then φ (g.bind (· q)) else g.bind (· q)

theorem entry_update {m : Nat → Option (Nat → Option (Ent W))} {k : Bytes}
    {f : Option (Nat → Option (Ent W)) → Option (Nat → Option (Ent W))} {φ : Option (Ent W) → Option (Ent W)} (hf : Edits k f φ)
    (p : Nat) : entry (Function.update m (slice k) (f (m (slice k)))) p = if p = pos k then φ (entry m p) else entry m p := by
  unfold entry
  by_cases h : p / 16 = slice k
  · rw [h, Function.update_self, hf]
    have : p = pos k ↔ p % 16 = min k.length 9 := by unfold pos; omega
    simp only [this]
  · rw [Function.update_of_ne h]
    have : p ≠ pos k := by unfold pos; omega
    rw [if_neg this]

/-- An update that has returned has changed its entry once. -/
theorem Lay.Updates.once {y : Lay W} (hr : y.Runs) {i a b : Nat} {k : Bytes}
    {f : Option (Nat → Option (Ent W)) → Option (Nat → Option (Ent W))} {φ : Option (Ent W) → Option (Ent W)} (hf : Edits k f φ)
    (h : y.Updates i k f a b) :
    ∃ t, a < t ∧ t < b ∧ ∀ p, entry (y.hist.m (t + 1)) p = if p = pos k then φ (entry (y.hist.m t) p) else entry (y.hist.m t) p := by
  cases y with
  | blink r =>
    have hr : Blink.Run r := hr
    obtain ⟨h1, h2, h3, h4⟩ := h
    obtain ⟨t, t1, t2, t3, _⟩ := Props.C11.update hr h1 h3 h4
    refine ⟨t, t1, t2, fun p => ?_⟩
    have hk := (Blink.Op.const hr h1 t t1 (by omega)).1
    rcases hr.step t with h5 | h5
    · obtain ⟨_, n, h6, h7⟩ := t3
      rw [h5, h6] at h7; cases h7
    · rcases Blink.step_map (hr.inv t) h5 with ⟨_, h6⟩ | ⟨j, g, h6, h7, _, h8⟩
      · exact absurd t3 (h6 i f)
      · obtain rfl := h8 i f t3
        have : g = f := Option.some.inj (h6.1.symm.trans t3.1)
        subst this
        show entry ((r (t + 1)).m) p = _
        rw [h7, hk, h2]
        exact entry_update hf p
  | prune up r =>
    have hr : Prune.TidyRun up r := hr
    obtain ⟨h1, h2, h3, h4⟩ := h
    obtain ⟨t, t1, t2, t3, _⟩ := Props.C47.update hr.toRun h1 h3 h4
    refine ⟨t, t1, t2, fun p => ?_⟩
    have hk := (Prune.Op.const hr.toRun h1 t t1 (by omega)).1
    rcases hr.step t with h5 | h5
    · obtain ⟨_, n, h6, h7⟩ := t3
      rw [h5, h6] at h7; cases h7
    · rcases Prune.step_map (hr.inv t) h5 with ⟨_, h6⟩ | ⟨j, g, h6, h7, _, h8⟩
      · exact absurd t3 (h6 i f)
      · obtain rfl := h8 i f t3
        have : g = f := Option.some.inj (h6.1.symm.trans t3.1)
        subst this
        show entry ((r (t + 1)).m) p = _
        rw [h7, hk, h2]
        exact entry_update hf p

/-- The map of a layer changes only when a thread publishes. -/
theorem Lay.published {y : Lay W} (hr : y.Runs) {t p : Nat} (hc : entry (y.hist.m (t + 1)) p ≠ entry (y.hist.m t) p) :
    ∃ i n, match y with
      | .blink r => (r t).pc i = .hold n ∧ (r (t + 1)).pc i = .pub n ∧ (r t).key i = p / 16
      | .prune _ r => (r t).pc i = .hold n ∧ (r (t + 1)).pc i = .pub n ∧ (r t).key i = p / 16 := by
  cases y with
  | blink r =>
    have hr : Blink.Run r := hr
    change entry ((r (t + 1)).m) p ≠ entry ((r t).m) p at hc
    rcases hr.step t with h5 | h5
    · rw [h5] at hc; exact absurd rfl hc
    · rcases Blink.step_map (hr.inv t) h5 with ⟨h6, _⟩ | ⟨j, g, ⟨_, n, h6, h7⟩, h8, _⟩
      · rw [h6] at hc; exact absurd rfl hc
      · refine ⟨j, n, h6, h7, ?_⟩
        by_contra hk
        rw [h8] at hc
        unfold entry at hc
        rw [Function.update_of_ne (Ne.symm hk)] at hc
        exact hc rfl
  | prune up r =>
    have hr : Prune.TidyRun up r := hr
    change entry ((r (t + 1)).m) p ≠ entry ((r t).m) p at hc
    rcases hr.step t with h5 | h5
    · rw [h5] at hc; exact absurd rfl hc
    · rcases Prune.step_map (hr.inv t) h5 with ⟨h6, _⟩ | ⟨j, g, ⟨_, n, h6, h7⟩, h8, _⟩
      · rw [h6] at hc; exact absurd rfl hc
      · refine ⟨j, n, h6, h7, ?_⟩
        by_contra hk
        rw [h8] at hc
        unfold entry at hc
        rw [Function.update_of_ne (Ne.symm hk)] at hc
        exact hc rfl

end Verif.Range
