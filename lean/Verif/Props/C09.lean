import Verif.LeafRead.Frozen

/-!
# C09: lock-free readers only trust consistent node contents

A reader takes a stable version of a leaf at time `a`, reads the permutation at `tp`, reads fields of the active slots at any
times in any order, and finds the version unchanged at `b` (`find_unlocked`, /repo/masstree_get.hh:23-57).
-/
namespace Verif.Props.C09

open Verif.NodeVersion Verif.LeafRead

variable {V : Type}

/-- The reader's version check succeeded. -/
structure Validated (r : Run V) (a tp b : Nat) : Prop where
  order : a ≤ tp ∧ tp ≤ b
  /-- `stable` returned -/
  stable : isDirty (r.at_ a).v = false
  /-- `has_changed` said no -/
  same : hasChanged (r.at_ b).v (r.at_ a).v = false
  /-- the lock was released fewer than 2^19 times in between -/
  few : (r.at_ b).sessions < (r.at_ a).sessions + 2 ^ 19

/-- The first eight bytes, the key length and the suffix of every slot of the permutation read at `tp` are those at `tp`,
whenever they are read, and from whichever suffix container was current at any time. -/
theorem keys_frozen {r : Run V} {a tp b : Nat} (h : Validated r a tp b) {p : Nat} (hp : p ∈ (r.at_ tp).mem.perm) {t : Nat}
    (h1 : tp ≤ t) (h2 : t ≤ b) :
    (r.at_ t).mem.ikey p = (r.at_ tp).mem.ikey p ∧ (r.at_ t).mem.lenx p = (r.at_ tp).mem.lenx p ∧
    ((r.at_ tp).mem.lenx p = ksufLenx → ∀ tc, tp ≤ tc → tc ≤ t →
      (r.at_ t).mem.bag (r.at_ tc).mem.cur p = (r.at_ tp).mem.bag (r.at_ tp).mem.cur p) := by
  have hc := r.clean_between (Nat.le_trans h.order.1 h.order.2) h.stable h.same h.few
  obtain ⟨cs, hf, hk⟩ := r.frozen h.order.1 hc (t - tp) (by omega)
  rw [show tp + (t - tp) = t by omega] at hf
  refine ⟨hf.ikey p hp, hf.lenx p hp, fun hl tc h3 h4 => ?_⟩
  have := hk (tc - tp) (by omega)
  rw [show tp + (tc - tp) = tc by omega] at this
  exact hf.suffix _ this p hp hl

/-- The leaf maps the key with first bytes `x`, length code `l` and suffix `b` to `v`. -/
def Entry (s : State V) (x l : Nat) (b : List UInt8) (v : V) : Prop :=
  ∃ p ∈ s.mem.perm, s.mem.ikey p = x ∧ s.mem.lenx p = l ∧ (l = ksufLenx → s.mem.bag s.mem.cur p = b) ∧ s.mem.lv p = v

/-- A validated match is right: if the reader, at the times `t1` to `t5`, saw in an active slot the key it looks for, the
value it read was the value of that key at some instant of the lookup. -/
theorem found {r : Run V} {a tp b : Nat} (h : Validated r a tp b) {p : Nat} (hp : p ∈ (r.at_ tp).mem.perm) {x l : Nat}
    {suf : List UInt8} {v : V} {t1 t2 t3 t4 t5 : Nat} (h1 : tp ≤ t1 ∧ t1 ≤ b) (h2 : tp ≤ t2 ∧ t2 ≤ b)
    (h34 : tp ≤ t3 ∧ t3 ≤ t4 ∧ t4 ≤ b) (h5 : tp ≤ t5 ∧ t5 ≤ b) (hx : (r.at_ t1).mem.ikey p = x)
    (hl : (r.at_ t2).mem.lenx p = l) (hs : l = ksufLenx → (r.at_ t4).mem.bag (r.at_ t3).mem.cur p = suf)
    (hv : (r.at_ t5).mem.lv p = v) : ∃ t, a ≤ t ∧ t ≤ b ∧ Entry (r.at_ t) x l suf v := by
  have hc := r.clean_between (Nat.le_trans h.order.1 h.order.2) h.stable h.same h.few
  obtain ⟨t, k1, k2, k3, k4⟩ := r.last_value h.order.1 hc hp (t5 - tp) (by omega)
  rw [show tp + (t5 - tp) = t5 by omega] at k2 k4
  have ho := h.order
  have f1 := (keys_frozen h hp h1.1 h1.2).1
  have f2 := (keys_frozen h hp h2.1 h2.2).2.1
  have ft := keys_frozen h hp k1 (by omega)
  refine ⟨t, by omega, by omega, p, k3, by rw [ft.1, ← f1, hx], by rw [ft.2.1, ← f2, hl], fun hk => ?_, k4.trans hv⟩
  have hl' : (r.at_ tp).mem.lenx p = ksufLenx := by rw [← f2, hl, hk]
  rw [ft.2.2 hl' t k1 (Nat.le_refl t), ← hs hk,
    (keys_frozen h hp (Nat.le_trans h34.1 h34.2.1) h34.2.2).2.2 hl' t3 h34.1 h34.2.1]

/-- A validated miss is right: if the reader, at times of its choice, saw that no active slot has the key it looks for, the
key was not in the leaf at the time the permutation was read. -/
theorem missing {r : Run V} {a tp b : Nat} (h : Validated r a tp b) {x l : Nat} {suf : List UInt8}
    (hm : ∀ p ∈ (r.at_ tp).mem.perm,
      (∃ t, tp ≤ t ∧ t ≤ b ∧ (r.at_ t).mem.ikey p ≠ x) ∨ (∃ t, tp ≤ t ∧ t ≤ b ∧ (r.at_ t).mem.lenx p ≠ l) ∨
      (l = ksufLenx ∧ ∃ tc t, tp ≤ tc ∧ tc ≤ t ∧ t ≤ b ∧ (r.at_ t).mem.bag (r.at_ tc).mem.cur p ≠ suf)) :
    ¬ ∃ v, Entry (r.at_ tp) x l suf v := by
  rintro ⟨v, p, hp, hx, hl, hs, -⟩
  rcases hm p hp with ⟨t, h1, h2, h3⟩ | ⟨t, h1, h2, h3⟩ | ⟨hk, tc, t, h1, h2, h3, h4⟩
  · exact h3 ((keys_frozen h hp h1 h2).1.trans hx)
  · exact h3 ((keys_frozen h hp h1 h2).2.1.trans hl)
  · exact h4 (((keys_frozen h hp (Nat.le_trans h1 h2) h3).2.2 (hl.trans hk) tc h1 h2).trans (hs hk))

/-- So does every search that looks at the active slots only: whatever it computes from what it saw (`see p` is what it saw of
slot `p`, at the time `τ p`), it would have computed at `tp`. -/
theorem search {r : Run V} {a tp b : Nat} (h : Validated r a tp b) {R : Type} (f : List Nat → (Nat → Nat × Nat) → R)
    (hf : ∀ P g g', (∀ p ∈ P, g p = g' p) → f P g = f P g') (τ σ : Nat → Nat) (hτ : ∀ p, tp ≤ τ p ∧ τ p ≤ b)
    (hσ : ∀ p, tp ≤ σ p ∧ σ p ≤ b) :
    f (r.at_ tp).mem.perm (fun p => ((r.at_ (τ p)).mem.ikey p, (r.at_ (σ p)).mem.lenx p)) =
      f (r.at_ tp).mem.perm (fun p => ((r.at_ tp).mem.ikey p, (r.at_ tp).mem.lenx p)) := by
  refine hf _ _ _ fun p hp => ?_
  rw [(keys_frozen h hp (hτ p).1 (hτ p).2).1, (keys_frozen h hp (hσ p).1 (hσ p).2).2.1]

/-! ### Cases -/

/-- A leaf with two keys. -/
def leaf2 : State Nat :=
  { v := 0x80000000#32, removing := false, work := .free, next := 1, sessions := 0,
    mem := { perm := [0, 1], ikey := fun p => 10 * p + 5, lenx := fun p => if p = 1 then 64 else 3, lv := fun p => p + 100,
             cur := 0, bag := fun _ p => if p = 1 then [7, 8] else [] } }

theorem leaf2_init : Init leaf2 := ⟨by simp [leaf2], by simp [leaf2], by decide⟩

/-- States of the run: the lock is taken, both values are replaced one after the other, a third key is put in slot 2 with the
suffixes moved to a new container, and the lock is released. -/
def s0 : State Nat := leaf2
def s1 : State Nat := { leaf2 with v := 0x80000001#32, work := .held }
def s2 : State Nat := { s1 with mem := { s1.mem with lv := upd s1.mem.lv 0 200 } }
def s3 : State Nat := { s2 with mem := { s2.mem with lv := upd s2.mem.lv 1 201 } }
def s4 : State Nat := { s3 with work := .writing 2 }
def s5 : State Nat := { s4 with mem := { s4.mem with ikey := upd s4.mem.ikey 2 7 } }
def s6 : State Nat := { s5 with mem := { s5.mem with lenx := upd s5.mem.lenx 2 64 } }
def s7 : State Nat := { s6 with
      mem := { s6.mem with
        cur := 1, bag := upd s6.mem.bag 1 (upd (fun p => if p = 1 then [7, 8] else [9]) 2 [6]) }, next := 2 }
def s8 : State Nat := { s7 with mem := { s7.mem with perm := [0, 2, 1] }, work := .held }
def s9 : State Nat := { s8 with v := 0x80000000#32, work := .free, sessions := 1 }

def states : Nat → State Nat
  | 0 => s0
  | 1 => s1
  | 2 => s2
  | 3 => s3
  | 4 => s4
  | 5 => s5
  | 6 => s6
  | 7 => s7
  | 8 => s8
  | _ => s9

def run : Run Nat where
  at_ := states
  init := leaf2_init
  step
    | 0 => Or.inr (.lock (s := s0) rfl (by decide))
    | 1 => Or.inr (.replace (s := s1) 0 200 (by decide) (by decide))
    | 2 => Or.inr (.replace (s := s2) 1 201 (by decide) (by decide))
    | 3 => Or.inr (.begin (s := s3) 2 rfl rfl (by decide))
    | 4 => Or.inr (.ikey (s := s4) 2 7 rfl)
    | 5 => Or.inr (.lenx (s := s5) 2 64 rfl)
    | 6 => Or.inr (.container (s := s6) 2 [6] (fun p => if p = 1 then [7, 8] else [9]) rfl (by decide))
    | 7 => Or.inr (.publish (s := s7) 2 1 rfl)
    | 8 => Or.inr (.unlock (s := s8) rfl)
    | _ + 9 => Or.inl rfl

/-- A plain insert does not disturb a reader: the version does not even change. -/
theorem run_validated : Validated run 0 0 9 := ⟨by decide, by decide, by decide, by decide⟩

/-- The reader looks at slot 1 while the insert is going on, its suffix in the new container. -/
example : ∃ t, 0 ≤ t ∧ t ≤ 9 ∧ Entry (run.at_ t) 15 64 [7, 8] 201 :=
  found run_validated (p := 1) (by decide) (t1 := 5) (t2 := 6) (t3 := 7) (t4 := 9) (t5 := 3) (by decide) (by decide)
    (by decide) (by decide) rfl rfl (fun _ => rfl) rfl

/-- The key being inserted is not found by a reader that read the permutation before, and it was not there then. -/
example : ¬ ∃ v, Entry (run.at_ 0) 7 64 [6] v :=
  missing run_validated fun p hp => by
    have : p = 0 ∨ p = 1 := by simpa [run, states, s0, leaf2] using hp
    rcases this with rfl | rfl
    · exact Or.inl ⟨4, by decide, by decide, by decide⟩
    · exact Or.inr (Or.inr ⟨rfl, 2, 8, by decide, by decide, by decide, by decide⟩)

/-- Values are not covered by the version: a reader that reads the values of two slots may validate and yet have seen the old
value of the one and the new value of the other, which were never current together. -/
theorem values_mixed : Validated run 0 0 9 ∧ (run.at_ 1).mem.lv 0 = 100 ∧ (run.at_ 3).mem.lv 1 = 201 ∧
    ∀ t, ¬ ((run.at_ t).mem.lv 0 = 100 ∧ (run.at_ t).mem.lv 1 = 201) := by
  refine ⟨run_validated, rfl, rfl, fun t => ?_⟩
  match t with
  | 0 | 1 | 2 | 3 | 4 | 5 | 6 | 7 | 8 => decide
  | _ + 9 => exact fun h => absurd h.1 (by show ¬ (s9.mem.lv 0 = 100); decide)

/-- A leaf from which slot 1 was removed before. -/
def leafR : State Nat := { leaf2 with removing := true }

/-- Slot 0 is removed; the state is already removing, so nothing is marked. -/
def r1 : State Nat := { leafR with v := 0x80000001#32, work := .held }
def r2 : State Nat := { r1 with mem := { leafR.mem with perm := [1] } }
def r3 : State Nat := { r2 with v := 0x80000000#32, work := .free, sessions := 1 }

def removal : Nat → State Nat
  | 0 => leafR
  | 1 => r1
  | 2 => r2
  | _ => r3

def removalRun : Run Nat where
  at_ := removal
  init := ⟨by simp [removal, leafR, leaf2], by simp [removal, leafR, leaf2], by decide⟩
  step
    | 0 => Or.inr (.lock (s := leafR) rfl (by decide))
    | 1 => Or.inr (.remove (s := r1) 0 rfl rfl)
    | 2 => Or.inr (.unlock (s := r2) rfl)
    | _ + 3 => Or.inl rfl

/-- The reader reads the value of the removed slot after its removal; it is the value the key had before. -/
example : ∃ t, 0 ≤ t ∧ t ≤ 3 ∧ Entry (removalRun.at_ t) 5 3 [] 100 :=
  found (r := removalRun) (tp := 1) ⟨by decide, by decide, by decide, by decide⟩ (p := 0) (by decide) (t1 := 3) (t2 := 2)
    (t3 := 3) (t4 := 3) (t5 := 3) (by decide) (by decide) (by decide) (by decide) rfl rfl (fun h => by cases h) rfl

/-- At that time the key is gone, so `found` cannot promise the instant of the read itself. -/
theorem removed_value : ¬ ∃ v, Entry (removalRun.at_ 3) 5 3 [] v := by
  rintro ⟨v, p, hp, hx, -⟩
  have : p = 1 := by simpa [removalRun, removal, r3, r2] using hp
  subst this
  revert hx; decide

end Verif.Props.C09
