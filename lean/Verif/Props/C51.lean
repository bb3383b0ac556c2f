import Verif.Range.Scans
import Verif.Range.OnBlink
import Verif.Range.OnPrune

/-!
# C51: scans racing with inserts, splits and removals miss nothing and invent nothing

The executions are those of `Verif.Blink.Step`, or the tidy ones of `Verif.Prune.Step` in which leaves are removed as well,
observed by a scan in either direction (`Verif.Range`).
-/
namespace Verif.Props.C51

open Verif.Range

variable {V : Type}

/-- The history of a layer of the tree. -/
inductive Layer : Hist V → Prop where
  | blink {r : Nat → Blink.State (Nat → Option V)} (h : Blink.Run r) : Layer (blink r)
  | prune {up : List Nat → Nat → Nat} {r : Nat → Prune.State (Nat → Option V)} (h : Prune.TidyRun up r) : Layer (prune r)

theorem Layer.sound {h : Hist V} (hl : Layer h) : h.Sound := by
  cases hl with
  | blink hr => exact blink_sound hr
  | prune hr => exact prune_sound hr

section
variable {h : Hist V} {fwd : Bool} {b : Nat} {want : V → Bool} {a t : Nat} {s : St V}

/-- The entries are visited in order, and none twice. -/
theorem ordered (hl : Layer h) (hx : Scan h fwd b want a t s) : (s.out.reverse.map Prod.fst).Pairwise (Before fwd) :=
  hl.sound.ordered hx

/-- What is visited is at the place where the scan starts, and to be visited, or after that. -/
theorem from_start (hl : Layer h) (hx : Scan h fwd b want a t s) {p : Nat} {v : V} (hp : (p, v) ∈ s.out) :
    Before fwd b p ∨ p = b ∧ want v = true := hl.sound.from_start hx hp

/-- Every entry that is visited was in the layer, with that value, at some time during the scan. -/
theorem genuine (hl : Layer h) (hx : Scan h fwd b want a t s) {p : Nat} {v : V} (hp : (p, v) ∈ s.out) :
    ∃ u, a ≤ u ∧ u ≤ t ∧ entry (h.m u) p = some v := hl.sound.genuine hx hp

/-- An entry that is in the layer at all times of a scan that has ended, and is to be visited, is visited.  For each entry
that is not, there was a time at which it was not there. -/
theorem complete (hl : Layer h) (hx : Scan h fwd b want a t s) (hf : s.pc = .fin) {p : Nat} (hp : p < 16 * 2 ^ 64)
    (hw : ∀ u, a ≤ u → u ≤ t → ∃ v, entry (h.m u) p = some v ∧ (Before fwd b p ∨ p = b ∧ want v = true)) :
    ∃ v, (p, v) ∈ s.out := hl.sound.complete hx hf hp hw

/-- If the scan is stopped, that is true of what comes before the entry visited last. -/
theorem stopped (hl : Layer h) (hx : Scan h fwd b want a t s) {p q : Nat} {v : V} (hq : (q, v) ∈ s.out) (hp : Before fwd p q)
    (hw : ∀ u, a ≤ u → u ≤ t → ∃ v, entry (h.m u) p = some v ∧ (Before fwd b p ∨ p = b ∧ want v = true)) :
    ∃ v, (p, v) ∈ s.out := hl.sound.stopped hx hq hp hw

/-- An entry that nobody changes meanwhile is visited with its value if it is there, and not if it is not. -/
theorem unchanged (hl : Layer h) (hx : Scan h fwd b want a t s) (hf : s.pc = .fin) {p : Nat} (hp : p < 16 * 2 ^ 64)
    {w : Option V} (hw : ∀ u, a ≤ u → u ≤ t → entry (h.m u) p = w) (v : V) :
    (p, v) ∈ s.out ↔ w = some v ∧ (Before fwd b p ∨ p = b ∧ want v = true) := by
  constructor
  · intro h1
    obtain ⟨u, h2, h3, h4⟩ := genuine hl hx h1
    exact ⟨(hw u h2 h3).symm.trans h4, from_start hl hx h1⟩
  · rintro ⟨rfl, h1⟩
    obtain ⟨v', h2⟩ := complete hl hx hf hp fun u h2 h3 => ⟨v, hw u h2 h3, h1⟩
    obtain ⟨u, h3, h4, h5⟩ := genuine hl hx h2
    rw [hw u h3 h4] at h5
    cases h5
    exact h2

end

/-! ### Examples -/

open Verif.Blink

/-- A slice with one key, of length 8. -/
def one (v : Nat) : Nat → Option Nat := fun l => if l = 8 then some v else none

/-- A leaf with the slices 1 and 5. -/
def s0 : State (Nat → Option Nat) :=
  { leaf := fun _ => true, lock := fun _ => none, ins := fun _ => 0, spl := fun _ => 0, dI := fun _ => false
    dS := fun _ => false, rt := fun _ => true, parent := fun _ => none, next := fun _ => none
    items := fun _ k => if k = 1 then some (one 10) else if k = 5 then some (one 50) else none
    keys := fun _ => [], kids := fun _ => [], lo := fun _ => 0, hi := fun _ => top, phi := fun _ => top, chi := fun _ => top
    fresh := 1, root := 0, m := fun k => if k = 1 then some (one 10) else if k = 5 then some (one 50) else none
    pc := fun _ => .idle, key := fun _ => 0, base := fun _ => 0, fn := fun _ => none }

theorem small (k : Nat) (h : k < 100) : k < top := by unfold top; omega

theorem s0_init : Init s0 := by
  refine ⟨rfl, rfl, rfl, fun _ => rfl, fun _ => ⟨rfl, rfl⟩, rfl, rfl, rfl, rfl, ⟨rfl, rfl, rfl⟩, rfl, ?_, fun _ => rfl⟩
  intro k hk
  simp only [s0] at hk
  have := small 5 (by omega)
  split at hk
  · omega
  · split at hk
    · omega
    · simp at hk

/-- Thread 1, which scans, reaches the leaf. -/
def s1 : State (Nat → Option Nat) :=
  State.to { s0 with key := Function.update s0.key 1 0, base := Function.update s0.base 1 s0.root,
                     fn := Function.update s0.fn 1 none } 1 (.up s0.root)
def s2 : State (Nat → Option Nat) := s1.to 1 (.at_ 0 (s1.ins 0) (s1.spl 0))

/-- Thread 0 adds slice 3. -/
def s3 : State (Nat → Option Nat) :=
  State.to { s2 with key := Function.update s2.key 0 3, base := Function.update s2.base 0 s2.root,
                     fn := Function.update s2.fn 0 (some fun _ => some (one 30)) } 0 (.up s2.root)
def s4 : State (Nat → Option Nat) := s3.to 0 (.at_ 0 (s3.ins 0) (s3.spl 0))
def s5 : State (Nat → Option Nat) := s4.to 0 (.read 0 0 0 none)
def s6 : State (Nat → Option Nat) := State.to { s5 with lock := Function.update s5.lock 0 (some 0) } 0 (.hold 0)
def s7 : State (Nat → Option Nat) := State.to
  { s6 with
    items := Function.update s6.items 0 (Function.update (s6.items 0) (s6.key 0) (some (one 30)))
    m := Function.update s6.m (s6.key 0) (some (one 30)) } 0 (.pub 0)
def s8 : State (Nat → Option Nat) := (s7.unlock 0).to 0 .idle

/-- Then thread 0 adds slice 7, splitting the leaf: slices from 5 on move to leaf 1. -/
def s9 : State (Nat → Option Nat) :=
  State.to { s8 with key := Function.update s8.key 0 7, base := Function.update s8.base 0 s8.root,
                     fn := Function.update s8.fn 0 (some fun _ => some (one 70)) } 0 (.up s8.root)
def s10 : State (Nat → Option Nat) := s9.to 0 (.at_ 0 (s9.ins 0) (s9.spl 0))
def s11 : State (Nat → Option Nat) := s10.to 0 (.read 0 0 0 none)
def s12 : State (Nat → Option Nat) := State.to { s11 with lock := Function.update s11.lock 0 (some 0) } 0 (.hold 0)
def s13 : State (Nat → Option Nat) := (s12.splitLeaf 0 0 5).to 0 (.par 0 1 5 none)
def s14 : State (Nat → Option Nat) := (s13.newRoot 0 1 5).to 0 (.fin none none 0 1 5 none)
def s15 : State (Nat → Option Nat) := State.to { s14 with dS := Function.update s14.dS 0 true } 0 (.cut none none 0 1 5)
def s16 : State (Nat → Option Nat) := State.to
  { s15 with
    items := Function.update s15.items 0 (fun k => if k < 5 then s15.items 0 k else none)
    hi := Function.update s15.hi 0 5
    chi := Function.update s15.chi 0 5 } 0 (if s15.key 0 < 5 then .rel none none 1 0 else .rel none none 0 1)
def s17 : State (Nat → Option Nat) := (s16.unlock 0).to 0 (.hold 1)
def s18 : State (Nat → Option Nat) := State.to
  { s17 with
    items := Function.update s17.items 1 (Function.update (s17.items 1) (s17.key 0) (some (one 70)))
    m := Function.update s17.m (s17.key 0) (some (one 70)) } 0 (.pub 1)
def s19 : State (Nat → Option Nat) := (s18.unlock 1).to 0 .idle

/-- Thread 2, which scans in reverse, reaches leaf 1. -/
def s20 : State (Nat → Option Nat) :=
  State.to { s19 with key := Function.update s19.key 2 9, base := Function.update s19.base 2 s19.root,
                      fn := Function.update s19.fn 2 none } 2 (.up s19.root)
def s21 : State (Nat → Option Nat) := s20.to 2 (.up 2)
def s22 : State (Nat → Option Nat) := s21.to 2 (.at_ 2 (s21.ins 2) (s21.spl 2))
def s23 : State (Nat → Option Nat) := s22.to 2 (.pick 2 0 0 1)
def s24 : State (Nat → Option Nat) := s23.to 2 (.picked 2 0 0 1 (s23.ins 1) (s23.spl 1))
def s25 : State (Nat → Option Nat) := s24.to 2 (.at_ 1 0 0)

def race : Nat → State (Nat → Option Nat)
  | 0 => s0 | 1 => s1 | 2 => s2 | 3 => s3 | 4 => s4 | 5 => s5 | 6 => s6 | 7 => s7 | 8 => s8 | 9 => s9 | 10 => s10
  | 11 => s11 | 12 => s12 | 13 => s13 | 14 => s14 | 15 => s15 | 16 => s16 | 17 => s17 | 18 => s18 | 19 => s19 | 20 => s20 | 21 => s21
  | 22 => s22 | 23 => s23 | 24 => s24 | _ => s25

theorem race_run : Run race := by
  refine ⟨s0_init, fun t => ?_⟩
  match t with
  | 0 => exact Or.inr (.start (s := s0) 1 0 none (small 0 (by omega)) rfl)
  | 1 => exact Or.inr (.rooted (s := s1) 1 0 rfl ⟨rfl, rfl⟩ rfl)
  | 2 => exact Or.inr (.start (s := s2) 0 3 (some fun _ => some (one 30)) (small 3 (by omega)) rfl)
  | 3 => exact Or.inr (.rooted (s := s3) 0 0 rfl ⟨rfl, rfl⟩ rfl)
  | 4 => exact Or.inr (.look (s := s4) 0 0 0 0 none rfl rfl fun _ => rfl)
  | 5 => exact Or.inr (.acquire (s := s5) 0 0 0 0 none rfl (by simp [s5, s4, s3, State.to]) rfl rfl rfl)
  | 6 => exact Or.inr (.publish (s := s6) 0 0 (fun _ => some (one 30)) rfl rfl)
  | 7 => exact Or.inr (.release (s := s7) 0 0 rfl)
  | 8 => exact Or.inr (.start (s := s8) 0 7 (some fun _ => some (one 70)) (small 7 (by omega)) rfl)
  | 9 => exact Or.inr (.rooted (s := s9) 0 0 rfl ⟨rfl, rfl⟩ rfl)
  | 10 => exact Or.inr (.look (s := s10) 0 0 0 0 none rfl rfl fun _ => rfl)
  | 11 => exact Or.inr (.acquire (s := s11) 0 0 0 0 none rfl (by simp [s11, s10, s9, State.to]) rfl rfl rfl)
  | 12 => exact Or.inr (.split (s := s12) 0 0 5 rfl (by show 0 < 5; omega) (small 5 (by omega)))
  | 13 => exact Or.inr (.newRoot (s := s13) 0 0 1 5 none rfl rfl)
  | 14 => exact Or.inr (.markSplit (s := s14) 0 0 1 5 none none rfl)
  | 15 => exact Or.inr (.strip (s := s15) 0 0 1 5 none none rfl)
  | 16 => exact Or.inr (.unlockRight (s := s16) 0 0 1 none none rfl)
  | 17 => exact Or.inr (.publish (s := s17) 0 1 (fun _ => some (one 70)) rfl rfl)
  | 18 => exact Or.inr (.release (s := s18) 0 1 rfl)
  | 19 => exact Or.inr (.start (s := s19) 2 9 none (small 9 (by omega)) rfl)
  | 20 => exact Or.inr (.climb (s := s20) 2 0 rfl)
  | 21 => exact Or.inr (.rooted (s := s21) 2 2 rfl ⟨rfl, rfl⟩ rfl)
  | 22 => exact Or.inr (.pick (s := s22) 2 2 0 0 1 rfl rfl fun _ => rfl)
  | 23 => exact Or.inr (.child (s := s23) 2 2 0 0 1 rfl ⟨rfl, rfl⟩)
  | 24 => exact Or.inr (.descend (s := s24) 2 2 0 0 1 0 0 rfl ⟨⟨rfl, rfl⟩, rfl, rfl⟩)
  | t + 25 => exact Or.inl rfl

/-- The contents of the leaf before, of the left leaf and of the right leaf after. -/
theorem items2 : s2.items 0 = fun k => if k = 1 then some (one 10) else if k = 5 then some (one 50) else none := rfl

theorem items19 : s19.items 0 = fun k => if k = 1 then some (one 10) else if k = 3 then some (one 30) else none := by
  funext k
  simp only [s19, s18, s17, s16, s15, s14, s13, s12, s11, s10, s9, s8, s7, s6, s5, s4, s3, s2, s1, s0, State.to, State.unlock,
    State.newRoot, State.splitLeaf, Function.update_apply]
  simp [Function.update_apply]
  split_ifs <;> first | rfl | omega

theorem items19' : s19.items 1 = fun k => if k = 5 then some (one 50) else if k = 7 then some (one 70) else none := by
  funext k
  simp only [s19, s18, s17, s16, s15, s14, s13, s12, s11, s10, s9, s8, s7, s6, s5, s4, s3, s2, s1, s0, State.to, State.unlock,
    State.newRoot, State.splitLeaf, Function.update_apply]
  simp [Function.update_apply]
  split_ifs <;> first | rfl | omega

theorem perm_of (r : Nat → State (Nat → Option Nat)) (t n a b : Nat) (va vb : Nat) (hab : a < b)
    (h : (r t).items n = fun k => if k = a then some (one va) else if k = b then some (one vb) else none) :
    (blink r).Perm t n [16 * a + 8, 16 * b + 8] := by
  refine ⟨by simp; omega, fun p => ?_⟩
  show _ ↔ entry ((r t).items n) p ≠ none
  rw [h]
  simp only [entry, List.mem_cons, List.not_mem_nil, or_false]
  by_cases h1 : p / 16 = a
  · simp only [if_pos h1, Option.bind_some, one]
    split <;> simp <;> omega
  · by_cases h2 : p / 16 = b
    · simp only [if_neg h1, if_pos h2, Option.bind_some, one]
      split <;> simp <;> omega
    · simp only [if_neg h1, if_neg h2, Option.bind_none, ne_eq, not_true_eq_false, iff_false]
      omega

def any : Nat → Bool := fun _ => true

/-- The scan visits slices 1 and 5 of the leaf, before slice 3 is added. -/
theorem scan1 : Range.Scan (blink race) true 0 any 2 2 ⟨.scan 0 0 0 2 [24, 88] 2, 88, false, [(88, 50), (24, 10)]⟩ := by
  have ok : (blink race).Ok 2 0 0 0 := ⟨⟨rfl, rfl⟩, rfl, rfl, rfl⟩
  refine .step (.step (.step (.step (.step (.begin (.first (by omega)))
    (.reach true 0 0 0 ⟨1, rfl, rfl, rfl⟩)) (.permFirst 0 0 0 [24, 88] fun _ => ?_))
    (.noFirst 0 0 0 2 [24, 88] ok (by decide))) (.emit 0 0 0 2 2 24 [24, 88] 0 10 ok rfl rfl ⟨by omega, by omega⟩ rfl))
    (.emit 0 0 0 2 2 88 [24, 88] 1 50 ok rfl rfl ⟨by omega, by omega⟩ rfl)
  exact perm_of race 2 0 1 5 10 50 (by omega) items2

theorem scan_wait {V : Type} {h : Hist V} {fwd : Bool} {b : Nat} {want : V → Bool} {a t : Nat} {s : St V}
    (hs : Range.Scan h fwd b want a t s) (d : Nat) : Range.Scan h fwd b want a (t + d) s := by
  induction d with
  | zero => exact hs
  | succ d ih => exact .wait ih

/-- When slice 7 has been added, and the leaf split, it goes on, and ends. -/
theorem scan2 : Range.Scan (blink race) true 0 any 2 19 ⟨.fin, 120, false, [(120, 70), (88, 50), (24, 10)]⟩ := by
  have ok0 : (blink race).Ok 19 0 0 1 := ⟨⟨rfl, rfl⟩, rfl, rfl, rfl⟩
  have ok1 : (blink race).Ok 19 1 0 0 := ⟨⟨rfl, rfl⟩, rfl, rfl, rfl⟩
  have h0 : Range.Scan (blink race) true 0 any 2 19 ⟨.move 0, 88, false, [(88, 50), (24, 10)]⟩ :=
    .step (scan_wait scan1 17) (.changed ..)
  have h1 : Range.Scan (blink race) true 0 any 2 19 ⟨.node false 0 0 1, 88, false, [(88, 50), (24, 10)]⟩ :=
    .step h0 (.stable 0 rfl ok0.1)
  have h2 : Range.Scan (blink race) true 0 any 2 19 ⟨.scan 0 0 1 19 [24, 56] 2, 88, false, [(88, 50), (24, 10)]⟩ :=
    .step h1 (.perm 0 0 1 [24, 56] 2 fun _ => ⟨perm_of race 19 0 1 3 10 30 (by omega) items19, rfl⟩)
  have h3 : Range.Scan (blink race) true 0 any 2 19 ⟨.move 1, 88, false, [(88, 50), (24, 10)]⟩ :=
    .step (.step h2 (.exhausted 0 0 1 19 [24, 56] 2 ok0 rfl)) (.forward 0 1 rfl rfl)
  have h4 : Range.Scan (blink race) true 0 any 2 19 ⟨.node false 1 0 0, 88, false, [(88, 50), (24, 10)]⟩ :=
    .step h3 (.stable 1 rfl ok1.1)
  have h5 : Range.Scan (blink race) true 0 any 2 19 ⟨.scan 1 0 0 19 [88, 120] 1, 88, false, [(88, 50), (24, 10)]⟩ :=
    .step (.step h4 (.perm 1 0 0 [88, 120] 0 fun _ => ⟨perm_of race 19 1 5 7 50 70 (by omega) items19', rfl⟩))
      (.skip 1 0 0 19 88 [88, 120] 0 ok1 rfl rfl)
  have h6 : Range.Scan (blink race) true 0 any 2 19 ⟨.scan 1 0 0 19 [88, 120] 2, 120, false, [(120, 70), (88, 50), (24, 10)]⟩ :=
    .step h5 (.emit 1 0 0 19 19 120 [88, 120] 1 70 ok1 rfl rfl ⟨by omega, by omega⟩ (by
      show entry (s19.items 1) 120 = _
      rw [items19']; rfl))
  exact .step (.step h6 (.exhausted 1 0 0 19 [88, 120] 2 ok1 rfl)) (.forwardEnd 1 rfl rfl)

/-- Slice 7 is not there before slice 3. -/
theorem seven (t : Nat) (h : entry ((race t).m) 120 ≠ none) : entry ((race t).m) 56 ≠ none := by
  match t with
  | 0 | 1 | 2 | 3 | 4 | 5 | 6 | 7 | 8 | 9 | 10 | 11 | 12 | 13 | 14 | 15 | 16 | 17 => exact absurd rfl h
  | 18 | 19 | 20 | 21 | 22 | 23 | 24 => exact fun h => by cases h
  | t + 25 => exact fun h => by cases h

/-- What a scan visits need not be what is there at any one time: this one visits slices 1, 5, and 7 of a layer with slices 1
and 5, to which 3 is added first, and then 7. -/
theorem not_snapshot : ∃ (h : Hist Nat) (a t ka : Nat) (out : List (Nat × Nat)), Layer h ∧
    Range.Scan h true 0 (fun _ => true) a t ⟨.fin, ka, false, out⟩ ∧
    ¬ ∃ u, ∀ p, p < 16 * 2 ^ 64 → ((∃ v, (p, v) ∈ out) ↔ entry (h.m u) p ≠ none) := by
  refine ⟨blink race, 2, 19, 120, _, .blink race_run, scan2, fun ⟨u, hu⟩ => ?_⟩
  have h1 := (hu 120 (by omega)).mp ⟨70, by simp⟩
  obtain ⟨v, hv⟩ := (hu 56 (by omega)).mpr (seven u h1)
  simp at hv

/-- A reverse scan from slice 9 passes through both leaves. -/
theorem scan3 : ∃ ka, Range.Scan (blink race) false 144 any 25 25 ⟨.fin, ka, false, [(24, 10), (56, 30), (88, 50), (120, 70)]⟩ := by
  have ok0 : (blink race).Ok 25 0 0 1 := ⟨⟨rfl, rfl⟩, rfl, rfl, rfl⟩
  have ok1 : (blink race).Ok 25 1 0 0 := ⟨⟨rfl, rfl⟩, rfl, rfl, rfl⟩
  have i0 : (race 25).items 0 = _ := items19
  have i1 : (race 25).items 1 = _ := items19'
  have h0 : Range.Scan (blink race) false 144 any 25 25 ⟨.init 1 0 0 25 [88, 120], 144, false, []⟩ :=
    .step (.step (.begin (.first (by omega))) (.reach true 1 0 0 ⟨2, rfl, rfl, rfl⟩))
      (.permFirst 1 0 0 [88, 120] fun _ => perm_of race 25 1 5 7 50 70 (by omega) i1)
  have h1 : Range.Scan (blink race) false 144 any 25 25 ⟨.scan 1 0 0 25 [88, 120] (-1), 88, false, [(88, 50), (120, 70)]⟩ :=
    .step (.step (.step h0 (.noFirst 1 0 0 25 [88, 120] ok1 (by decide)))
      (.emit 1 0 0 25 25 120 [88, 120] 1 70 ok1 rfl rfl ⟨by omega, by omega⟩ (by
        show entry ((race 25).items 1) 120 = _
        rw [i1]; rfl)))
      (.emit 1 0 0 25 25 88 [88, 120] 0 50 ok1 rfl rfl ⟨by omega, by omega⟩ (by
        show entry ((race 25).items 1) 88 = _
        rw [i1]; rfl))
  have h2 : Range.Scan (blink race) false 144 any 25 25 ⟨.move 0, 80, false, [(88, 50), (120, 70)]⟩ :=
    .step (.step h1 (.exhausted 1 0 0 25 [88, 120] (-1) ok1 rfl))
      (.backward 1 0 rfl ⟨by decide, rfl⟩ (by show 0 < 5; omega))
  have h3 : Range.Scan (blink race) false 144 any 25 25 ⟨.node false 0 0 1, 80, false, [(88, 50), (120, 70)]⟩ :=
    .step (.step h2 (.stableR 0 rfl ok0.1)) (.stay 0 0 1 false fun r hr => by cases hr; exact Or.inr rfl)
  have h4 : Range.Scan (blink race) false 144 any 25 25 ⟨.scan 0 0 1 25 [24, 56] 1, 80, false, [(88, 50), (120, 70)]⟩ :=
    .step h3 (.perm 0 0 1 [24, 56] 1 fun _ => ⟨perm_of race 25 0 1 3 10 30 (by omega) i0, rfl⟩)
  have h5 : Range.Scan (blink race) false 144 any 25 25
      ⟨.scan 0 0 1 25 [24, 56] (-1), 24, false, [(24, 10), (56, 30), (88, 50), (120, 70)]⟩ :=
    .step (.step h4
      (.emit 0 0 1 25 25 56 [24, 56] 1 30 ok0 rfl rfl ⟨by omega, by omega⟩ (by
        show entry ((race 25).items 0) 56 = _
        rw [i0]; rfl)))
      (.emit 0 0 1 25 25 24 [24, 56] 0 10 ok0 rfl rfl ⟨by omega, by omega⟩ (by
        show entry ((race 25).items 0) 24 = _
        rw [i0]; rfl))
  exact ⟨_, .step (.step h5 (.exhausted 0 0 1 25 [24, 56] (-1) ok0 rfl)) (.backwardEnd 0 rfl rfl)⟩

/-- The theorems for these scans: slice 5 is there all the time, and is visited, though the leaf it is in splits; the entries are
visited in order. -/
example : ∃ w, (88, w) ∈ [(120, 70), (88, 50), (24, 10)] :=
  complete (p := 88) (.blink race_run) scan2 rfl (by omega) fun t h1 h2 => by
    refine ⟨50, ?_, Or.inl (by show 0 < 88; omega)⟩
    match t with
    | 0 | 1 | 2 | 3 | 4 | 5 | 6 | 7 | 8 | 9 | 10 | 11 | 12 | 13 | 14 | 15 | 16 | 17 | 18 | 19 => rfl
    | t + 20 => omega

example : [120, 88, 56, 24].Pairwise (Before false) := scan3.elim fun _ h => ordered (.blink race_run) h

/-- If the scan is stopped after slice 7, slice 5 has been visited. -/
example : ∃ w, (88, w) ∈ [(120, 70), (88, 50), (24, 10)] :=
  stopped (p := 88) (q := 120) (v := 70) (.blink race_run) scan2 (by simp) (by show 88 < 120; omega) fun t h1 h2 => by
    refine ⟨50, ?_, Or.inl (by show 0 < 88; omega)⟩
    match t with
    | 0 | 1 | 2 | 3 | 4 | 5 | 6 | 7 | 8 | 9 | 10 | 11 | 12 | 13 | 14 | 15 | 16 | 17 | 18 | 19 => rfl
    | t + 20 => omega

end Verif.Props.C51
