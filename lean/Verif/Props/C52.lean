import Verif.Range.Whole
import Verif.Props.C51

/-!
# C52: scans of the whole tree racing with changes miss no key that stays and invent none

Layers change as in C51, layers are created and removed meanwhile (`Verif.Range.Tree`), keys are byte strings.
-/
namespace Verif.Props.C52

open Verif.Key (Bytes LexLt)
open Verif.Range
open Verif.Props.C51 (Layer)

section
variable {W : Type} {R : Nat → Hist (Ent W)} {fwd : Bool} {k : Bytes} {e : Bool} {a t : Nat} {c : Conf W}

/-- The keys are visited in byte-lexicographic order, or its reverse, and none twice. -/
theorem ordered (hl : ∀ l, Layer (R l)) (hT : Tree R) (h : Whole R fwd k e a t c) :
    (c.out.reverse.map Prod.fst).Pairwise fun x y => if fwd then LexLt x y else LexLt y x := by
  obtain ⟨f, fs, h1⟩ := WInv.whole (fun l => (hl l).sound) hT h
  rw [List.map_reverse, List.pairwise_reverse, List.pairwise_map]
  exact h1.ord

/-- A key that is visited is the one the scan starts with, if that is to be visited, or comes after it. -/
theorem from_start (hl : ∀ l, Layer (R l)) (hT : Tree R) (h : Whole R fwd k e a t c) {κ : Bytes} {w : W} (hκ : (κ, w) ∈ c.out) :
    (if fwd then LexLt k κ else LexLt κ k) ∨ κ = k ∧ e = true := by
  obtain ⟨f, fs, h1⟩ := WInv.whole (fun l => (hl l).sound) hT h
  exact (h1.val κ w hκ).1

/-- It was in the tree, with that value, at some time during the scan. -/
theorem genuine (hl : ∀ l, Layer (R l)) (hT : Tree R) (h : Whole R fwd k e a t c) {κ : Bytes} {w : W} (hκ : (κ, w) ∈ c.out) :
    ∃ u, a ≤ u ∧ u ≤ t ∧ find R u 0 κ = some w := by
  obtain ⟨f, fs, h1⟩ := WInv.whole (fun l => (hl l).sound) hT h
  exact (h1.val κ w hκ).2

/-- The scan has ended: the root layer is finished (/repo/masstree_scan.hh:361-362). -/
def Ended (c : Conf W) : Prop := ∃ f, c.frames = [f] ∧ f.s.pc = .fin

/-- A key that is in the tree at all times of a scan that has ended, and is to be visited, is visited. -/
theorem complete (hl : ∀ l, Layer (R l)) (hT : Tree R) (h : Whole R fwd k e a t c) (hend : Ended c) {κ : Bytes}
    (hw : (if fwd then LexLt k κ else LexLt κ k) ∨ κ = k ∧ e = true)
    (hp : ∀ u, a ≤ u → u ≤ t → find R u 0 κ ≠ none) : ∃ w, (κ, w) ∈ c.out := by
  obtain ⟨f, fs, h1⟩ := WInv.whole (fun l => (hl l).sound) hT h
  obtain ⟨f', h2, h3⟩ := hend
  rw [h1.frames] at h2
  obtain ⟨rfl, rfl⟩ := List.cons.inj h2
  obtain ⟨h4, h5, h6, h7⟩ := h1.under
  have := covers (fun l => (hl l).sound) hT h1.runs h3 h1.paid κ (by rw [h5]; exact hw) (by rw [h4, h7]; exact hp)
  rwa [h6] at this

/-- If the scan is stopped, that is true of the keys before the one visited last. -/
theorem stopped (hl : ∀ l, Layer (R l)) (hT : Tree R) (h : Whole R fwd k e a t c) {κ κ' : Bytes} {w' : W}
    (hw : (if fwd then LexLt k κ else LexLt κ k) ∨ κ = k ∧ e = true)
    (hp : ∀ u, a ≤ u → u ≤ t → find R u 0 κ ≠ none) (hκ : (κ', w') ∈ c.out) (hb : if fwd then LexLt κ κ' else LexLt κ' κ) :
    ∃ w, (κ, w) ∈ c.out := by
  obtain ⟨f, fs, h1⟩ := WInv.whole (fun l => (hl l).sound) hT h
  exact h1.until (fun l => (hl l).sound) hT κ hw hp ⟨κ', w', hκ, fun h2 => KBefore.irrefl fwd κ (KBefore.trans hb h2)⟩

/-- A key that nobody changes meanwhile is visited with its value if it is there, and not if it is not. -/
theorem unchanged (hl : ∀ l, Layer (R l)) (hT : Tree R) (h : Whole R fwd k e a t c) (hend : Ended c) {κ : Bytes} {v : Option W}
    (hv : ∀ u, a ≤ u → u ≤ t → find R u 0 κ = v) (w : W) :
    (κ, w) ∈ c.out ↔ v = some w ∧ ((if fwd then LexLt k κ else LexLt κ k) ∨ κ = k ∧ e = true) := by
  constructor
  · intro h1
    obtain ⟨u, h2, h3, h4⟩ := genuine hl hT h h1
    exact ⟨(hv u h2 h3).symm.trans h4, from_start hl hT h h1⟩
  · rintro ⟨rfl, h1⟩
    obtain ⟨w', h2⟩ := complete hl hT h hend h1 fun u h3 h4 => by rw [hv u h3 h4]; simp
    obtain ⟨u, h3, h4, h5⟩ := genuine hl hT h h2
    rw [hv u h3 h4] at h5
    cases h5
    exact h2

end

/-! ### Example: a scan goes down to a layer into which a key is inserted meanwhile, and back up -/

open Verif.Blink

/-- The eight bytes of a small slice. -/
def byte (x : UInt8) : Bytes := [0, 0, 0, 0, 0, 0, 0, x]

/-- A slice with one key of eight bytes, and one with a layer. -/
def one (w : Nat) : Nat → Option (Ent Nat) := fun l => if l = 8 then some (.val w) else none
def lay (l : Nat) : Nat → Option (Ent Nat) := fun n => if n = 9 then some (.link l) else none

/-- A leaf with the given slices. -/
def base (m : Nat → Option (Nat → Option (Ent Nat))) : State (Nat → Option (Ent Nat)) :=
  { leaf := fun _ => true, lock := fun _ => none, ins := fun _ => 0, spl := fun _ => 0, dI := fun _ => false
    dS := fun _ => false, rt := fun _ => true, parent := fun _ => none, next := fun _ => none
    items := fun _ => m, keys := fun _ => [], kids := fun _ => [], lo := fun _ => 0, hi := fun _ => top, phi := fun _ => top
    chi := fun _ => top, fresh := 1, root := 0, m := m
    pc := fun _ => .idle, key := fun _ => 0, base := fun _ => 0, fn := fun _ => none }

theorem base_init {m : Nat → Option (Nat → Option (Ent Nat))} (h : ∀ k, 10 ≤ k → m k = none) : Init (base m) := by
  refine ⟨rfl, rfl, rfl, fun _ => rfl, fun _ => ⟨rfl, rfl⟩, rfl, rfl, rfl, rfl, ⟨rfl, rfl, rfl⟩, rfl, ?_, fun _ => rfl⟩
  intro k hk
  by_contra h1
  exact hk (h k (by unfold top at h1; omega))

/-- Thread 1, which scans, reaches the leaf. -/
def b1 (m : Nat → Option (Nat → Option (Ent Nat))) : State (Nat → Option (Ent Nat)) :=
  State.to { base m with key := Function.update (base m).key 1 0, base := Function.update (base m).base 1 (base m).root,
                         fn := Function.update (base m).fn 1 none } 1 (.up (base m).root)
def b2 (m : Nat → Option (Nat → Option (Ent Nat))) : State (Nat → Option (Ent Nat)) := (b1 m).to 1 (.at_ 0 0 0)

/-- The root layer has slice 1, which leads to layer 1. -/
def m0 : Nat → Option (Nat → Option (Ent Nat)) := fun k => if k = 1 then some (lay 1) else none
def root : Nat → State (Nat → Option (Ent Nat))
  | 0 => base m0 | 1 => b1 m0 | _ => b2 m0

/-- Layer 1 has slice 2; thread 0 adds slice 3. -/
def m1 : Nat → Option (Nat → Option (Ent Nat)) := fun k => if k = 2 then some (one 20) else none
def c3 : State (Nat → Option (Ent Nat)) :=
  State.to { b2 m1 with key := Function.update (b2 m1).key 0 3, base := Function.update (b2 m1).base 0 (b2 m1).root,
                        fn := Function.update (b2 m1).fn 0 (some fun _ => some (one 30)) } 0 (.up (b2 m1).root)
def c4 : State (Nat → Option (Ent Nat)) := c3.to 0 (.at_ 0 0 0)
def c5 : State (Nat → Option (Ent Nat)) := c4.to 0 (.read 0 0 0 none)
def c6 : State (Nat → Option (Ent Nat)) := State.to { c5 with lock := Function.update c5.lock 0 (some 0) } 0 (.hold 0)
def c7 : State (Nat → Option (Ent Nat)) := State.to
  { c6 with
    items := Function.update c6.items 0 (Function.update (c6.items 0) (c6.key 0) (some (one 30)))
    m := Function.update c6.m (c6.key 0) (some (one 30)) } 0 (.pub 0)
def c8 : State (Nat → Option (Ent Nat)) := (c7.unlock 0).to 0 .idle
def sub : Nat → State (Nat → Option (Ent Nat))
  | 0 => base m1 | 1 => b1 m1 | 2 => b2 m1 | 3 => c3 | 4 => c4 | 5 => c5 | 6 => c6 | 7 => c7 | _ => c8

def R : Nat → Hist (Ent Nat)
  | 0 => blink root
  | _ => blink sub

theorem root_run : Run root := by
  refine ⟨base_init fun k hk => by unfold m0; rw [if_neg (by omega)], fun t => ?_⟩
  match t with
  | 0 => exact Or.inr (.start (s := base m0) 1 0 none (C51.small 0 (by omega)) rfl)
  | 1 => exact Or.inr (.rooted (s := b1 m0) 1 0 rfl ⟨rfl, rfl⟩ rfl)
  | t + 2 => exact Or.inl rfl

theorem sub_run : Run sub := by
  refine ⟨base_init fun k hk => by unfold m1; rw [if_neg (by omega)], fun t => ?_⟩
  match t with
  | 0 => exact Or.inr (.start (s := base m1) 1 0 none (C51.small 0 (by omega)) rfl)
  | 1 => exact Or.inr (.rooted (s := b1 m1) 1 0 rfl ⟨rfl, rfl⟩ rfl)
  | 2 => exact Or.inr (.start (s := b2 m1) 0 3 (some fun _ => some (one 30)) (C51.small 3 (by omega)) rfl)
  | 3 => exact Or.inr (.rooted (s := c3) 0 0 rfl ⟨rfl, rfl⟩ rfl)
  | 4 => exact Or.inr (.look (s := c4) 0 0 0 0 none rfl rfl fun _ => rfl)
  | 5 => exact Or.inr (.acquire (s := c5) 0 0 0 0 none rfl (by simp [c5, c4, c3, State.to]) rfl rfl rfl)
  | 6 => exact Or.inr (.publish (s := c6) 0 0 (fun _ => some (one 30)) rfl rfl)
  | 7 => exact Or.inr (.release (s := c7) 0 0 rfl)
  | t + 8 => exact Or.inl rfl

theorem layers (l : Nat) : Layer (R l) := by
  match l with
  | 0 => exact .blink root_run
  | l + 1 => exact .blink sub_run

theorem root_m (u : Nat) : (root u).m = m0 := by
  match u with
  | 0 | 1 | u + 2 => rfl

theorem root_entry {u p : Nat} {v : Ent Nat} (h : entry ((R 0).m u) p = some v) : p = 25 ∧ v = .link 1 := by
  change entry ((root u).m) p = some v at h
  rw [root_m] at h
  unfold entry m0 at h
  split at h
  · simp only [Option.bind_some, lay] at h
    split at h
    · cases h; exact ⟨by omega, rfl⟩
    · cases h
  · cases h

theorem sub_m (u k : Nat) : (sub u).m k = none ∨ (k = 2 ∧ (sub u).m k = some (one 20)) ∨ (k = 3 ∧ (sub u).m k = some (one 30)) := by
  have h1 : ∀ k, m1 k = none ∨ (k = 2 ∧ m1 k = some (one 20)) ∨ (k = 3 ∧ m1 k = some (one 30)) := by
    intro k
    unfold m1
    by_cases hk : k = 2
    · exact Or.inr (Or.inl ⟨hk, if_pos hk⟩)
    · exact Or.inl (if_neg hk)
  have h2 : ∀ k, c7.m k = none ∨ (k = 2 ∧ c7.m k = some (one 20)) ∨ (k = 3 ∧ c7.m k = some (one 30)) := by
    intro k
    have : c7.m = Function.update m1 3 (some (one 30)) := rfl
    rw [this]
    by_cases hk : k = 3
    · subst hk; exact Or.inr (Or.inr ⟨rfl, by rw [Function.update_self]⟩)
    · rw [Function.update_of_ne hk]; exact h1 k
  match u with
  | 0 | 1 | 2 | 3 | 4 | 5 | 6 => exact h1 k
  | 7 | u + 8 => exact h2 k

theorem sub_entry {l u p : Nat} {v : Ent Nat} (h : entry ((R (l + 1)).m u) p = some v) :
    (p = 40 ∧ v = .val 20) ∨ (p = 56 ∧ v = .val 30) := by
  change entry ((sub u).m) p = some v at h
  unfold entry at h
  rcases sub_m u (p / 16) with h1 | ⟨h1, h2⟩ | ⟨h1, h2⟩
  · rw [h1] at h; cases h
  · rw [h2] at h
    simp only [Option.bind_some, one] at h
    split at h
    · cases h; exact Or.inl ⟨by omega, rfl⟩
    · cases h
  · rw [h2] at h
    simp only [Option.bind_some, one] at h
    split at h
    · cases h; exact Or.inr ⟨by omega, rfl⟩
    · cases h

theorem tree : Tree R where
  val l u p w h := by
    match l with
    | 0 => cases (root_entry h).2
    | l + 1 =>
      rcases sub_entry h with ⟨rfl, _⟩ | ⟨rfl, _⟩
      · exact ⟨byte 2, by decide, by decide +kernel⟩
      · exact ⟨byte 3, by decide, by decide +kernel⟩
  suf l u p ρ w h := by
    match l with
    | 0 => cases (root_entry h).2
    | l + 1 => rcases sub_entry h with ⟨_, h⟩ | ⟨_, h⟩ <;> cases h
  link l u p l' h := by
    match l with
    | 0 =>
      obtain ⟨rfl, h1⟩ := root_entry h
      cases h1
      refine ⟨⟨byte 1, by decide, by decide +kernel⟩, fun u' => ?_⟩
      cases he : entry ((R 1).m u') 0 with
      | none => rfl
      | some v => rcases sub_entry he with ⟨h, _⟩ | ⟨h, _⟩ <;> cases h
    | l + 1 => rcases sub_entry h with ⟨_, h⟩ | ⟨_, h⟩ <;> cases h
  held l u p l' h := by
    match l with
    | 0 =>
      left
      change entry ((root u).m) p = _ at h
      show entry ((root (u + 1)).m) p = _
      rw [root_m] at h ⊢
      exact h
    | l + 1 => rcases sub_entry h with ⟨_, h⟩ | ⟨_, h⟩ <;> cases h

theorem perm0 (t : Nat) (h : (root t).items 0 = m0) : (R 0).Perm t 0 [25] := by
  refine ⟨by simp, fun p => ?_⟩
  show _ ↔ entry ((root t).items 0) p ≠ none
  rw [h]
  simp only [List.mem_singleton, entry, m0]
  by_cases h1 : p / 16 = 1
  · simp only [if_pos h1, Option.bind_some, lay]
    split <;> simp <;> omega
  · simp only [if_neg h1, Option.bind_none, ne_eq, not_true_eq_false, iff_false]
    omega

theorem perm1 : (R 1).Perm 8 0 [40, 56] := by
  refine ⟨by simp, fun p => ?_⟩
  show _ ↔ entry (c8.items 0) p ≠ none
  have : c8.items 0 = fun k => if k = 3 then some (one 30) else if k = 2 then some (one 20) else none := by
    funext k
    show Function.update m1 3 (some (one 30)) k = _
    by_cases h1 : k = 3
    · subst h1; rfl
    · rw [Function.update_of_ne h1, if_neg h1]; rfl
  rw [this]
  simp only [List.mem_cons, List.not_mem_nil, or_false, entry]
  by_cases h1 : p / 16 = 3
  · simp only [if_pos h1, Option.bind_some, one]
    split <;> simp <;> omega
  · by_cases h2 : p / 16 = 2
    · simp only [if_neg h1, if_pos h2, Option.bind_some, one]
      split <;> simp <;> omega
    · simp only [if_neg h1, if_neg h2, Option.bind_none, ne_eq, not_true_eq_false, iff_false]
      omega

theorem whole_wait {W : Type} {R : Nat → Hist (Ent W)} {fwd : Bool} {k : Bytes} {e : Bool} {a t : Nat} {c : Conf W}
    (h : Whole R fwd k e a t c) (d : Nat) : Whole R fwd k e a (t + d) c := by
  induction d with
  | zero => exact h
  | succ d ih => exact .wait ih

/-- The root layer while layer 1 is scanned. -/
def up1 : Frame Nat := ⟨0, .key [] true, [], 2, ⟨.scan 0 0 0 2 [25] 1, 25, false, [(25, .link 1)]⟩⟩

def sub1 (s : St (Ent Nat)) : Frame Nat := ⟨1, .all, byte 1, 2, s⟩

/-- The scan goes down at time 2, before slice 3 is added. -/
theorem scan1 : Whole R true [] true 2 2 ⟨[sub1 ⟨.walk false, 0, false, []⟩, up1], []⟩ := by
  have ok : (R 0).Ok 2 0 0 0 := ⟨⟨rfl, rfl⟩, rfl, rfl, rfl⟩
  have h0 : Whole R true [] true 2 2 ⟨[⟨0, .key [] true, [], 2, ⟨.walk true, 0, false, []⟩⟩], []⟩ := .begin
  have h1 : Whole R true [] true 2 2 ⟨[⟨0, .key [] true, [], 2, ⟨.node true 0 0 0, 0, false, []⟩⟩], []⟩ :=
    .step h0 (.run _ [] [] _ (.reach true 0 0 0 ⟨1, rfl, rfl, rfl⟩) rfl)
  have h2 : Whole R true [] true 2 2 ⟨[⟨0, .key [] true, [], 2, ⟨.init 0 0 0 2 [25], 0, false, []⟩⟩], []⟩ :=
    .step h1 (.run _ [] [] _ (.permFirst 0 0 0 [25] fun _ => perm0 2 rfl) rfl)
  have h3 : Whole R true [] true 2 2 ⟨[⟨0, .key [] true, [], 2, ⟨.scan 0 0 0 2 [25] 0, 0, false, []⟩⟩], []⟩ :=
    .step h2 (.run _ [] [] _ (.noFirst 0 0 0 2 [25] ok (by decide)) rfl)
  have h4 := Whole.step h3 (.down _ [] [] _ 25 1 (.emit 0 0 0 2 2 25 [25] 0 (.link 1) ok rfl rfl ⟨by omega, by omega⟩ rfl) rfl)
  have h5 : keyAt 25 = byte 1 := by decide +kernel
  rw [h5] at h4
  exact h4

/-- It finds both slices at time 8, and ends. -/
theorem scan2 : ∃ c, Whole R true [] true 2 8 c ∧ Ended c ∧ c.out = [(byte 1 ++ byte 3, 30), (byte 1 ++ byte 2, 20)] := by
  have ok0 : (R 0).Ok 8 0 0 0 := ⟨⟨rfl, rfl⟩, rfl, rfl, rfl⟩
  have ok1 : (R 1).Ok 8 0 0 0 := ⟨⟨rfl, rfl⟩, rfl, rfl, rfl⟩
  have k2 : keyAt 40 = byte 2 := by decide +kernel
  have k3 : keyAt 56 = byte 3 := by decide +kernel
  have h0 := whole_wait scan1 6
  have h1 : Whole R true [] true 2 8 ⟨[sub1 ⟨.node false 0 0 0, 0, false, []⟩, up1], []⟩ :=
    .step h0 (.run (sub1 _) [up1] [] _ (.reach false 0 0 0 ⟨1, rfl, rfl, rfl⟩) rfl)
  have h2 : Whole R true [] true 2 8 ⟨[sub1 ⟨.scan 0 0 0 8 [40, 56] 0, 0, false, []⟩, up1], []⟩ :=
    .step h1 (.run (sub1 _) [up1] [] _ (.perm 0 0 0 [40, 56] 0 fun _ => ⟨perm1, rfl⟩) rfl)
  have h3 := Whole.step h2 (.value (sub1 _) [up1] [] _ 40 20
    (.emit 0 0 0 8 8 40 [40, 56] 0 (.val 20) ok1 rfl rfl ⟨by omega, by omega⟩ rfl) rfl)
  have h4 := Whole.step h3 (.value (sub1 _) [up1] _ _ 56 30
    (.emit 0 0 0 8 8 56 [40, 56] 1 (.val 30) ok1 rfl rfl ⟨by omega, by omega⟩ rfl) rfl)
  rw [k2, k3] at h4
  have h5 := Whole.step h4 (.run (sub1 _) [up1] _ _ (.exhausted 0 0 0 8 [40, 56] 2 ok1 rfl) rfl)
  have h6 := Whole.step h5 (.run (sub1 _) [up1] _ _ (.forwardEnd 0 rfl rfl) rfl)
  have h7 := Whole.step h6 (.up (sub1 _) up1 [] _ 0 0 0 2 [25] 1 rfl rfl)
  have h8 := Whole.step h7 (.run { up1 with s := { up1.s with pc := .move 0 } } [] _ _ (.stable 0 rfl ok0.1) rfl)
  have h9 := Whole.step h8 (.run { up1 with s := { up1.s with pc := .node false 0 0 0 } } [] _ _
    (.perm 0 0 0 [25] 0 fun _ => ⟨perm0 8 rfl, rfl⟩) rfl)
  have h10 := Whole.step h9 (.run { up1 with s := { up1.s with pc := .scan 0 0 0 8 [25] 0 } } [] _ _
    (.skip 0 0 0 8 25 [25] 0 ok0 rfl rfl) rfl)
  have h11 := Whole.step h10 (.run { up1 with s := { up1.s with pc := .scan 0 0 0 8 [25] 1 } } [] _ _
    (.exhausted 0 0 0 8 [25] 1 ok0 rfl) rfl)
  have h12 := Whole.step h11 (.run { up1 with s := { up1.s with pc := .next 0 } } [] _ _ (.forwardEnd 0 rfl rfl) rfl)
  exact ⟨_, h12, ⟨_, rfl, rfl⟩, rfl⟩

/-- The theorems for this scan. -/
example : ∃ c : Conf Nat, (∃ w, (byte 1 ++ byte 2, w) ∈ c.out) ∧
    (c.out.reverse.map Prod.fst).Pairwise LexLt ∧ (∃ u, 2 ≤ u ∧ u ≤ 8 ∧ find R u 0 (byte 1 ++ byte 3) = some 30) ∧
    find R 2 0 (byte 1 ++ byte 3) = none := by
  obtain ⟨c, h1, h2, h3⟩ := scan2
  refine ⟨c, ?_, ?_, ?_, by decide +kernel⟩
  · refine complete layers tree h1 h2 (Or.inl (by simp [byte])) fun u h4 h5 => ?_
    match u with
    | 0 | 1 => omega
    | 2 | 3 | 4 | 5 | 6 | 7 | 8 => decide +kernel
    | u + 9 => omega
  · have := ordered layers tree h1
    simpa using this
  · exact genuine layers tree h1 (by rw [h3]; exact List.mem_cons_self ..)

end Verif.Props.C52
