import Verif.Memdebug.Steps
import Verif.Props.C16

/-!
# C71 Memory debugging lets right programs run and stops wrong releases

`Reach` are the states after any sequence of calls of any threads that release only what they hold, with the size and type it
was allocated with.  The status of blocks (`Ghost`) is kept without looking at headers.
-/
namespace Verif.Props.C71

open Verif.Memdebug

/-- The call releases block `m` as one of `sz` bytes; `tag` is its type, with the number of lines for pools. -/
inductive Releases : Op → Nat → Nat → Nat → Prop where
  | deallocate {m sz tag : Nat} : Releases (.deallocate m sz tag) m sz tag
  | deallocateRcu {t m sz tag : Nat} : Releases (.deallocateRcu t m sz tag) m sz tag
  | poolDeallocate {t m sz tag : Nat} (h : lines sz ≤ 20) : Releases (.poolDeallocate t m sz tag) m sz (tag + lines sz)
  | poolDeallocateRcu {t m sz tag : Nat} (h : lines sz ≤ 20) : Releases (.poolDeallocateRcu t m sz tag) m sz (tag + lines sz)

/-- Proper calls never fail an assertion. -/
theorem runs {s : State} {g : Ghost} (h : Reach s g) {op : Op} (hp : Proper s.pools g op) (hu : ∀ m a, op ≠ .assertUse m a) :
    (exec s op).isSome = true := by
  obtain ⟨L, hL⟩ := h.inv
  obtain ⟨s', r, _, he, _⟩ := hL.step hp hu
  rw [he]; rfl

/-- A release goes through exactly if the block is in use and the size and type are right.  So a block that was released
already, by whatever call and thread, is not released again, and blocks of a pool are not taken for others. -/
theorem releases {s : State} {g : Ghost} (h : Reach s g) {op : Op} {m sz tag : Nat} (hr : Releases op m sz tag)
    (hm : g m ≠ .out) (ht : tag ≠ 0) : (exec s op).isSome = true ↔ g m = .live sz tag := by
  obtain ⟨L, hL⟩ := h.inv
  rw [← hL.checks hm ht]
  cases hr with
  | deallocate => simp only [exec]; split <;> simp_all
  | deallocateRcu => simp only [exec]; split <;> simp_all
  | poolDeallocate hl => simp only [exec, maxLines, hl, true_and]; split <;> simp_all
  | poolDeallocateRcu hl => simp only [exec, maxLines, hl, true_and]; split <;> simp_all

/-- The pointer returned is not one that anybody holds or may still look at, and blocks of pools have the lines for the header
and the size. -/
theorem fresh {s s' : State} {g : Ghost} (h : Reach s g) {t sz tag r : Nat} {area : List Nat}
    (hp : Proper s.pools g (.poolAllocate t sz tag area)) (he : exec s (.poolAllocate t sz tag area) = some (s', r)) :
    r = 0 ∧ area = [] ∨ (g r = .free t (lines sz) ∨ g r = .out ∧ r ∈ area) ∧ s.unit ∣ r ∧ 32 + sz ≤ 64 * lines sz := by
  obtain ⟨L, hL⟩ := h.inv
  obtain ⟨hl, ht, hn, ha⟩ := hp
  have hsum := sum_mod ht hl
  have hlines : 32 + sz ≤ 64 * lines sz := by unfold lines headSize; omega
  simp only [exec, if_pos hl] at he
  by_cases h0 : s.pool t (lines sz) = 0
  · simp only [if_pos h0] at he
    have hhead : (s.refill t (lines sz) area).pool t (lines sz) = area.head?.getD 0 := by simp [State.refill, State.setPool]
    cases area with
    | nil =>
      left
      simp only [hhead] at he
      simp only [List.head?_nil, Option.getD_none, ne_eq, not_true_eq_false, if_false] at he
      injection he with he; injection he with h1 h2
      exact ⟨h2.symm, rfl⟩
    | cons a l =>
      right
      have haa := ha a (by simp)
      simp only [hhead, List.head?_cons, Option.getD_some, ne_eq, haa.2.1, not_false_eq_true, if_true] at he
      injection he with he; injection he with h1 h2
      subst h2
      exact ⟨.inr ⟨haa.1, by simp⟩, haa.2.2, hlines⟩
  · simp only [h0, if_false, ne_eq, not_false_eq_true, if_true] at he
    injection he with he; injection he with h1 h2
    subst h2
    have hf := (hL.pop h0 hsum).1
    exact .inr ⟨.inl hf, hL.freeAl _ _ _ hf, hlines⟩

/-- A use is let through exactly if the block is in use, or was released but not freed, and is of the type allowed. -/
theorem uses {s : State} {g : Ghost} (h : Reach s g) {m allowed : Nat} (hm : g m ≠ .out) :
    (exec s (.assertUse m allowed)).isSome = true ↔
      ∃ tag, ((∃ sz, g m = .live sz tag) ∨ ∃ t, g m = .gone t tag) ∧ (allowed = 0 ∨ tag / 256 = allowed / 256) := by
  obtain ⟨L, hL⟩ := h.inv
  have hx : ∀ tag, tag ^^^ allowed ≤ 255 ↔ tag / 256 = allowed / 256 := by
    intro tag
    have h1 : tag ^^^ allowed ≤ 255 ↔ (tag ^^^ allowed) / 256 = 0 := by omega
    rw [h1, show (256 : Nat) = 2 ^ 8 from rfl, ← Nat.shiftRight_eq_div_pow, Nat.shiftRight_xor_distrib,
      Nat.shiftRight_eq_div_pow, Nat.shiftRight_eq_div_pow]
    generalize tag / 2 ^ 8 = a
    generalize allowed / 2 ^ 8 = b
    constructor
    · intro h
      have := congrArg (· ^^^ b) h
      simpa [Nat.xor_assoc] using this
    · rintro rfl; simp
  have he : (exec s (.assertUse m allowed)).isSome = true ↔ checkUse (s.hdr m) allowed = true := by
    simp only [exec]; split <;> simp_all
  rw [he]
  unfold checkUse poolMask
  rw [decide_eq_true_eq]
  have hmg : ∀ sz tag, (make sz tag).word % half = magicUsed := fun sz tag => make_magic sz tag
  have htg : ∀ sz tag, (make sz tag).word / half = tag := fun sz tag => make_tag sz tag
  cases hg : g m with
  | out => exact absurd hg hm
  | free t n =>
    have := magic_of_dvd (unit_cases s) (hL.free_magic hg)
    simp [this]
  | live sz tag =>
    rw [(hL.live m sz tag hg).1]
    simp only [Hdr.magic, Hdr.tag, hmg, htg, hx]
    simp
  | gone t tag =>
    obtain ⟨sz, he⟩ := hL.goneHdr m t tag hg
    rw [he]
    simp only [Hdr.magic, Hdr.tag, hmg, htg, hx]
    simp

/-- A second release of a block that is in a pool is stopped, but the message is that the pointer was never allocated: the link of
the pool has been written over `magic_free_value` (kvthread.hh:245, memdebug.hh:101). -/
theorem wrong_message {s : State} {g : Ghost} (h : Reach s g) (hu : s.pools = true) {m t n : Nat} (hm : g m = .free t n) (sz tag : Nat) :
    (freeChecks (s.hdr m) sz tag false).1 = .unallocated := by
  obtain ⟨L, hL⟩ := h.inv
  have hd := hL.free_magic hm
  simp only [State.unit, hu, if_true] at hd
  have h1 : (s.hdr m).magic ≠ magicUsed := magic_of_dvd (.inl rfl) hd
  have h2 : (s.hdr m).magic ≠ magicFree := by unfold Hdr.magic half magicFree; omega
  simp [freeChecks, hardChecks, h1, h2]

/-- A block waiting for its readers that is released again is named rightly. -/
theorem right_message {s : State} {g : Ghost} (h : Reach s g) {m t sz tag : Nat} (hm : g m = .gone t tag)
    (hs : (s.hdr m).size = sz) : (freeChecks (s.hdr m) sz tag false).1 = .afterRcu := by
  obtain ⟨L, hL⟩ := h.inv
  obtain ⟨sz', he⟩ := hL.goneHdr m t tag hm
  rw [he] at hs ⊢
  have hmg : (make sz' tag).word % half = magicUsed := make_magic sz' tag
  have htg : (make sz' tag).word / half = tag := make_tag sz' tag
  have hsz : sz' = sz := hs
  subst hsz
  have hsize : (make sz' tag).size = sz' := rfl
  simp only [freeChecks, hardChecks, Hdr.magic, Hdr.tag, hmg, htg, hsize]
  simp [magicUsed, magicFree]

/-- Without a type nothing is checked about the type (memdebug.cc:44, 54): a block of a pool can then be released as if it came
from `malloc`. -/
theorem no_type {s : State} {g : Ghost} (h : Reach s g) {m sz tag : Nat} (hm : g m = .live sz tag) :
    (exec s (.deallocate m sz 0)).isSome = true := by
  obtain ⟨L, hL⟩ := h.inv
  have hc : (freeChecks (s.hdr m) sz 0 false).2 = true := by
    rw [freeChecks_iff, (hL.live m sz tag hm).1]
    exact ⟨make_magic sz tag, fun hc => absurd rfl hc, fun _ => rfl, rfl⟩
  simp [exec, hc]

/-! ## Callers -/

/-- What `value_bag::update` asks for, /repo/value_bag.hh:142-155. -/
def bagAllocated (r : Row.Bag.Row) (ups : List (Nat × Key.Bytes)) : Int :=
  let (sz, n) := Row.Bag.newSize r ups r.size r.ncol
  if n > r.ncol then sz + (n - r.ncol : Nat) * 2 else sz

/-- Rows are released with the size they were allocated with (/repo/value_bag.hh:125-133): all that updates build. -/
theorem bag_size (r : Row.Bag.Row) (h : C16.Made r) (ups : List (Nat × Key.Bytes)) (hi : C16.Increasing ups) (hf : C16.Fit r ups)
    (ts : BitVec 64) : ∃ r', r.update ups ts = some r' ∧ bagAllocated r ups = r'.size := by
  obtain ⟨ts0, cs, rfl, hfs⟩ := h.cols
  obtain ⟨h1, h2, h3, h4⟩ := C16.update_ofCols' ts0 ts hfs hi hf
  refine ⟨_, h1, ?_⟩
  have hinc := C16.incr_of_pairwise ups 0 hi fun _ _ => Nat.zero_le _
  have hns := Row.Bag.newSize_spec ts0 hfs ups 0 (Row.Bag.ofCols ts0 cs).size hinc
  have hn : ∀ ts cs, (Row.Bag.ofCols ts cs).ncol = cs.length := fun _ _ => rfl
  have hmx : max cs.length 0 = (Row.Bag.ofCols ts0 cs).ncol := by rw [hn]; omega
  rw [hmx, List.drop_zero, Nat.zero_add] at hns
  have hsize : ∀ ts cs, (Row.Bag.ofCols ts cs).size = 8 + Row.Bag.hdr cs.length + cs.flatten.length := by
    intro ts cs
    unfold Row.Bag.Row.size
    rw [hn, Row.Bag.at_ofCols ts cs (Nat.le_refl _), List.take_length]; omega
  have hmono : cs.length ≤ (Row.Bag.over 0 cs ups).length := by
    rw [h3]; exact C16.foldl_ge ups _
  unfold bagAllocated
  rw [hns]
  dsimp only
  rw [hn, hsize, hsize]
  unfold Row.Bag.hdr
  split <;> omega

/-- The callback that destroys a table (24 bytes: a table of functions, `root_` and `count_`) is released as one of the size of a
pointer (masstree_remove.hh:354, 360): with memory debugging that stops the program. -/
theorem destroy_stops {s : State} {g : Ghost} (h : Reach s g) {m : Nat} (hm : g m = .live 24 0x1300) :
    exec s (.deallocate m 8 0x1300) = none := by
  have := releases h (Releases.deallocate (m := m) (sz := 8) (tag := 0x1300)) (by rw [hm]; simp) (by decide)
  rw [hm] at this
  simpa using this

/-! ## A run -/

/-- Any thread starts with empty pools. -/
def start : State := { pools := true, hdr := fun _ => ⟨0, 0, false⟩, pool := fun _ _ => 0, limbo := fun _ => [] }

/-- The state and status after calls. -/
def go : State × Ghost → List Op → Option (State × Ghost)
  | x, [] => some x
  | x, op :: l => match exec x.1 op with
    | some (s', r) => go (s', track x.1.pools x.2 x.1.limbo op r) l
    | none => none

/-- All calls are proper. -/
def allProper : State × Ghost → List Op → Prop
  | _, [] => True
  | x, op :: l => Proper x.1.pools x.2 op ∧ match exec x.1 op with
    | some (s', r) => allProper (s', track x.1.pools x.2 x.1.limbo op r) l
    | none => True

theorem go_reach {l : List Op} : ∀ {x y : State × Ghost}, Reach x.1 x.2 → allProper x l → go x l = some y → Reach y.1 y.2 := by
  induction l with
  | nil => intro x y h _ hg; injection hg with hg; subst hg; exact h
  | cons op l ih =>
    intro x y h hp hg
    simp only [go] at hg
    cases he : exec x.1 op with
    | none => rw [he] at hg; cases hg
    | some v =>
      obtain ⟨s', r⟩ := v
      rw [he] at hg
      have hp' := hp.2
      rw [he] at hp'
      exact ih (Reach.step h hp.1 he) hp' hg

/-- Thread 1 takes a leaf out of a new area, an internode and a value; thread 2 releases the leaf at once and the value later. -/
def calls : List Op := [.poolAllocate 1 300 0x1000 [6400, 6784], .poolAllocate 1 250 0x1100 [12800], .allocate 16 40 0x100,
  .poolDeallocate 2 6400 300 0x1000, .deallocateRcu 2 16 40 0x100]

/-- After the calls the leaf is in a pool of thread 2, the internode in use, and the value waits. -/
example : ∃ y, go (start, fun _ => .out) calls = some y ∧ Reach y.1 y.2 ∧ y.1.pools = true ∧ y.2 6400 = .free 2 6 ∧
    y.2 12800 = .live 250 0x1105 ∧ y.2 16 = .gone 2 0x100 ∧
    (exec y.1 (.poolDeallocate 1 6400 300 0x1000)).isSome = false ∧ (exec y.1 (.deallocate 12800 250 0x1100)).isSome = false ∧
    (exec y.1 (.poolDeallocate 1 12800 250 0x1100)).isSome = true ∧ (exec y.1 (.deallocate 16 40 0x100)).isSome = false ∧
    (exec y.1 (.assertUse 16 0x100)).isSome = true ∧ (exec y.1 (.assertUse 6400 0x1000)).isSome = false := by
  have hr : Reach start fun _ => .out := .init ⟨fun _ _ => rfl, fun _ => rfl, fun _ => rfl⟩
  refine ⟨(go (start, fun _ => .out) calls).get (by decide +kernel), by simp, go_reach (x := (start, fun _ => .out)) (l := calls) hr ?_ (by simp), ?_⟩
  · simp only [calls, allProper]
    refine ⟨⟨by decide, by decide, by decide, by decide⟩, ⟨by decide, by decide, by decide, by decide +kernel⟩, ?_, ?_, ?_, trivial⟩
    · exact ⟨by decide +kernel, by decide, by decide, by decide⟩
    · exact ⟨by decide +kernel, by decide, by decide⟩
    · exact ⟨by decide +kernel, by decide⟩
  · decide +kernel

/-- A row of one column gets a third. -/
example : bagAllocated (Row.Bag.create1 [7] 1) [(2, [1, 2])] = 8 + 4 + 6 + 3 := by decide +kernel

/-- The callback of a table. -/
example : ∃ s g, Reach s g ∧ g 16 = .live 24 0x1300 := by
  have hr : Reach start fun _ => .out := .init ⟨fun _ _ => rfl, fun _ => rfl, fun _ => rfl⟩
  exact ⟨_, _, hr.step (op := .allocate 16 24 0x1300) ⟨rfl, by decide, by decide, by decide⟩ rfl, rfl⟩

/-- What the checks cannot see: a block that was released and handed out again for the same use can be released by the one that
had it first. -/
example : ((go (start, fun _ => .out) [.poolAllocate 1 300 0x1000 [6400], .poolDeallocate 1 6400 300 0x1000,
    .poolAllocate 1 300 0x1000 [12800]]).bind fun y => exec y.1 (.poolDeallocate 2 6400 300 0x1000)).isSome = true := by
  decide +kernel

end Verif.Props.C71
