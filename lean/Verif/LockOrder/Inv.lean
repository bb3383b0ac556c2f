import Verif.LockOrder.Model

/-!
# What holds in every reachable state
-/
namespace Verif.LockOrder

open Function (update)

/-- Allocated and in the tree. -/
def State.Live (s : State) (n : Nat) : Prop := n < s.fresh ∧ ¬ s.dead n

/-- The leaf that `make_split` keeps while it works at height `h` in the layer `l`. -/
def State.Kept (s : State) (l h : Nat) : Option Nat → Prop
  | none => h = 0
  | some t => 0 < h ∧ s.Live t ∧ s.ht t = 0 ∧ s.lay t = l

/-- The two halves of a split, the right one not yet in the tree. -/
structure State.Halves (s : State) (n c : Nat) (t : Option Nat) (h : Nat) : Prop where
  left : s.Live n
  right : s.Live c
  ne : n ≠ c
  hn : s.ht n = h
  hc : s.ht c = h
  lay : s.lay c = s.lay n
  loose : s.parent c = none
  kept : s.Kept (s.lay n) h t

/-- `p` is a node above height `h` in layer `l`, with the right half `x` if it was split. -/
structure State.Above (s : State) (p x : Option Nat) (l h : Nat) : Prop where
  live : ∀ q, p = some q → s.Live q ∧ s.lay q = l ∧ h < s.ht q
  half : ∀ y, x = some y → ∃ q, p = some q ∧ q ≠ y ∧ s.Live y ∧ s.lay y = l ∧ s.ht q = h + 1 ∧ s.ht y = h + 1 ∧
    s.parent y = none

/-- `r` is the only child of a node to be deleted. -/
structure State.Going (s : State) (n : Nat) (r : Option Nat) : Prop where
  live : s.Live n
  only : ∀ m, s.kids n m ↔ r = some m

/-- What a thread knows at each point. -/
def State.Loc (s : State) : PC → Prop
  | .idle => True
  | .want n => n < s.fresh
  | .look n => n < s.fresh ∧ s.ht n = 0
  | .hold n => s.Live n ∧ s.ht n = 0
  | .twig n c => s.Live n ∧ s.ht n = 0 ∧ s.Live c ∧ s.ht c = 0 ∧ n ≠ c
  | .link n c => s.Halves n c none 0
  | .par n c t h => s.Halves n c t h
  | .wait p n c t h => s.Halves n c t h ∧ p < s.fresh ∧ s.lay p = s.lay n ∧ h < s.ht p
  | .got p n c t h => s.Halves n c t h ∧ p < s.fresh ∧ s.lay p = s.lay n ∧ h < s.ht p
  | .mod p n c t h => s.Halves n c t h ∧ s.parent n = some p ∧ s.kids p n
  | .fin p x n c t h => s.Live n ∧ s.Live c ∧ n ≠ c ∧ s.ht n = h ∧ s.ht c = h ∧ s.lay c = s.lay n ∧
      s.Kept (s.lay n) h t ∧ s.Above p x (s.lay n) h
  | .fin' p x c t h => s.Live c ∧ s.Live t ∧ 0 < h ∧ s.ht c = h ∧ s.ht t = 0 ∧ s.lay t = s.lay c ∧ s.Above p x (s.lay c) h
  | .rel p x t h => s.Live t ∧ s.ht t = 0 ∧ s.Above p x (s.lay t) h
  | .unl n => s.Live n ∧ s.ht n = 0
  | .rpar n r => s.Going n r
  | .rwait p n r => s.Going n r ∧ p < s.fresh ∧ s.lay p = s.lay n ∧ s.ht n < s.ht p
  | .rgot p n r => s.Going n r ∧ p < s.fresh ∧ s.lay p = s.lay n ∧ s.ht n < s.ht p
  | .rmod p n r => s.Going n r ∧ s.parent n = some p ∧ s.kids p n
  | .dpar q p n => s.Live q ∧ s.Live p ∧ n < s.fresh ∧ s.ht n < s.ht p ∧ s.ht p ≤ s.ht q ∧ s.lay p = s.lay n ∧ s.lay q = s.lay n ∧
      (q ≠ p → s.ht p < s.ht q)
  | .dwait u q p n => s.Live q ∧ s.Live p ∧ n < s.fresh ∧ s.ht n < s.ht p ∧ s.ht p ≤ s.ht q ∧ s.lay p = s.lay n ∧ s.lay q = s.lay n ∧
      (q ≠ p → s.ht p < s.ht q) ∧ u < s.fresh ∧ s.lay u = s.lay q ∧ s.ht q < s.ht u
  | .dgot u q p n => s.Live q ∧ s.Live p ∧ n < s.fresh ∧ s.ht n < s.ht p ∧ s.ht p ≤ s.ht q ∧ s.lay p = s.lay n ∧ s.lay q = s.lay n ∧
      (q ≠ p → s.ht p < s.ht q) ∧ u < s.fresh ∧ s.lay u = s.lay q ∧ s.ht q < s.ht u
  | .dmod u q p n => s.Live q ∧ s.Live p ∧ n < s.fresh ∧ s.ht n < s.ht p ∧ s.ht p ≤ s.ht q ∧ s.lay p = s.lay n ∧ s.lay q = s.lay n ∧
      (q ≠ p → s.ht p < s.ht q) ∧ s.Live u ∧ s.lay u = s.lay q ∧ s.ht q < s.ht u
  | .dtop u p n => s.Live u ∧ s.Live p ∧ n < s.fresh ∧ s.ht n < s.ht p ∧ s.ht p < s.ht u ∧ s.lay p = s.lay n ∧ s.lay u = s.lay n
  | .rend p n => s.Live p ∧ n < s.fresh ∧ s.ht n < s.ht p ∧ s.lay p = s.lay n
  | .rnext p => s.Live p
  | .gc n r => s.Live n ∧ s.ht n = 0 ∧ r < s.fresh ∧ s.dep (s.lay r) = s.dep (s.lay n) + 1
  | .gwait n r => s.Live n ∧ s.ht n = 0 ∧ r < s.fresh ∧ s.dep (s.lay r) = s.dep (s.lay n) + 1
  | .ggot n r => s.Live n ∧ s.ht n = 0 ∧ r < s.fresh ∧ s.dep (s.lay r) = s.dep (s.lay n) + 1
  | .gch n r c => s.Live n ∧ s.ht n = 0 ∧ r < s.fresh ∧ s.dep (s.lay r) = s.dep (s.lay n) + 1 ∧ s.parent r = none ∧
      ∀ m, s.kids r m ↔ m = c
  | .gup n r c => s.Live n ∧ s.ht n = 0 ∧ r < s.fresh ∧ s.dep (s.lay r) = s.dep (s.lay n) + 1 ∧ s.parent r = none ∧
      (∀ m, ¬ s.kids r m) ∧ c < s.fresh ∧ s.lay c = s.lay r

/-- A list operation on `n` is under way or just over. -/
def PC.listing : PC → Option Nat
  | .link n _ => some n
  | .unl n => some n
  | _ => none

structure Inv (key : Nat → Nat → Nat) (s : State) : Prop where
  held : ∀ q i, s.lock q = some i ↔ q ∈ (s.pc i).held
  lockLt : ∀ q i, s.lock q = some i → q < s.fresh
  parLt : ∀ q p, s.parent q = some p → p < s.fresh ∧ q < s.fresh ∧ s.lay p = s.lay q
  deadLt : ∀ q, s.dead q → q < s.fresh
  layLt : ∀ q, q < s.fresh → s.lay q < s.fresh
  subLt : ∀ n r, s.sub n r → n < s.fresh ∧ r < s.fresh ∧ s.dep (s.lay r) = s.dep (s.lay n) + 1
  kid : ∀ p c, s.kids p c → s.Live p ∧ s.Live c ∧ s.parent c = some p ∧ s.ht c < s.ht p
  par : ∀ q p, ¬ s.dead q → s.parent q = some p → s.kids p q
  loc : ∀ i, s.Loc (s.pc i)
  busy : ∀ l m, (s.list l).op m ≠ .idle → ∃ i n, (s.pc i).listing = some n ∧ s.lay n = l ∧ s.lid n = m
  lists : ∀ l, Leaflink.Reachable (key l) (s.list l)

/-- What other threads see of a step of a thread that holds the locks of the nodes in `H`. -/
structure Frame (H : Nat → Prop) (s s' : State) : Prop where
  fresh : s.fresh ≤ s'.fresh
  ht : ∀ x, x < s.fresh → s'.ht x = s.ht x
  lay : ∀ x, x < s.fresh → s'.lay x = s.lay x
  dep : ∀ x, x < s.fresh → s'.dep x = s.dep x
  dead : ∀ x, x < s.fresh → ¬ H x → (s'.dead x ↔ s.dead x)
  kids : ∀ x, x < s.fresh → ¬ H x → ∀ y, s'.kids x y ↔ s.kids x y
  loose : ∀ x, x < s.fresh → ¬ H x → s.parent x = none → s'.parent x = none
  under : ∀ x p, x < s.fresh → ¬ H x → s.parent x = some p → ¬ H p → s'.parent x = some p

theorem Frame.live {H : Nat → Prop} {s s' : State} (f : Frame H s s') {x : Nat} (hx : ¬ H x) (h : s.Live x) : s'.Live x :=
  ⟨Nat.lt_of_lt_of_le h.1 f.fresh, fun h' => h.2 ((f.dead x h.1 hx).mp h')⟩

theorem Frame.kept {H : Nat → Prop} {s s' : State} (f : Frame H s s') {l h : Nat} {t : Option Nat} (hx : ∀ x ∈ t, ¬ H x)
    (hk : s.Kept l h t) : s'.Kept l h t := by
  cases t with
  | none => exact hk
  | some t =>
    obtain ⟨h1, h2, h3, h4⟩ := hk
    exact ⟨h1, f.live (hx t rfl) h2, f.ht t h2.1 ▸ h3, f.lay t h2.1 ▸ h4⟩

theorem Frame.halves {H : Nat → Prop} {s s' : State} (f : Frame H s s') {n c h : Nat} {t : Option Nat} (hn : ¬ H n)
    (hc : ¬ H c) (hx : ∀ x ∈ t, ¬ H x) (hk : s.Halves n c t h) : s'.Halves n c t h := by
  have e := f.lay n hk.left.1
  exact ⟨f.live hn hk.left, f.live hc hk.right, hk.ne, f.ht n hk.left.1 ▸ hk.hn, f.ht c hk.right.1 ▸ hk.hc,
    by rw [f.lay c hk.right.1, e]; exact hk.lay, f.loose c hk.right.1 hc hk.loose, by rw [e]; exact f.kept hx hk.kept⟩

theorem Frame.above {H : Nat → Prop} {s s' : State} (f : Frame H s s') {p x : Option Nat} {l h : Nat} (hp : ∀ q ∈ p, ¬ H q)
    (hx : ∀ q ∈ x, ¬ H q) (hk : s.Above p x l h) : s'.Above p x l h := by
  constructor
  · intro q hq
    obtain ⟨h1, h2, h3⟩ := hk.live q hq
    exact ⟨f.live (hp q hq) h1, f.lay q h1.1 ▸ h2, f.ht q h1.1 ▸ h3⟩
  · intro y hy
    obtain ⟨q, h1, h2, h3, h4, h5, h6, h7⟩ := hk.half y hy
    have := (hk.live q h1).1
    exact ⟨q, h1, h2, f.live (hx y hy) h3, f.lay y h3.1 ▸ h4, f.ht q this.1 ▸ h5, f.ht y h3.1 ▸ h6, f.loose y h3.1 (hx y hy) h7⟩

theorem Frame.going {H : Nat → Prop} {s s' : State} (f : Frame H s s') {n : Nat} {r : Option Nat} (hn : ¬ H n)
    (hk : s.Going n r) : s'.Going n r :=
  ⟨f.live hn hk.live, fun m => (f.kids n hk.live.1 hn m).trans (hk.only m)⟩

/-- What a thread knows is not changed by the others. -/
theorem Frame.loc {H : Nat → Prop} {s s' : State} (f : Frame H s s') {pc : PC} (hl : s.Loc pc) (hh : ∀ q ∈ pc.held, ¬ H q)
    (hlay : ∀ q, q < s.fresh → s.lay q < s.fresh)
    (hlt : ∀ q p, s.parent q = some p → p < s.fresh ∧ q < s.fresh ∧ s.lay p = s.lay q) : s'.Loc pc := by
  have hf := f.fresh
  have hht := f.ht
  have hly := f.lay
  have hdp := f.dep
  cases pc with
  | idle => trivial
  | want n => exact Nat.lt_of_lt_of_le hl f.fresh
  | link n c => exact f.halves (hh _ (by simp [PC.held])) (hh _ (by simp [PC.held])) (by simp) hl
  | par n c t h =>
    exact f.halves (hh _ (by simp [PC.held])) (hh _ (by simp [PC.held])) (fun x hx => hh _ (by simp_all [PC.held])) hl
  | wait p n c t h =>
    obtain ⟨h1, h2, h3, h4⟩ := hl
    refine ⟨f.halves (hh _ (by simp [PC.held])) (hh _ (by simp [PC.held])) (fun x hx => hh _ (by simp_all [PC.held])) h1, ?_⟩
    grind [State.Live, h1.left]
  | got p n c t h =>
    obtain ⟨h1, h2, h3, h4⟩ := hl
    refine ⟨f.halves (hh _ (by simp [PC.held])) (hh _ (by simp [PC.held])) (fun x hx => hh _ (by simp_all [PC.held])) h1, ?_⟩
    grind [State.Live, h1.left]
  | mod p n c t h =>
    obtain ⟨h1, h2, h3⟩ := hl
    refine ⟨f.halves (hh _ (by simp [PC.held])) (hh _ (by simp [PC.held])) (fun x hx => hh _ (by simp_all [PC.held])) h1,
      f.under _ _ h1.left.1 (hh _ (by simp [PC.held])) h2 (hh _ (by simp [PC.held])),
      (f.kids _ (hlt _ _ h2).1 (hh _ (by simp [PC.held])) _).mpr h3⟩
  | fin p x n c t h =>
    obtain ⟨h1, h2, h3, h4, h5, h6, h7, h8⟩ := hl
    have e := f.lay n h1.1
    refine ⟨f.live (hh _ (by simp [PC.held])) h1, f.live (hh _ (by simp [PC.held])) h2, h3, f.ht n h1.1 ▸ h4, f.ht c h2.1 ▸ h5,
      by rw [f.lay c h2.1, e]; exact h6, ?_, ?_⟩
    · rw [e]; exact f.kept (fun x hx => hh _ (by simp_all [PC.held])) h7
    · rw [e]; exact f.above (fun x hx => hh _ (by simp_all [PC.held])) (fun x hx => hh _ (by simp_all [PC.held])) h8
  | fin' p x c t h =>
    obtain ⟨h1, h2, h3, h4, h5, h6, h7⟩ := hl
    have e := f.lay c h1.1
    refine ⟨f.live (hh _ (by simp [PC.held])) h1, f.live (hh _ (by simp [PC.held])) h2, h3, f.ht c h1.1 ▸ h4, f.ht t h2.1 ▸ h5,
      by rw [f.lay t h2.1, e]; exact h6, ?_⟩
    rw [e]; exact f.above (fun x hx => hh _ (by simp_all [PC.held])) (fun x hx => hh _ (by simp_all [PC.held])) h7
  | rel p x t h =>
    obtain ⟨h1, h2, h3⟩ := hl
    refine ⟨f.live (hh _ (by simp [PC.held])) h1, f.ht t h1.1 ▸ h2, ?_⟩
    rw [f.lay t h1.1]; exact f.above (fun x hx => hh _ (by simp_all [PC.held])) (fun x hx => hh _ (by simp_all [PC.held])) h3
  | rpar n r => exact f.going (hh _ (by simp [PC.held])) hl
  | rwait p n r =>
    obtain ⟨h1, h2, h3, h4⟩ := hl
    exact ⟨f.going (hh _ (by simp [PC.held])) h1, by grind [State.Live, h1.live]⟩
  | rgot p n r =>
    obtain ⟨h1, h2, h3, h4⟩ := hl
    exact ⟨f.going (hh _ (by simp [PC.held])) h1, by grind [State.Live, h1.live]⟩
  | rmod p n r =>
    obtain ⟨h1, h2, h3⟩ := hl
    exact ⟨f.going (hh _ (by simp [PC.held])) h1,
      f.under _ _ h1.live.1 (hh _ (by simp [PC.held])) h2 (hh _ (by simp [PC.held])),
      (f.kids _ (hlt _ _ h2).1 (hh _ (by simp [PC.held])) _).mpr h3⟩
  | gch n r c =>
    obtain ⟨h1, h2, h3, h4, h5, h6⟩ := hl
    refine ⟨f.live (hh _ (by simp [PC.held])) h1, f.ht _ h1.1 ▸ h2, by omega, ?_,
      f.loose r h3 (hh _ (by simp [PC.held])) h5, fun m => (f.kids _ h3 (hh _ (by simp [PC.held])) _).trans (h6 m)⟩
    rw [f.lay r h3, f.lay n h1.1, f.dep _ (hlay _ h3), f.dep _ (hlay _ h1.1), h4]
  | gup n r c =>
    obtain ⟨h1, h2, h3, h4, h5, h6, h7, h8⟩ := hl
    refine ⟨f.live (hh _ (by simp [PC.held])) h1, f.ht _ h1.1 ▸ h2, by omega, ?_,
      f.loose r h3 (hh _ (by simp [PC.held])) h5, fun m h => h6 m ((f.kids _ h3 (hh _ (by simp [PC.held])) _).mp h),
      by omega, by rw [f.lay c h7, f.lay r h3, h8]⟩
    rw [f.lay r h3, f.lay n h1.1, f.dep _ (hlay _ h3), f.dep _ (hlay _ h1.1), h4]
  | _ =>
    have hd := f.dead
    simp only [PC.held, State.Loc, State.Live, List.mem_cons, List.not_mem_nil] at hl hh ⊢
    clear f hlt
    grind

/-- The invariant after a step of thread `i`, from what changes. -/
theorem Inv.next {key : Nat → Nat → Nat} {i : Nat} {s s' : State} (hi : Inv key s) (f : Frame (fun q => s.lock q = some i) s s')
    (hpc : ∀ j, j ≠ i → s'.pc j = s.pc j)
    (mine : ∀ q, s'.lock q = some i ↔ q ∈ (s'.pc i).held)
    (others : ∀ q j, j ≠ i → (s'.lock q = some j ↔ s.lock q = some j))
    (new : ∀ q, s'.lock q = some i → q < s'.fresh)
    (parLt : ∀ q p, s'.parent q = some p → p < s'.fresh ∧ q < s'.fresh ∧ s'.lay p = s'.lay q)
    (deadLt : ∀ q, s'.dead q → q < s'.fresh)
    (layLt : ∀ q, q < s'.fresh → s'.lay q < s'.fresh)
    (subLt : ∀ n r, s'.sub n r → n < s'.fresh ∧ r < s'.fresh ∧ s'.dep (s'.lay r) = s'.dep (s'.lay n) + 1)
    (kid : ∀ p c, s'.kids p c → s'.Live p ∧ s'.Live c ∧ s'.parent c = some p ∧ s'.ht c < s'.ht p)
    (par : ∀ q p, ¬ s'.dead q → s'.parent q = some p → s'.kids p q)
    (loc : s'.Loc (s'.pc i))
    (busy : ∀ l m, (s'.list l).op m ≠ .idle → ∃ i n, (s'.pc i).listing = some n ∧ s'.lay n = l ∧ s'.lid n = m)
    (lists : ∀ l, Leaflink.Reachable (key l) (s'.list l)) : Inv key s' := by
  refine ⟨fun q j => ?_, fun q j hq => ?_, parLt, deadLt, layLt, subLt, kid, par, fun j => ?_, busy, lists⟩
  · by_cases h : j = i
    · subst h; exact mine q
    · rw [others q j h, hpc j h]; exact hi.held q j
  · by_cases h : j = i
    · subst h; exact new q hq
    · exact Nat.lt_of_lt_of_le (hi.lockLt q j ((others q j h).mp hq)) f.fresh
  · by_cases h : j = i
    · subst h; exact loc
    · rw [hpc j h]; refine f.loc (hi.loc j) (fun q hq h' => ?_) hi.layLt hi.parLt
      rw [(hi.held q j).mpr hq] at h'
      exact h (Option.some.inj h')

end Verif.LockOrder
