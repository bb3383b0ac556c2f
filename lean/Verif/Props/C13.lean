import Verif.Rcu.EpochsInv

/-!
# C13: retired memory is never reused while a reader may still hold it

Statements about the interleavings of `Verif.Rcu.Epochs`, for any number of threads.  Assumptions: memory accesses are
sequentially consistent (`tso = false`), calls of `epochinc` do not overlap, and nobody stays in a section for more than
2^60 increments of the epoch.  The last three theorems show what goes wrong without the first two assumptions and when
objects are retired before they are unlinked.
-/
namespace Verif.Props.C13
open Verif.Rcu Verif.Rcu.Epochs
open Function (update)

/-- Executions throughout which thread `t` is in a section, and in the same one. -/
inductive Stays (c : Cfg) (t : Nat) : State → State → Prop where
  | refl {s : State} (h : s.pc t = .inside) : Stays c t s s
  | step {s s' s'' : State} (h : Stays c t s s') (h' : Step c s' s'') (hp : s''.pc t = .inside) : Stays c t s s''

/-- The epoch protocol without the assumptions that fail below. -/
def Ordered (c : Cfg) : Prop := c.tso = false ∧ c.overlap = false

theorem stays_reachable {c : Cfg} {t : Nat} {s s' : State} (h : Stays c t s s') (hr : Reachable c s) : Reachable c s' := by
  induction h with
  | refl => exact hr
  | step _ h' _ ih => exact .step ih h'

/-- Being retired is for good. -/
theorem retired_stays {c : Cfg} {s s' : State} (h : Step c s s') {o : Nat} {x : Nat × Nat} (hr : s.retired o = some x) :
    s'.retired o = some x := by
  cases h with
  | retire u y hp hn =>
    have hne : o ≠ y := by rintro rfl; rw [hr] at hn; simp at hn
    simp only [upd_ne hne]; exact hr
  | _ => exact hr

/-- A thread that was in a section when an object was retired, and has not left it, is recorded as such. -/
theorem stays_since {c : Cfg} {t : Nat} {s s' : State} (h : Stays c t s s') {o : Nat} (hs : s.since t o = true)
    {x : Nat × Nat} (hr : s.retired o = some x) : s'.since t o = true ∧ s'.retired o = some x := by
  induction h with
  | refl => exact ⟨hs, hr⟩
  | step h h' hp ih =>
    obtain ⟨ih1, ih2⟩ := ih
    refine ⟨?_, retired_stays h' ih2⟩
    cases h' with
    | load u ht hpc =>
      by_cases htu : t = u
      · subst htu; simp at hp
      · simp only [upd_ne htu]; exact ih1
    | stop u hpc =>
      by_cases htu : t = u
      · subst htu; simp at hp
      · simp only [upd_ne htu]; exact ih1
    | retire u y hpc hn =>
      have hne : o ≠ y := by rintro rfl; rw [ih2] at hn; simp at hn
      simp only [if_neg hne]; exact ih1
    | _ => exact ih1

/-- An object retired in state `s` is not freed while any thread that was in a section in `s` is still in that section. -/
theorem section_protects {c : Cfg} (hc : Ordered c) {s s' : State} (hs : Reachable c s) (w o t : Nat)
    (hw : s.pc w = .inside) (hr : s.retired o = none)
    (h : Stays c t { s with
        retired := update s.retired o (some (w, s.ge)),
        since := fun u x => if x = o then decide (s.pc u = .inside) else s.since u x } s') :
    s'.freed o = false := by
  have hstep := Step.retire (c := c) w o hw hr
  have hin : ∀ {s1 s2 : State}, Stays c t s1 s2 → s1.pc t = .inside := by
    intro s1 s2 h
    induction h with
    | refl h => exact h
    | step _ _ _ ih => exact ih
  have hpt : s.pc t = .inside := by have := hin h; exact this
  have h1 := stays_since h (o := o) (by simp [hpt]) (by simp only [upd_eq]; rfl)
  have hi := reachable_inv hc.1 hc.2 (stays_reachable h (.step hs hstep))
  cases hf : s'.freed o with
  | false => rfl
  | true => rw [(hi.freed o hf).2 t] at h1; simp at h1

/-- No thread ever holds a freed object, if every retired object is taken out of the tree before the epoch advances. -/
theorem held_not_freed {c : Cfg} (hc : Ordered c) (hl : c.late = false) {s : State} (hs : Reachable c s) (t o : Nat)
    (h : s.holds t o = true) : s.freed o = false :=
  ((reachable_strict hc.1 hc.2 hl hs).holds t o h).2.1

/-- Nor can a freed object be found in the tree. -/
theorem linked_not_freed {c : Cfg} (hc : Ordered c) (hl : c.late = false) {s : State} (hs : Reachable c s) (o : Nat)
    (h : s.linked o = true) : s.freed o = false := by
  cases hf : s.freed o with
  | false => rfl
  | true => rw [(reachable_strict hc.1 hc.2 hl hs).freed o hf] at h; simp at h

/-- Nothing is freed that was not retired, and not in the epoch in which it was retired. -/
theorem freed_retired {c : Cfg} (hc : Ordered c) {s s' : State} (hs : Reachable c s) (h : Step c s s') (o : Nat)
    (h0 : s.freed o = false) (h1 : s'.freed o = true) : ∃ w e, s.retired o = some (w, e) ∧ e < s.ge := by
  have hi := reachable_inv hc.1 hc.2 hs
  cases h with
  | free u x b e hp hb hr hf ht =>
    have hox : o = x := by
      by_contra hne
      simp only [upd_ne hne] at h1; rw [h0] at h1; simp at h1
    subst hox
    have := hi.tested hp hb hr ht
    exact ⟨u, e, hr, by omega⟩
  | _ => rw [h0] at h1; simp at h1

/-- Once `active_epoch` has passed the epoch of an object, its owner can free it. -/
theorem freeable {c : Cfg} {s : State} (w o b e : Nat) (hp : s.pc w = .inside) (hb : s.bound w = some b)
    (hr : s.retired o = some (w, e)) (hf : s.freed o = false) (hlt : e < b) (hold : b < e + 2 ^ 62) :
    ∃ s', Step c s s' ∧ s'.freed o = true :=
  ⟨_, .free w o b e hp hb hr hf (safe_of_lt hold hlt), by simp⟩

/-- A whole call of `epochinc` with two threads. -/
theorem tick_one {c : Cfg} {s : State} (h : Nat) (hn : c.n = 2) (hs : Reachable c s) (h0 : s.tick h = .idle)
    (ho : c.overlap = false → ∀ h', s.tick h' = .idle)
    (hge : s.ge < maxStay) (hlate : c.late = false → ∀ o, s.linked o = true → s.retired o = none) :
    Reachable c { s with ge := s.ge + 1, ae := pick (s.gc 1) (pick (s.gc 0) (s.ge + 1)) } := by
  have h1 := Reachable.step hs (.tickLoad h h0 ho)
  have h2 := Reachable.step h1 (.tickStore h s.ge (by simp) (fun t g' _ => by omega) (by exact hlate))
  have h3 := Reachable.step h2 (.scanStart h (by simp))
  have h4 := Reachable.step h3 (.scan h (s.ge + 1) 0 (by simp) (by omega))
  have h5 := Reachable.step h4 (.scan h (pick (s.gc 0) (s.ge + 1)) 1 (by simp) (by omega))
  have h6 := Reachable.step h5 (.tickDone h (pick (s.gc 1) (pick (s.gc 0) (s.ge + 1))) (by simp [hn]))
  have hu : ∀ a b d e f : Tick, update (update (update (update (update (update s.tick h a) h b) h d) h e) h f) h .idle = s.tick := by
    intro a b d e f
    funext k
    by_cases hk : k = h
    · subst hk; simp [h0]
    · simp [hk]
  simp only [hu] at h6
  exact h6

theorem tick_all {c : Cfg} {s : State} (hn : c.n = 2) (hs : Reachable c s) (h0 : ∀ h, s.tick h = .idle)
    (hge : s.ge < maxStay) (hlate : c.late = false → ∀ o, s.linked o = true → s.retired o = none) :
    Reachable c { s with ge := s.ge + 1, ae := pick (s.gc 1) (pick (s.gc 0) (s.ge + 1)) } :=
  tick_one 0 hn hs (h0 0) (fun _ => h0) hge hlate

/-- `rcu_start`. -/
theorem start {c : Cfg} {s : State} (hc : c.tso = false) (hs : Reachable c s) (t : Nat) (ht : t < c.n)
    (hp : s.pc t = .idle) :
    Reachable c { s with
      pc := update s.pc t .inside, gc := update s.gc t (some s.ge), bound := update s.bound t none,
      holds := update s.holds t fun _ => false, since := update s.since t fun _ => false } := by
  have h1 := Reachable.step hs (.load t ht (fun g => by rw [hp]; simp))
  have h2 := Reachable.step h1 (.store t s.ge (by simp) hc)
  simpa using h2

/-- An object can be freed: two threads; thread 0 unlinks and retires object 0 and leaves; after one increment of the
epoch, with thread 1 in a new section, thread 0 frees it. -/
example : ∃ s, Reachable ⟨2, false, false, false⟩ s ∧ s.freed 0 = true ∧ s.pc 1 = .inside := by
  have h0 : Reachable ⟨2, false, false, false⟩ (State.init fun o => o == 0) := .init _
  have h1 := start rfl h0 0 (by decide) rfl
  have h2 := h1.step (.unlink 0 0 (by simp))
  have h3 := h2.step (.retire 0 0 (by simp) (by simp [State.init]))
  have h4 := h3.step (.stop 0 (by simp))
  have h5 := tick_all rfl h4 (by simp [State.init]) (by decide) (by
    intro _ o ho
    by_cases h : o = 0
    · subst h; simp at ho
    · simp [h, State.init] at ho)
  have h6 := start rfl h5 1 (by decide) (by simp [State.init])
  have h7 := start rfl h6 0 (by decide) (by simp)
  have h8 := h7.step (.bound 0 (by simp))
  have h9 := h8.step (.free 0 0 1 0 (by simp) (by simp [State.init, pick]) (by simp [State.init])
    (by simp [State.init]) (by decide))
  exact ⟨_, h9, by simp, by simp⟩

/-- If an object is retired before it is taken out of the tree, and the epoch advances in between, a thread that enters
its section after that can find the object and still hold it when it is freed.  Thread 0 is in the position of
`apply_replace` (/repo/kvrow.hh:234-237), `apply_remove` (/repo/kvrow.hh:264, followed by `finish(-1)`), `remove_leaf`
(/repo/masstree_remove.hh:191) or `gc_layer` (/repo/masstree_remove.hh:108), which all retire first. -/
theorem retire_first_unsafe :
    ∃ s, Reachable ⟨2, false, true, false⟩ s ∧ s.holds 1 0 = true ∧ s.freed 0 = true := by
  have h0 : Reachable ⟨2, false, true, false⟩ (State.init fun o => o == 0) := .init _
  have h1 := start rfl h0 0 (by decide) rfl
  have h2 := h1.step (.retire 0 0 (by simp) (by simp [State.init]))
  have h3 := tick_all rfl h2 (by simp [State.init]) (by decide) (by simp)
  have h4 := start rfl h3 1 (by decide) (by simp [State.init])
  have h5 := h4.step (.acquire 1 0 (by simp) (by simp [State.init]))
  have h6 := h5.step (.unlink 0 0 (by simp))
  have h7 := h6.step (.stop 0 (by simp))
  have h8 := tick_all rfl h7 (by simp [State.init]) (by show 1 < maxStay; decide) (by simp)
  have h9 := start rfl h8 0 (by decide) (by simp)
  have h10 := h9.step (.bound 0 (by simp))
  have h11 := h10.step (.free 0 0 1 0 (by simp) (by simp [State.init, pick, show smaller 1 2 = true from by decide])
    (by simp [State.init]) (by simp [State.init]) (by decide))
  exact ⟨_, h11, by simp, by simp⟩

/-- `rcu_start` has no fence between the store of `gc_epoch_` and the reads that follow.  If the store is delayed, the
thread's section is overlooked and what it holds is freed. -/
theorem delayed_store_unsafe :
    ∃ s, Reachable ⟨2, true, false, false⟩ s ∧ s.holds 1 0 = true ∧ s.freed 0 = true := by
  have h0 : Reachable ⟨2, true, false, false⟩ (State.init fun o => o == 0) := .init _
  have h1 := h0.step (.load 1 (by decide) (by simp [State.init]))
  have h2 := h1.step (.buffer 1 0 (by simp [State.init]) rfl)
  have h3 := h2.step (.acquire 1 0 (by simp) (by simp [State.init]))
  have h4 := h3.step (.load 0 (by decide) (by simp [State.init]))
  have h5 := h4.step (.buffer 0 0 (by simp [State.init]) rfl)
  have h6 := h5.step (.unlink 0 0 (by simp))
  have h7 := h6.step (.retire 0 0 (by simp) (by simp [State.init]))
  have h8 := h7.step (.stop 0 (by simp))
  have h9 := tick_all rfl h8 (by simp [State.init]) (by decide) (by
    intro _ o ho
    by_cases h : o = 0
    · subst h; simp at ho
    · simp [h, State.init] at ho)
  have h10 := h9.step (.load 0 (by decide) (by simp))
  have h11 := h10.step (.buffer 0 1 (by simp [State.init]) rfl)
  have h12 := h11.step (.bound 0 (by simp))
  have h13 := h12.step (.free 0 0 1 0 (by simp) (by simp [State.init, pick]) (by simp [State.init])
    (by simp [State.init]) (by decide))
  exact ⟨_, h13, by simp [State.init], by simp⟩

/-- `epochinc` is a signal handler that any thread may run (/repo/mtd.cc:718-724).  If two calls overlap, the store at
/repo/mtd.cc:933 can move `globalepoch` back; what is retired then can be freed at once. -/
theorem overlapping_ticks_unsafe :
    ∃ s, Reachable ⟨2, false, false, true⟩ s ∧ s.holds 1 0 = true ∧ s.freed 0 = true := by
  have h0 : Reachable ⟨2, false, false, true⟩ (State.init fun o => o == 0) := .init _
  have h1 := h0.step (.tickLoad 0 rfl (by simp))
  have h2 := tick_one 1 rfl h1 (by simp [State.init]) (by simp) (by decide) (by simp [State.init])
  have h3 := tick_one 1 rfl h2 (by simp [State.init]) (by simp) (by show 1 < maxStay; decide) (by simp [State.init])
  have h4 := start rfl h3 0 (by decide) (by simp [State.init])
  have h5 := start rfl h4 1 (by decide) (by simp [State.init])
  have h6 := h5.step (.acquire 1 0 (by simp) (by simp [State.init]))
  have h7 := h6.step (.tickStore 0 0 (by simp [State.init]) (fun t g' _ => by unfold maxStay; omega) (by simp [State.init]))
  have h8 := h7.step (.unlink 0 0 (by simp))
  have h9 := h8.step (.retire 0 0 (by simp) (by simp [State.init]))
  have h10 := h9.step (.bound 0 (by simp))
  have h11 := h10.step (.free 0 0 2 1 (by simp) (by simp [State.init, pick]) (by simp [State.init])
    (by simp [State.init]) (by decide))
  exact ⟨_, h11, by simp, by simp⟩

/-- The comparisons are circular: two increments around the point where `globalepoch` wraps. -/
example : word (2 ^ 63 - 1) = BitVec.ofNat 64 (2 ^ 64 - 1) ∧ word (2 ^ 63) = 1 ∧ smaller (2 ^ 63 - 1) (2 ^ 63) = true ∧
    safe (word (2 ^ 63) - 1) (word (2 ^ 63 - 1)) = true ∧ safe (word (2 ^ 63) - 1) (word (2 ^ 63)) = false := by
  decide +kernel

end Verif.Props.C13
