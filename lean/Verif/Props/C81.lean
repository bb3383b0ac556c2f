import Verif.TcpLoop.Model

/-!
# C81: The loop of a TCP thread: each waiting connection once, none that is deleted
-/
namespace Verif.Props.C81
open Verif.TcpLoop

/-! ## `tcpfds` with select is a map from descriptors to connections -/

/-- `s` stands for the map `m`. -/
structure Rep (s : Sel) (m : Nat → Option Nat) : Prop where
  bits : ∀ i, s.rfds i = (m i).isSome
  conn : ∀ i c, m i = some c → i < s.nfds ∧ s.conns[i]? = some c
  room : s.nfds ≤ s.conns.length
  top : s.nfds = 0 ∨ (m (s.nfds - 1)).isSome
  size : s.nfds ≤ 1024

theorem length_resize (l : List Nat) (n : Nat) : (resize l n).length = n := by
  simp [resize]; omega

theorem get_resize {l : List Nat} {n i c : Nat} (hi : i < n) (h : l[i]? = some c) : (resize l n)[i]? = some c := by
  have hl : i < l.length := (List.getElem?_eq_some_iff.mp h).1
  unfold resize
  rw [List.getElem?_append_left (by simp; omega), List.getElem?_take_of_lt hi, h]

theorem shrink_le (r : Nat → Bool) (n : Nat) : shrink r n ≤ n := by
  induction n with
  | zero => simp [shrink]
  | succ n ih => unfold shrink; split <;> omega

theorem lt_shrink (r : Nat → Bool) (n i : Nat) (hi : i < n) (h : r i = true) : i < shrink r n := by
  induction n with
  | zero => omega
  | succ n ih =>
    unfold shrink
    split
    · exact hi
    · rename_i hn
      have : i ≠ n := fun e => hn (e ▸ h)
      exact ih (by omega)

theorem shrink_top (r : Nat → Bool) (n : Nat) : shrink r n = 0 ∨ r (shrink r n - 1) = true := by
  induction n with
  | zero => simp [shrink]
  | succ n ih =>
    unfold shrink
    split
    · right; simpa
    · exact ih

theorem put_rep {nfds : Nat} {r : Nat → Bool} {cs : List Nat} {m : Nat → Option Nat} {fd c : Nat}
    (hb : ∀ i, r i = (m i).isSome) (hc : ∀ i d, m i = some d → i < nfds ∧ cs[i]? = some d)
    (hr : nfds ≤ cs.length) (ht : fd + 1 = nfds ∨ (fd < nfds ∧ (m (nfds - 1)).isSome)) (hs : nfds ≤ 1024) :
    ∃ s', put ⟨nfds, upd r fd true, cs⟩ fd c = .ok s' ∧ Rep s' (upd m fd (some c)) := by
  have hf : fd < nfds := by omega
  refine ⟨_, if_pos (by show fd < cs.length; omega), ?_, ?_, ?_, ?_, hs⟩
  · intro i
    show upd r fd true i = _
    unfold upd
    split
    · rfl
    · exact hb i
  · intro i d h
    show i < nfds ∧ (cs.set fd c)[i]? = some d
    unfold upd at h
    split at h
    · rename_i e
      subst e
      cases h
      exact ⟨hf, by rw [List.getElem?_set_self (by omega)]⟩
    · rename_i e
      rw [List.getElem?_set_ne (by omega)]
      exact hc i d h
  · show nfds ≤ (cs.set fd c).length
    simpa
  · right
    show (upd m fd (some c) (nfds - 1)).isSome
    unfold upd
    split
    · rfl
    · rcases ht with h | h
      · omega
      · exact h.2

theorem init_rep {pipefd : Nat} (h : pipefd < 1024) :
    ∃ s, Sel.init pipefd = .ok s ∧ Rep s (upd (fun _ => none) pipefd (some 1)) := by
  unfold Sel.init
  rw [if_pos (show pipefd < setsize from h)]
  apply put_rep (m := fun _ => none)
  · intro i; rfl
  · intro i d e; cases e
  · rw [length_resize]; omega
  · left; rfl
  · omega

/-- `add` enters the descriptor and keeps the others, also when the vector is cut or grows. -/
theorem add_rep {s : Sel} {m : Nat → Option Nat} (h : Rep s m) {fd : Nat} (c : Nat) (hf : fd < 1024) :
    ∃ s', s.add fd c = .ok s' ∧ Rep s' (upd m fd (some c)) := by
  unfold Sel.add
  rw [if_pos (show fd < setsize from hf)]
  split
  · rename_i hn
    refine put_rep h.bits (fun i d e => ?_) (by rw [length_resize]; omega) (.inl rfl) (by omega)
    obtain ⟨h1, h2⟩ := h.conn i d e
    exact ⟨by omega, get_resize (by omega) h2⟩
  · rename_i hn
    refine put_rep h.bits h.conn h.room (.inr ⟨by omega, ?_⟩) h.size
    rcases h.top with h0 | h0
    · omega
    · exact h0

/-- `remove` takes out the descriptor and keeps the others. -/
theorem remove_rep {s : Sel} {m : Nat → Option Nat} (h : Rep s m) {fd : Nat} (hf : fd < 1024) :
    ∃ s', s.remove fd = .ok s' ∧ Rep s' (upd m fd none) := by
  have hb : ∀ i, upd s.rfds fd false i = (upd m fd none i).isSome := by
    intro i
    unfold upd
    split
    · rfl
    · exact h.bits i
  have hm : ∀ i d, upd m fd none i = some d → i ≠ fd ∧ m i = some d := by
    intro i d e
    unfold upd at e
    split at e
    · cases e
    · exact ⟨by assumption, e⟩
  unfold Sel.remove
  rw [if_pos (show fd < setsize from hf)]
  split
  · refine ⟨_, rfl, hb, ?_, ?_, ?_, ?_⟩
    · intro i d e
      refine ⟨lt_shrink _ _ _ (h.conn i d (hm i d e).2).1 ?_, (h.conn i d (hm i d e).2).2⟩
      rw [hb, e]; rfl
    · exact Nat.le_trans (shrink_le _ _) h.room
    · rcases shrink_top (upd s.rfds fd false) s.nfds with h0 | h0
      · exact .inl h0
      · right; rw [hb] at h0; exact h0
    · exact Nat.le_trans (shrink_le _ _) h.size
  · rename_i hn
    refine ⟨_, rfl, hb, fun i d e => h.conn i d (hm i d e).2, h.room, ?_, h.size⟩
    rcases h.top with h0 | h0
    · exact .inl h0
    · by_cases hz : s.nfds = 0
      · exact .inl hz
      · right
        show (upd m fd none (s.nfds - 1)).isSome
        unfold upd
        rw [if_neg (by omega)]
        exact h0

/-- The calls on a map. -/
def mapRun (m : Nat → Option Nat) : List Op → Nat → Option Nat
  | [] => m
  | .add fd c :: l => mapRun (fun i => if i = fd then some c else m i) l
  | .remove fd :: l => mapRun (fun i => if i = fd then none else m i) l

def opFd : Op → Nat
  | .add fd _ => fd
  | .remove fd => fd

theorem run_rep {l : List Op} (hl : ∀ o ∈ l, opFd o < 1024) :
    ∀ {s : Sel} {m : Nat → Option Nat}, Rep s m → ∃ s', s.run l = .ok s' ∧ Rep s' (mapRun m l) := by
  induction l with
  | nil => exact fun h => ⟨_, rfl, h⟩
  | cons o l ih =>
    intro s m h
    have hl' : ∀ o' ∈ l, opFd o' < 1024 := fun o' ho => hl o' (List.mem_cons_of_mem _ ho)
    have ho := hl o List.mem_cons_self
    cases o with
    | add fd c =>
      obtain ⟨s', h1, h2⟩ := add_rep h (fd := fd) c ho
      unfold Sel.run
      rw [h1]
      exact ih hl' h2
    | remove fd =>
      obtain ⟨s', h1, h2⟩ := remove_rep h (fd := fd) ho
      unfold Sel.run
      rw [h1]
      exact ih hl' h2

theorem collect_eq {s : Sel} {m : Nat → Option Nat} (h : Rep s m) (h0 : ∀ i, m i ≠ some 0) {es : Nat → Bool}
    (he : ∀ i, es i = true → (m i).isSome) (l : List Nat) :
    collect s es l = .ok (l.filterMap fun i => if es i then m i else none) := by
  induction l with
  | nil => rfl
  | cons i l ih =>
    unfold collect
    by_cases hi : es i = true
    · obtain ⟨c, hc⟩ := Option.isSome_iff_exists.mp (he i hi)
      rw [if_pos hi, (h.conn i c hc).2, ih, List.filterMap_cons_some (b := c) (by rw [if_pos hi, hc])]
      have : c ≠ 0 := fun e => h0 i (e ▸ hc)
      simp [Out.bind, this]
    · rw [if_neg hi, ih, List.filterMap_cons_none (by rw [if_neg hi])]

theorem range_cut {n N : Nat} (h : n ≤ N) {f : Nat → Option Nat} (hf : ∀ i, n ≤ i → f i = none) :
    (List.range N).filterMap f = (List.range n).filterMap f := by
  obtain ⟨k, rfl⟩ := Nat.exists_eq_add_of_le h
  rw [List.range_add, List.filterMap_append]
  have : ((List.range k).map (n + ·)).filterMap f = [] := by
    rw [List.filterMap_eq_nil_iff]
    intro i hi
    obtain ⟨j, -, rfl⟩ := List.mem_map.mp hi
    exact hf _ (by omega)
  rw [this, List.append_nil]

/-- With descriptors below `FD_SETSIZE`, after any calls no access is outside the vector, and what is put on
the queue are the connections of the descriptors that select reports, in their order, each once. -/
theorem select_events {pipefd : Nat} (hp : pipefd < 1024) {l : List Op} (hl : ∀ o ∈ l, opFd o < 1024)
    (h0 : ∀ i, mapRun (fun i => if i = pipefd then some 1 else none) l i ≠ some 0) :
    ∃ s s', Sel.init pipefd = .ok s ∧ s.run l = .ok s' ∧ ∀ es : Nat → Bool,
      (∀ i, es i = true → (mapRun (fun i => if i = pipefd then some 1 else none) l i).isSome) →
      s'.events es = .ok ((List.range 1024).filterMap fun i =>
        if es i then mapRun (fun i => if i = pipefd then some 1 else none) l i else none) := by
  obtain ⟨s, h1, h2⟩ := init_rep hp
  obtain ⟨s', h3, h4⟩ := run_rep hl h2
  refine ⟨s, s', h1, h3, fun es he => ?_⟩
  have h4' : Rep s' (mapRun (fun i => if i = pipefd then some 1 else none) l) := h4
  unfold Sel.events
  rw [collect_eq h4' h0 he]
  rw [range_cut h4'.size]
  intro i hi
  cases hm : mapRun (fun i => if i = pipefd then some 1 else none) l i with
  | none => simp
  | some c => exact absurd (h4'.conn _ c hm).1 (by omega)

/-- The first argument of select is the largest descriptor that is watched, plus one. -/
theorem select_nfds {pipefd : Nat} (hp : pipefd < 1024) {l : List Op} (hl : ∀ o ∈ l, opFd o < 1024)
    {s s' : Sel} (h1 : Sel.init pipefd = .ok s) (h2 : s.run l = .ok s') :
    (∀ i, (mapRun (fun i => if i = pipefd then some 1 else none) l i).isSome → i < s'.nfds) ∧
    (s'.nfds = 0 ∨ (mapRun (fun i => if i = pipefd then some 1 else none) l (s'.nfds - 1)).isSome) := by
  obtain ⟨t, h3, h4⟩ := init_rep hp
  obtain ⟨t', h5, h6⟩ := run_rep hl h4
  rw [h1] at h3
  cases h3
  rw [h2] at h5
  cases h5
  exact ⟨fun i hi => let ⟨c, hc⟩ := Option.isSome_iff_exists.mp hi; (h6.conn i c hc).1, h6.top⟩

/-- A descriptor of `FD_SETSIZE` or more ends the server. -/
theorem select_stop (s : Sel) {fd : Nat} (c : Nat) (h : 1024 ≤ fd) : s.add fd c = .stop := by
  unfold Sel.add
  rw [if_neg (by show ¬ fd < 1024; omega)]

/-! ## The loop -/

structure Inv (pipefd : Nat) (s : L) : Prop where
  heap : ∀ c fd, s.heap c = some fd ↔ s.reg fd = some c ∧ c ≠ 1
  pipe : ∀ fd, s.reg fd = some 1 ↔ fd = pipefd
  opened : ∀ fd, s.opened fd = (s.reg fd).isSome
  zero : ∀ fd, s.reg fd ≠ some 0
  nodup : s.ready.Nodup
  live : ∀ c ∈ s.ready, ∃ fd, s.reg fd = some c

theorem init_inv (pipefd : Nat) : Inv pipefd (L.init pipefd) := by
  constructor
  · intro c fd
    simp only [L.init, upd]
    split <;> simp
    exact fun h => h.symm
  · intro fd
    simp only [L.init, upd]
    split <;> simp_all
  · intro fd
    simp only [L.init, upd]
    split <;> rfl
  · intro fd
    simp only [L.init, upd]
    split <;> simp
  · exact List.nodup_nil
  · intro c h; cases h

theorem ready_inv {pipefd : Nat} {s : L} (h : Inv pipefd s) {r : List Nat} (h1 : r.Nodup)
    (h2 : ∀ c ∈ r, ∃ fd, s.reg fd = some c) : Inv pipefd { s with ready := r } :=
  ⟨h.heap, h.pipe, h.opened, h.zero, h1, h2⟩

/-- Deleting a connection that does not wait. -/
theorem drop_inv {pipefd : Nat} {s : L} (h : Inv pipefd s) {c fd : Nat} (hc : s.heap c = some fd)
    (hr : c ∉ s.ready) : ∃ s', s.drop c = .ok s' ∧ Inv pipefd s' ∧ s'.ready = s.ready := by
  obtain ⟨hg, h1⟩ := (h.heap c fd).mp hc
  have huniq : ∀ fd', s.reg fd' = some c → fd' = fd := fun fd' e => by
    have := (h.heap c fd').mpr ⟨e, h1⟩
    rw [hc] at this
    exact (Option.some.inj this).symm
  refine ⟨{ s with reg := upd s.reg fd none, heap := upd s.heap c none, opened := upd s.opened fd false },
    ?_, ?_, rfl⟩
  · simp only [L.drop, hc, L.remove, hg, Out.bind]
  · constructor
    · intro d f
      show upd s.heap c none d = some f ↔ upd s.reg fd none f = some d ∧ d ≠ 1
      unfold upd
      by_cases hd : d = c
      · subst hd
        by_cases hf : f = fd
        · simp [hf]
        · simp only [if_true, if_neg hf]
          exact ⟨fun e => (by cases e), fun e => absurd (huniq f e.1) hf⟩
      · by_cases hf : f = fd
        · subst hf
          simp only [if_neg hd, if_true]
          constructor
          · intro e
            have := ((h.heap d f).mp e).1
            rw [hg] at this
            exact absurd (Option.some.inj this).symm hd
          · intro e; cases e.1
        · simp only [if_neg hd, if_neg hf]
          exact h.heap d f
    · intro f
      show upd s.reg fd none f = some 1 ↔ f = pipefd
      unfold upd
      split
      · rename_i e
        subst e
        refine ⟨fun e => (by cases e), fun e => ?_⟩
        have := (h.pipe f).mpr e
        rw [hg] at this
        exact absurd (Option.some.inj this) h1
      · exact h.pipe f
    · intro f
      show upd s.opened fd false f = (upd s.reg fd none f).isSome
      unfold upd
      split
      · rfl
      · exact h.opened f
    · intro f
      show upd s.reg fd none f ≠ some 0
      unfold upd
      split
      · simp
      · exact h.zero f
    · exact h.nodup
    · intro d hd
      obtain ⟨f, hf⟩ := h.live d hd
      refine ⟨f, ?_⟩
      show upd s.reg fd none f = some d
      unfold upd
      rw [if_neg]
      · exact hf
      · intro e
        subst e
        rw [hg] at hf
        exact hr (Option.some.inj hf ▸ hd)

/-- Either the new connection is impossible, or it is entered without failure. -/
theorem accept_inv {pipefd : Nat} {s : L} (h : Inv pipefd s) (n : New) :
    s.accept n = .no ∨ ∃ s', s.accept n = .ok s' ∧ Inv pipefd s' ∧ s'.ready = s.ready := by
  unfold L.accept
  by_cases hn : 2 ≤ n.ptr ∧ s.heap n.ptr = none ∧ s.opened n.fd = false
  · right
    rw [if_pos hn]
    obtain ⟨h2, hh, ho⟩ := hn
    have hg : s.reg n.fd = none := by
      have := h.opened n.fd
      rw [ho] at this
      cases e : s.reg n.fd with
      | none => rfl
      | some x => rw [e] at this; cases this
    have hi : Inv pipefd { s with reg := upd s.reg n.fd (some n.ptr), heap := upd s.heap n.ptr (some n.fd),
                                  opened := upd s.opened n.fd true } := by
      constructor
      · intro d f
        show upd s.heap n.ptr (some n.fd) d = some f ↔ upd s.reg n.fd (some n.ptr) f = some d ∧ d ≠ 1
        unfold upd
        by_cases hd : d = n.ptr
        · subst hd
          by_cases hf : f = n.fd
          · subst hf; simp; omega
          · simp only [if_true, if_neg hf]
            refine ⟨fun e => absurd (Option.some.inj e).symm hf, fun e => ?_⟩
            have := (h.heap _ f).mpr e
            rw [hh] at this
            cases this
        · by_cases hf : f = n.fd
          · subst hf
            simp only [if_neg hd, if_true]
            constructor
            · intro e
              have := ((h.heap d _).mp e).1
              rw [hg] at this
              cases this
            · intro e
              exact absurd (Option.some.inj e.1).symm hd
          · simp only [if_neg hd, if_neg hf]
            exact h.heap d f
      · intro f
        show upd s.reg n.fd (some n.ptr) f = some 1 ↔ f = pipefd
        unfold upd
        split
        · rename_i e
          subst e
          constructor
          · intro e
            have := Option.some.inj e
            omega
          · intro e
            have := (h.pipe _).mpr e
            rw [hg] at this
            cases this
        · exact h.pipe f
      · intro f
        show upd s.opened n.fd true f = (upd s.reg n.fd (some n.ptr) f).isSome
        unfold upd
        split
        · rfl
        · exact h.opened f
      · intro f
        show upd s.reg n.fd (some n.ptr) f ≠ some 0
        unfold upd
        split
        · intro e
          have := Option.some.inj e
          omega
        · exact h.zero f
      · exact h.nodup
      · intro d hd
        obtain ⟨f, hf⟩ := h.live d hd
        refine ⟨f, ?_⟩
        show upd s.reg n.fd (some n.ptr) f = some d
        unfold upd
        rw [if_neg]
        · exact hf
        · intro e
          subst e
          rw [hg] at hf
          cases hf
    have hr : n.ptr ∉ s.ready := by
      intro hm
      obtain ⟨f, hf⟩ := h.live _ hm
      have := (h.heap _ f).mpr ⟨hf, by omega⟩
      rw [hh] at this
      cases this
    simp only [L.add, hg, Out.bind]
    by_cases hgood : n.good = true
    · rw [if_pos hgood]
      exact ⟨_, rfl, hi, rfl⟩
    · rw [if_neg hgood]
      exact drop_inv hi (fd := n.fd) (by simp [upd]) hr
  · left
    rw [if_neg hn]

theorem acceptAll_inv {pipefd : Nat} (l : List New) : ∀ {s : L}, Inv pipefd s →
    s.acceptAll l = .no ∨ ∃ s', s.acceptAll l = .ok s' ∧ Inv pipefd s' ∧ s'.ready = s.ready := by
  induction l with
  | nil => exact fun h => .inr ⟨_, rfl, h, rfl⟩
  | cons n l ih =>
    intro s h
    unfold L.acceptAll
    rcases accept_inv h n with e | ⟨s', e, h', hr⟩
    · left; rw [e]; rfl
    · rw [e]
      rcases ih h' with e' | ⟨s'', e', h'', hr'⟩
      · exact .inl e'
      · exact .inr ⟨s'', e', h'', hr'.trans hr⟩

/-- What is on the queue after an event: nothing that was served comes before what waited. -/
theorem step_inv {pipefd : Nat} {s : L} (h : Inv pipefd s) (a : Act) :
    s.step a = .no ∨ ∃ s' t, s.step a = .ok (s', t) ∧ Inv pipefd s' ∧
      ((s.ready = [] ∧ t = []) ∨ ∃ c r b, s.ready = c :: r ∧ t = [c] ∧ s'.ready = r ++ b) := by
  cases a with
  | wait fds =>
    unfold L.step
    by_cases hw : s.ready = [] ∧ fds ≠ [] ∧ fds.Nodup ∧ ∀ fd ∈ fds, (s.reg fd).isSome
    · right
      simp only [if_pos hw]
      refine ⟨_, _, rfl, ready_inv h ?_ ?_, .inl ⟨hw.1, rfl⟩⟩
      · refine List.Pairwise.filter _ (List.Pairwise.filterMap s.reg ?_ hw.2.2.1)
        intro f f' hne c hc c' hc' e
        subst e
        by_cases h1 : c = 1
        · subst h1
          exact hne (((h.pipe f).mp hc).trans ((h.pipe f').mp hc').symm)
        · have e1 := (h.heap c f).mpr ⟨hc, h1⟩
          have e2 := (h.heap c f').mpr ⟨hc', h1⟩
          rw [e1] at e2
          exact hne (Option.some.inj e2)
      · intro c hc
        obtain ⟨f, -, hf⟩ := List.mem_filterMap.mp (List.mem_filter.mp hc).1
        exact ⟨f, hf⟩
    · left
      simp only [if_neg hw]
  | pipe l =>
    unfold L.step
    rcases hr : s.ready with _ | ⟨c, r⟩
    · exact .inl rfl
    · by_cases hc : c = 1
      · subst hc
        have hi : Inv pipefd { s with ready := r } :=
          ready_inv h (by have := h.nodup; rw [hr] at this; exact (List.nodup_cons.mp this).2)
            (fun d hd => h.live d (by rw [hr]; exact List.mem_cons_of_mem _ hd))
        rcases acceptAll_inv l hi with e | ⟨s', e, h', hr'⟩
        · left; simp [e, Out.bind]
        · right
          exact ⟨s', [1], by simp [e, Out.bind], h', .inr ⟨1, r, [], rfl, rfl, by rw [hr']; simp⟩⟩
      · left; simp only [if_neg hc]
  | serve e =>
    unfold L.step
    rcases hr : s.ready with _ | ⟨c, r⟩
    · exact .inl rfl
    · have hnd := h.nodup
      rw [hr] at hnd
      obtain ⟨hcr, hnr⟩ := List.nodup_cons.mp hnd
      have hl : ∀ d ∈ r, ∃ fd, s.reg fd = some d := fun d hd => h.live d (by rw [hr]; exact List.mem_cons_of_mem _ hd)
      by_cases hc : c = 1
      · left; simp only [if_pos hc]
      · right
        obtain ⟨fd, hf⟩ := h.live c (by rw [hr]; exact List.mem_cons_self)
        have hh := (h.heap c fd).mpr ⟨hf, hc⟩
        simp only [if_neg hc, hh]
        cases e with
        | more =>
          refine ⟨_, _, rfl, ready_inv h ?_ ?_, .inr ⟨c, r, [c], rfl, rfl, rfl⟩⟩
          · rw [List.nodup_append]
            exact ⟨hnr, by simp, fun x hx y hy e => hcr (by rw [List.mem_singleton] at hy; exact hy ▸ e ▸ hx)⟩
          · intro d hd
            rcases List.mem_append.mp hd with hd | hd
            · exact hl d hd
            · rw [List.mem_singleton] at hd
              exact ⟨fd, hd ▸ hf⟩
        | idle => exact ⟨_, _, rfl, ready_inv h hnr hl, .inr ⟨c, r, [], rfl, rfl, by simp⟩⟩
        | closed =>
          obtain ⟨s', e', h', hr'⟩ := drop_inv (ready_inv h hnr hl) (c := c) (fd := fd) hh hcr
          exact ⟨s', [c], by simp only [e', Out.bind], h', .inr ⟨c, r, [], rfl, rfl, by rw [hr']; simp⟩⟩

theorem run_inv {pipefd : Nat} (l : List Act) : ∀ {s : L}, Inv pipefd s →
    s.run l = .no ∨ ∃ s' t, s.run l = .ok (s', t) ∧ Inv pipefd s' := by
  induction l with
  | nil => exact fun h => .inr ⟨_, _, rfl, h⟩
  | cons a l ih =>
    intro s h
    unfold L.run
    rcases step_inv h a with e | ⟨s', t, e, h', -⟩
    · left; rw [e]; rfl
    · rw [e]
      rcases ih h' with e' | ⟨s'', t', e', h''⟩
      · left; simp only [Out.bind, e']
      · right; exact ⟨s'', t ++ t', by simp only [Out.bind, e'], h''⟩

/-- No run uses a deleted connection, and no call of epoll fails. -/
theorem safe (pipefd : Nat) (l : List Act) :
    (L.init pipefd).run l ≠ .ub ∧ (L.init pipefd).run l ≠ .stop := by
  rcases run_inv l (init_inv pipefd) with e | ⟨s', t, e, -⟩ <;> rw [e] <;> simp

/-- In every state: no connection is twice on the queue, all on it are allocated (or the mark of the pipe), and
exactly the allocated connections are watched, each under its own open descriptor. -/
theorem queue {pipefd : Nat} {l : List Act} {s : L} {t : List Nat} (h : (L.init pipefd).run l = .ok (s, t)) :
    s.ready.Nodup ∧ (∀ c ∈ s.ready, c = 1 ∨ ∃ fd, s.heap c = some fd) ∧
    (∀ c fd, s.heap c = some fd ↔ s.reg fd = some c ∧ fd ≠ pipefd) ∧
    (∀ c c' fd, s.heap c = some fd → s.heap c' = some fd → c = c') ∧
    (∀ fd, s.opened fd = true ↔ fd = pipefd ∨ ∃ c, s.heap c = some fd) := by
  rcases run_inv l (init_inv pipefd) with e | ⟨s', t', e, hi⟩
  · rw [h] at e; cases e
  · rw [h] at e
    cases e
    have key : ∀ c fd, s.heap c = some fd ↔ s.reg fd = some c ∧ fd ≠ pipefd := by
      intro c fd
      rw [hi.heap]
      refine and_congr_right fun hc => not_congr ?_
      rw [← hi.pipe, hc]
      simp
    refine ⟨hi.nodup, fun c hc => ?_, key, fun c c' fd h1 h2 => ?_, fun fd => ?_⟩
    · obtain ⟨fd, hf⟩ := hi.live c hc
      by_cases h1 : c = 1
      · exact .inl h1
      · exact .inr ⟨fd, (hi.heap c fd).mpr ⟨hf, h1⟩⟩
    · have e1 := ((hi.heap c fd).mp h1).1
      rw [((hi.heap c' fd).mp h2).1] at e1
      exact (Option.some.inj e1).symm
    · rw [hi.opened, Option.isSome_iff_exists]
      constructor
      · rintro ⟨c, hc⟩
        by_cases h1 : fd = pipefd
        · exact .inl h1
        · exact .inr ⟨c, (key c fd).mpr ⟨hc, h1⟩⟩
      · rintro (e | ⟨c, hc⟩)
        · exact ⟨1, (hi.pipe fd).mpr e⟩
        · exact ⟨c, ((hi.heap c fd).mp hc).1⟩

/-- After `wait` exactly the connections whose descriptors were reported are on the queue. -/
theorem waited {pipefd : Nat} {l : List Act} {s s' : L} {t t' : List Nat} {fds : List Nat}
    (h : (L.init pipefd).run l = .ok (s, t)) (h' : s.step (.wait fds) = .ok (s', t')) (c : Nat) :
    c ∈ s'.ready ↔ (c = 1 ∧ pipefd ∈ fds) ∨ ∃ fd ∈ fds, s.heap c = some fd := by
  rcases run_inv l (init_inv pipefd) with e | ⟨s1, t1, e, hi⟩
  · rw [h] at e; cases e
  · rw [h] at e
    cases e
    unfold L.step at h'
    by_cases hw : s.ready = [] ∧ fds ≠ [] ∧ fds.Nodup ∧ ∀ fd ∈ fds, (s.reg fd).isSome
    · simp only [if_pos hw] at h'
      cases h'
      show c ∈ (fds.filterMap s.reg).filter (· ≠ 0) ↔ _
      rw [List.mem_filter, List.mem_filterMap]
      constructor
      · rintro ⟨⟨f, hf, hc⟩, -⟩
        by_cases h1 : c = 1
        · subst h1
          exact .inl ⟨rfl, (hi.pipe f).mp hc ▸ hf⟩
        · exact .inr ⟨f, hf, (hi.heap c f).mpr ⟨hc, h1⟩⟩
      · rintro (⟨rfl, hp⟩ | ⟨f, hf, hc⟩)
        · exact ⟨⟨pipefd, hp, (hi.pipe pipefd).mpr rfl⟩, by simp⟩
        · have hg := ((hi.heap c f).mp hc).1
          refine ⟨⟨f, hf, hg⟩, ?_⟩
          have : c ≠ 0 := fun e => hi.zero f (e ▸ hg)
          simpa using this
    · simp only [if_neg hw] at h'
      cases h'

theorem in_order {pipefd : Nat} (l : List Act) : ∀ {s s' : L} {t : List Nat}, Inv pipefd s →
    s.run l = .ok (s', t) → l.length ≤ s.ready.length →
    t = s.ready.take l.length ∧ ∃ b, s'.ready = s.ready.drop l.length ++ b := by
  induction l with
  | nil =>
    intro s s' t _ h _
    cases h
    exact ⟨by simp, [], by simp⟩
  | cons a l ih =>
    intro s s' t hi h hl
    unfold L.run at h
    rcases step_inv hi a with e | ⟨s1, t1, e, h1, hs⟩
    · rw [e] at h; cases h
    · rw [e] at h
      rcases hs with ⟨hr, -⟩ | ⟨c, r, b, hr, ht, hr1⟩
      · rw [hr] at hl
        simp at hl
      · simp only [Out.bind] at h
        cases e2 : s1.run l with
        | ok y =>
          obtain ⟨s2, t2⟩ := y
          rw [e2] at h
          cases h
          rw [hr] at hl
          simp only [List.length_cons] at hl
          have hlr : l.length ≤ r.length := by omega
          obtain ⟨h3, b', h4⟩ := ih h1 e2 (by rw [hr1, List.length_append]; omega)
          refine ⟨?_, b ++ b', ?_⟩
          · rw [h3, ht, hr, hr1, List.take_append_of_le_length hlr]; rfl
          · rw [h4, hr, hr1, List.drop_append_of_le_length hlr]
            simp
        | no => rw [e2] at h; cases h
        | stop => rw [e2] at h; cases h
        | ub => rw [e2] at h; cases h

/-- Those that wait are served in order, before any is served again: the next services are those of the queue,
and what is added comes behind it. -/
theorem fifo {pipefd : Nat} {l0 l : List Act} {s s' : L} {t0 t : List Nat}
    (h0 : (L.init pipefd).run l0 = .ok (s, t0)) (h : s.run l = .ok (s', t)) (hl : l.length ≤ s.ready.length) :
    t = s.ready.take l.length ∧ ∃ b, s'.ready = s.ready.drop l.length ++ b := by
  rcases run_inv l0 (init_inv pipefd) with e | ⟨s1, t1, e, hi⟩
  · rw [h0] at e; cases e
  · rw [h0] at e
    cases e
    exact in_order l hi h hl

/-- One connection that always leaves bytes in its buffer is served without end, and the thread does not look at
the others or at new connections meanwhile. -/
theorem hog {s : L} {c fd : Nat} (hr : s.ready = [c]) (hc : s.heap c = some fd) (h1 : c ≠ 1) (k : Nat) :
    s.run (List.replicate k (.serve .more)) = .ok (s, List.replicate k c) ∧
    (∀ fds, s.step (.wait fds) = .no) ∧ ∀ l, s.step (.pipe l) = .no := by
  refine ⟨?_, fun fds => ?_, fun l => ?_⟩
  · have hs : s.step (.serve .more) = .ok (s, [c]) := by
      obtain ⟨reg, heap, opened, ready⟩ := s
      simp only at hr hc
      subst hr
      simp [L.step, h1, hc]
    induction k with
    | zero => rfl
    | succ k ih =>
      rw [List.replicate_succ, List.replicate_succ]
      unfold L.run
      rw [hs]
      simp only [Out.bind, ih]
      rfl
  · simp [L.step, hr]
  · simp [L.step, hr, h1]

theorem bind_ok {α β : Type} {x : Out α} {f : α → Out β} {b : β} (h : x.bind f = .ok b) :
    ∃ a, x = .ok a ∧ f a = .ok b := by
  cases x with
  | ok a => exact ⟨a, rfl, h⟩
  | no => cases h
  | stop => cases h
  | ub => cases h

theorem drop_heap {s s' : L} {c : Nat} (h : s.drop c = .ok s') (d : Nat) :
    s'.heap d = if d = c then none else s.heap d := by
  unfold L.drop at h
  cases hc : s.heap c with
  | none => rw [hc] at h; cases h
  | some fd =>
    rw [hc] at h
    obtain ⟨a, h1, h2⟩ := bind_ok h
    cases h2
    unfold L.remove at h1
    cases hg : s.reg fd with
    | none => rw [hg] at h1; cases h1
    | some x => rw [hg] at h1; cases h1; rfl

theorem accept_heap {s s' : L} {n : New} (h : s.accept n = .ok s') (d fd : Nat) :
    s'.heap d = some fd ↔ s.heap d = some fd ∨ (n.good = true ∧ n.ptr = d ∧ n.fd = fd) := by
  unfold L.accept at h
  by_cases hn : 2 ≤ n.ptr ∧ s.heap n.ptr = none ∧ s.opened n.fd = false
  · rw [if_pos hn] at h
    obtain ⟨a, h1, h2⟩ := bind_ok h
    have ha : ∀ e, a.heap e = if e = n.ptr then some n.fd else s.heap e := by
      unfold L.add at h1
      split at h1
      · cases h1; exact fun e => rfl
      · cases h1
    by_cases hg : n.good = true
    · rw [if_pos hg] at h2
      cases h2
      rw [ha]
      by_cases hd : d = n.ptr
      · subst hd; simp [hn.2.1, hg]
      · have : n.ptr ≠ d := fun e => hd e.symm
        simp [hd, this]
    · rw [if_neg hg] at h2
      rw [drop_heap h2, ha]
      by_cases hd : d = n.ptr
      · subst hd; simp [hn.2.1, hg]
      · simp [hd, hg]
  · rw [if_neg hn] at h
    cases h

theorem acceptAll_heap (l : List New) : ∀ {s s' : L}, s.acceptAll l = .ok s' → ∀ d fd,
    s'.heap d = some fd ↔ s.heap d = some fd ∨ ∃ n ∈ l, n.good = true ∧ n.ptr = d ∧ n.fd = fd := by
  induction l with
  | nil => intro s s' h d fd; cases h; simp
  | cons n l ih =>
    intro s s' h d fd
    obtain ⟨a, h1, h2⟩ := bind_ok h
    rw [ih h2, accept_heap h1, or_assoc]
    simp

/-- After the pipe is read, the connections are those from before and the new ones with a good handshake. -/
theorem accepted {s s' : L} {l : List New} {t : List Nat} (h : s.step (.pipe l) = .ok (s', t)) (d fd : Nat) :
    s'.heap d = some fd ↔ s.heap d = some fd ∨ ∃ n ∈ l, n.good = true ∧ n.ptr = d ∧ n.fd = fd := by
  unfold L.step at h
  rcases hr : s.ready with _ | ⟨c, r⟩
  · simp only [hr] at h; cases h
  · simp only [hr] at h
    split at h
    · obtain ⟨a, h1, h2⟩ := bind_ok h
      cases h2
      exact acceptAll_heap l h1 d fd
    · cases h

/-- The service of the first of the queue: it waits again, behind the others, exactly if bytes are left, and it is
deleted exactly if it is closed; no other connection is deleted. -/
theorem served {pipefd : Nat} {l : List Act} {s s' : L} {t t' : List Nat} {e : End}
    (h0 : (L.init pipefd).run l = .ok (s, t)) (h : s.step (.serve e) = .ok (s', t')) :
    ∃ c r, s.ready = c :: r ∧ t' = [c] ∧
      s'.ready = (match e with | .more => r ++ [c] | _ => r) ∧
      ∀ d, s'.heap d = (match e with | .closed => if d = c then none else s.heap d | _ => s.heap d) := by
  rcases run_inv l (init_inv pipefd) with e0 | ⟨s1, t1, e0, hi⟩
  · rw [h0] at e0; cases e0
  · rw [h0] at e0
    cases e0
    unfold L.step at h
    rcases hr : s.ready with _ | ⟨c, r⟩
    · simp only [hr] at h; cases h
    · simp only [hr] at h
      have hnd := hi.nodup
      rw [hr] at hnd
      obtain ⟨hcr, hnr⟩ := List.nodup_cons.mp hnd
      have hl : ∀ d ∈ r, ∃ fd, s.reg fd = some d :=
        fun d hd => hi.live d (by rw [hr]; exact List.mem_cons_of_mem _ hd)
      by_cases hc : c = 1
      · simp only [if_pos hc] at h; cases h
      · simp only [if_neg hc] at h
        cases hh : s.heap c with
        | none => simp only [hh] at h; cases h
        | some fd =>
          simp only [hh] at h
          cases e with
          | more => cases h; exact ⟨c, r, rfl, rfl, rfl, fun d => rfl⟩
          | idle => cases h; exact ⟨c, r, rfl, rfl, rfl, fun d => rfl⟩
          | closed =>
            obtain ⟨a, h1, h2⟩ := bind_ok h
            cases h2
            obtain ⟨a', h3, -, h4⟩ := drop_inv (ready_inv hi hnr hl) (c := c) (fd := fd) hh hcr
            rw [h1] at h3
            cases h3
            exact ⟨c, r, rfl, rfl, h4, fun d => (drop_heap h1 d :)⟩

/-! ## Cases -/

/-- Two connections come, both send, the first is closed, its address and descriptor are used again. -/
def story : List Act :=
  [.wait [3], .pipe [⟨10, 7, true⟩, ⟨20, 8, true⟩, ⟨30, 9, false⟩], .wait [8, 7, 3], .serve .more, .serve .closed,
   .pipe [⟨10, 7, true⟩], .serve .idle, .wait [7]]

example : (match (L.init 3).run story with
    | .ok (s, t) => some (t, s.ready, s.heap 10, s.heap 20, s.heap 30)
    | _ => none) = some ([1, 20, 10, 1, 20], [10], some 7, some 8, none) := by decide

/-- One connection waits alone. -/
example : (match (L.init 3).run [.wait [3], .pipe [⟨10, 7, true⟩, ⟨20, 8, true⟩], .wait [8]] with
    | .ok (s, _) => some (s.ready, s.heap 20)
    | _ => none) = some ([20], some 8) := by decide

example : (match Sel.init 3 with
    | .ok s => match s.run [.add 7 10, .add 9 20, .remove 9, .add 8 30, .remove 7] with
      | .ok s' => some (s'.nfds, s'.events fun i => i == 3 || i == 8)
      | _ => none
    | _ => none) = some (9, .ok [1, 30]) := by decide

example : ∀ o ∈ [Op.add 7 10, .add 9 20, .remove 9], opFd o < 1024 := by decide

end Verif.Props.C81
