import Verif.Rcu.LimboSpec

/-!
# C14: deferred frees happen exactly once and in order

A thread retires objects and quiesces; `r` lists everything it retired, in order, with the global epoch of that moment,
including what callbacks retire while they run.  `Ti.freed` lists what was handed to the allocator, in order, with the
bound in force.  The fixed-size groups, their reuse and the marks between epochs do not show in any statement.
-/
namespace Verif.Props.C14
open Verif.Rcu

/-- The histories of a thread.  `cb n` is what the callback of the `n`-th freed object retires. -/
inductive Run (cb : Nat → List (Nat × Epoch)) : Ti → List (Nat × Epoch) → Prop where
  | init : Run cb Ti.init []
  | retire {t t' : Ti} {r : List (Nat × Epoch)} {p : Nat} {e : Epoch} (h : Run cb t r) (h' : t.record p e = some t') :
      Run cb t' (r ++ [(p, e)])
  | stop {t t' : Ti} {r : List (Nat × Epoch)} {fuel : Nat} {a : Epoch} (h : Run cb t r)
      (h' : t.stop cb fuel a = some t') :
      Run cb t' (r ++ (List.range' t.freed.length (t'.freed.length - t.freed.length)).flatMap cb)

/-- What holds after any history: the objects retired are those freed followed by those pending. -/
structure Holds (t : Ti) (r done : List (Nat × Epoch)) : Prop where
  split : r = done ++ pendFrom 0 t
  freed : t.freed.map Prod.fst = done.map Prod.fst
  bounds : ∀ (i : Nat) (h : i < t.freed.length) (h' : i < done.length), safe (t.freed[i]).2 (done[i]).2 = true
  inv : t.Inv (lastOf none done)
  front : Front t

theorem Holds.len {t : Ti} {r done : List (Nat × Epoch)} (h : Holds t r done) : t.freed.length = done.length := by
  have := congrArg List.length h.freed
  simpa using this

/-- Adding what a call of `hard_rcu_quiesce` freed. -/
theorem Holds.add {cb : Nat → List (Nat × Epoch)} {t t' : Ti} {r done fr : List (Nat × Epoch)} {a : Epoch}
    (h : Holds t r done) (hq : Quiesced cb a (lastOf none done) t t' fr) (hf : Front t') :
    Holds t' (r ++ called cb t.freed.length fr.length) (done ++ fr) := by
  have hl := h.len
  refine ⟨?_, ?_, ?_, ?_, hf⟩
  · rw [h.split, List.append_assoc, ← hq.pend, List.append_assoc]
  · rw [hq.freed, List.map_append, h.freed, List.map_append]; simp
  · intro i h1 h2
    simp only [hq.freed]
    by_cases hi : i < t.freed.length
    · rw [List.getElem_append_left hi, List.getElem_append_left (by omega)]
      exact h.bounds i hi (by omega)
    · have h3 : t.freed.length ≤ i := by omega
      rw [List.getElem_append_right h3, List.getElem_append_right (by omega), List.getElem_map]
      exact hq.safe _ (List.getElem_mem _)
  · rw [← lastOf_append]; exact hq.inv

theorem range_called (cb : Nat → List (Nat × Epoch)) (i n : Nat) : (List.range' i n).flatMap cb = called cb i n := rfl

theorem Holds.stop {cb : Nat → List (Nat × Epoch)} {t t' : Ti} {r done : List (Nat × Epoch)} {fuel : Nat} {a : Epoch}
    (h : Holds t r done) (h' : t.stop cb fuel a = some t') :
    ∃ fr, Holds t' (r ++ (List.range' t.freed.length (t'.freed.length - t.freed.length)).flatMap cb) (done ++ fr) ∧
      ((t' = t ∧ fr = [] ∧ t.perform = a) ∨ (t.perform ≠ a ∧ Quiesced cb a (lastOf none done) t t' fr)) := by
  unfold Ti.stop at h'
  by_cases hp : t.perform ≠ a
  · rw [if_pos hp] at h'
    rcases quiesce_spec cb fuel a t h.inv h.front with hn | ⟨u, fr, hu, hq⟩
    · rw [hn] at h'; simp at h'
    · rw [hu, Option.some.injEq] at h'
      subst h'
      refine ⟨fr, ?_, .inr ⟨hp, hq⟩⟩
      have hlen : u.freed.length - t.freed.length = fr.length := by rw [hq.freed]; simp
      rw [hlen, range_called]
      exact h.add hq (quiesce_front cb h.inv h.front hu)
  · rw [if_neg hp, Option.some.injEq] at h'
    subst h'
    exact ⟨[], by simpa using h, .inl ⟨rfl, rfl, by simpa using hp⟩⟩

theorem Holds.retire {t t' : Ti} {r done : List (Nat × Epoch)} {p : Nat} {e : Epoch}
    (h : Holds t r done) (h' : t.record p e = some t') : Holds t' (r ++ [(p, e)]) done := by
  obtain ⟨u, x, h1, h2, h3, h4, h5, h6, h7, h8, h9, h10, h11⟩ :=
    record_spec (p := p) (ep := e) h.inv.first h.inv.rest h.inv.spare
  rw [h1, Option.some.injEq] at h'
  subst h'
  refine ⟨by rw [h7, ← List.append_assoc, ← h.split], by rw [h8]; exact h.freed, ?_, ⟨h4, h10 h.inv.marked, ?_, h5, h6, ?_⟩,
    record_front h1 h.inv.rested h.front⟩
  · intro i g1 g2
    simp only [h8]
    exact h.bounds i (by rw [h8] at g1; exact g1) g2
  · intro he
    rw [h3]; apply h.inv.rested
    rw [h2] at he; exact (List.append_eq_nil_iff.1 he).1
  · rw [h2]
    rcases h.inv.lead with hl | ⟨m, q, hm, hq, hl⟩
    · exact .inl (tight_append hl h11)
    · exact .inr ⟨m, q ++ x, by rw [hm]; rfl, tight_append hq h11, hl⟩

theorem run_holds {cb : Nat → List (Nat × Epoch)} {t : Ti} {r : List (Nat × Epoch)} (h : Run cb t r) :
    ∃ done, Holds t r done := by
  induction h with
  | init =>
    exact ⟨[], rfl, rfl, fun i h => by simp [Ti.init] at h, Ti.init_inv, fun g h => by simp [Ti.init] at h, fun _ => rfl⟩
  | retire _ h' ih =>
    obtain ⟨done, hd⟩ := ih
    exact ⟨done, hd.retire h'⟩
  | stop _ h' ih =>
    obtain ⟨done, hd⟩ := ih
    obtain ⟨fr, hf, _⟩ := hd.stop h'
    exact ⟨done ++ fr, hf⟩

/-- What has been freed is, in order and one by one, the beginning of what has been retired: nothing is freed twice,
out of turn, or without having been retired. -/
theorem in_order {cb : Nat → List (Nat × Epoch)} {t : Ti} {r : List (Nat × Epoch)} (h : Run cb t r) :
    t.freed.map Prod.fst <+: r.map Prod.fst := by
  obtain ⟨done, hd⟩ := run_holds h
  rw [hd.freed, hd.split, List.map_append]
  exact List.prefix_append _ _

/-- An object that was retired once is freed at most once. -/
theorem at_most_once {cb : Nat → List (Nat × Epoch)} {t : Ti} {r : List (Nat × Epoch)} (h : Run cb t r) (p : Nat) :
    (t.freed.map Prod.fst).count p ≤ (r.map Prod.fst).count p :=
  (in_order h).sublist.count_le _

theorem safe_iff (b e : Epoch) : safe b e = true ↔ 0 ≤ (b - e).toInt := by
  unfold safe
  rw [BitVec.msb_eq_toInt]
  simp

/-- The `i`-th object freed is the `i`-th retired, and the bound in force was not before its epoch. -/
theorem freed_when_safe {cb : Nat → List (Nat × Epoch)} {t : Ti} {r : List (Nat × Epoch)} (h : Run cb t r) (i p : Nat)
    (b : Epoch) (hi : t.freed[i]? = some (p, b)) : ∃ e, r[i]? = some (p, e) ∧ 0 ≤ (b - e).toInt := by
  obtain ⟨done, hd⟩ := run_holds h
  obtain ⟨hlt, hx⟩ := List.getElem?_eq_some_iff.1 hi
  have hlt' : i < done.length := by rw [← hd.len]; exact hlt
  have hfst : (done[i]).1 = p := by
    have := congrArg (fun l => l[i]?) hd.freed
    simp only [List.getElem?_map, hi, List.getElem?_eq_getElem hlt', Option.map_some, Option.some.injEq] at this
    exact this.symm
  refine ⟨(done[i]).2, ?_, ?_⟩
  · rw [hd.split, List.getElem?_append_left hlt', List.getElem?_eq_getElem hlt', ← hfst]
  · rw [← safe_iff]
    have := hd.bounds i hlt hlt'
    rw [hx] at this; exact this

/-- No assertion fails and no group overflows: an object can always be retired. -/
theorem retire_succeeds {cb : Nat → List (Nat × Epoch)} {t : Ti} {r : List (Nat × Epoch)} (h : Run cb t r) (p : Nat)
    (e : Epoch) : (t.record p e).isSome := by
  obtain ⟨done, hd⟩ := run_holds h
  obtain ⟨u, x, h1, _⟩ := record_spec (p := p) (ep := e) hd.inv.first hd.inv.rest hd.inv.spare
  rw [h1]; rfl

/-- Quiescing always ends, whatever the callbacks retire. -/
theorem stop_ends {cb : Nat → List (Nat × Epoch)} {t : Ti} {r : List (Nat × Epoch)} (h : Run cb t r) (a : Epoch) :
    ∃ fuel, (t.stop cb fuel a).isSome := by
  obtain ⟨done, hd⟩ := run_holds h
  unfold Ti.stop Ti.quiesce
  by_cases hp : t.perform ≠ a
  · obtain ⟨fuel, hf⟩ := cleanLoop_ends cb (a - 1) 128 _ [] t (by omega) hd.inv rfl
    refine ⟨fuel, ?_⟩
    rw [if_pos hp]
    dsimp only
    rw [Option.isSome_map]
    split
    · exact Option.isSome_iff_ne_none.2 hf
    · rfl
  · exact ⟨0, by rw [if_neg hp]; rfl⟩

/-- Only additions are made to what was freed. -/
theorem freed_grows {cb : Nat → List (Nat × Epoch)} {t t' : Ti} {r : List (Nat × Epoch)} {fuel : Nat} {a : Epoch}
    (h : Run cb t r) (h' : t.stop cb fuel a = some t') : t.freed <+: t'.freed := by
  obtain ⟨done, hd⟩ := run_holds h
  obtain ⟨fr, _, ⟨rfl, _⟩ | ⟨_, hq⟩⟩ := hd.stop h'
  · exact List.prefix_refl _
  · rw [hq.freed]; exact List.prefix_append _ _

theorem lastOf_mem (d : Option Epoch) (l : List (Nat × Epoch)) (m : Epoch) (h : lastOf d l = some m) :
    d = some m ∨ ∃ (i : Nat) (hi : i < l.length), i + 1 = l.length ∧ (l[i]).2 = m := by
  induction l generalizing d with
  | nil => exact .inl h
  | cons x l ih =>
    cases l with
    | nil => exact .inr ⟨0, by simp, rfl, by simpa [lastOf] using h⟩
    | cons y l =>
      rcases ih (some y.2) h with h1 | ⟨i, hi, h3, h2⟩
      · rcases ih none h with h4 | ⟨i, hi, h3, h2⟩
        · simp at h4
        · exact .inr ⟨i + 1, by simp only [List.length_cons] at hi ⊢; omega, by simp only [List.length_cons] at h3 ⊢; omega,
            by simpa using h2⟩
      · exact .inr ⟨i + 1, by simp only [List.length_cons] at hi ⊢; omega, by simp only [List.length_cons] at h3 ⊢; omega,
          by simpa using h2⟩

/-- If the objects number 0 to `i` have safe epochs, a call that does collect frees the `i`-th, or 128 objects before it. -/
theorem progress {cb : Nat → List (Nat × Epoch)} {t t' : Ti} {r : List (Nat × Epoch)} {fuel : Nat} {a : Epoch}
    (h : Run cb t r) (h' : t.stop cb fuel a = some t') (hp : t.perform ≠ a) (i : Nat) (hi : i < r.length)
    (hs : ∀ j x, j ≤ i → r[j]? = some x → 0 ≤ (a - 1 - x.2).toInt) :
    i < t'.freed.length ∨ t'.freed.length = t.freed.length + 128 := by
  obtain ⟨done, hd⟩ := run_holds h
  obtain ⟨fr, hh, ⟨_, _, hpa⟩ | ⟨_, hq⟩⟩ := hd.stop h'
  · exact absurd hpa hp
  · have hlen : t'.freed.length = t.freed.length + fr.length := by rw [hq.freed]; simp
    rcases Nat.lt_or_ge fr.length 128 with h128 | h128
    · left
      rcases Nat.lt_or_ge i t'.freed.length with hlt | hge
      · exact hlt
      · exfalso
        -- the next pending object is at position `freed.length ≤ i`
        have hl := hh.len
        have hr : ∀ j, j < r.length → ((done ++ fr) ++ pendFrom 0 t')[j]? = r[j]? := fun j hj => by
          rw [← hh.split, List.getElem?_append_left hj]
        cases hpe : pendFrom 0 t' with
        | nil =>
          have := hr i hi
          rw [hpe, List.append_nil, List.getElem?_eq_none (by omega), List.getElem?_eq_getElem hi] at this
          simp at this
        | cons x l =>
          have hx : r[(done ++ fr).length]? = some x := by
            rw [← hr _ (by omega), hpe, List.getElem?_append_right (by omega)]; simp
          rcases hq.stop h128 x l hpe with hu | ⟨m, hm, hu⟩
          · have := (safe_iff (a - 1) x.2).2 (hs _ x (by omega) hx)
            rw [hu] at this; simp at this
          · rw [lastOf_append] at hm
            rcases lastOf_mem _ _ _ hm with h0 | ⟨j, hj, hj1, hjm⟩
            · simp at h0
            · have hjr : r[j]? = some (done ++ fr)[j] := by
                rw [← hr j (by omega), List.getElem?_append_left hj, List.getElem?_eq_getElem hj]
              have := (safe_iff (a - 1) (done ++ fr)[j].2).2 (hs j _ (by omega) hjr)
              rw [hjm, hu] at this; simp at this
    · right
      have := hq.most
      omega

/-- Continuations of a history with `m` collecting calls, at each of which the objects 0 to `i` have safe epochs. -/
inductive Collects (cb : Nat → List (Nat × Epoch)) (i : Nat) :
    Nat → Ti → List (Nat × Epoch) → Ti → List (Nat × Epoch) → Prop where
  | refl {t : Ti} {r : List (Nat × Epoch)} : Collects cb i 0 t r t r
  | retire {m : Nat} {t t' t'' : Ti} {r r' : List (Nat × Epoch)} {p : Nat} {e : Epoch} (h : Collects cb i m t r t' r')
      (h' : t'.record p e = some t'') : Collects cb i m t r t'' (r' ++ [(p, e)])
  | idle {m : Nat} {t t' t'' : Ti} {r r' : List (Nat × Epoch)} {fuel : Nat} {a : Epoch} (h : Collects cb i m t r t' r')
      (h' : t'.stop cb fuel a = some t'') : Collects cb i m t r t''
        (r' ++ (List.range' t'.freed.length (t''.freed.length - t'.freed.length)).flatMap cb)
  | stop {m : Nat} {t t' t'' : Ti} {r r' : List (Nat × Epoch)} {fuel : Nat} {a : Epoch} (h : Collects cb i m t r t' r')
      (hp : t'.perform ≠ a) (hs : ∀ j x, j ≤ i → r'[j]? = some x → 0 ≤ (a - 1 - x.2).toInt)
      (h' : t'.stop cb fuel a = some t'') : Collects cb i (m + 1) t r t''
        (r' ++ (List.range' t'.freed.length (t''.freed.length - t'.freed.length)).flatMap cb)

theorem Collects.run {cb : Nat → List (Nat × Epoch)} {i m : Nat} {t t' : Ti} {r r' : List (Nat × Epoch)}
    (h : Run cb t r) (hc : Collects cb i m t r t' r') : Run cb t' r' ∧ r.length ≤ r'.length := by
  induction hc with
  | refl => exact ⟨h, Nat.le_refl _⟩
  | retire _ h' ih => exact ⟨(ih h).1.retire h', by have := (ih h).2; simp only [List.length_append]; omega⟩
  | idle _ h' ih => exact ⟨(ih h).1.stop h', by have := (ih h).2; simp only [List.length_append]; omega⟩
  | stop _ _ _ h' ih => exact ⟨(ih h).1.stop h', by have := (ih h).2; simp only [List.length_append]; omega⟩

/-- Repeated quiescing frees an object once its epoch and those before it are safe: `m` collecting calls free it if at
most `128 * m` objects, itself included, are in the queue up to it. -/
theorem eventually_freed {cb : Nat → List (Nat × Epoch)} {t t' : Ti} {r r' : List (Nat × Epoch)} {i m : Nat}
    (h : Run cb t r) (hc : Collects cb i m t r t' r') (hi : i < r.length) (hm : i < t.freed.length + 128 * m) :
    i < t'.freed.length := by
  have key : i < t'.freed.length ∨ t.freed.length + 128 * m ≤ t'.freed.length := by
    clear hm
    induction hc with
    | refl => exact .inr (by omega)
    | retire hc h' ih =>
      obtain ⟨done, hd⟩ := run_holds (hc.run h).1
      obtain ⟨u, x, h1, _, _, _, _, _, _, h8, _⟩ := record_spec (p := _) (ep := _) hd.inv.first hd.inv.rest hd.inv.spare
      rw [h1, Option.some.injEq] at h'
      rw [← h', h8]; exact ih h hi
    | idle hc h' ih =>
      have := (freed_grows (hc.run h).1 h').length_le
      rcases ih h hi with hh | hh
      · left; omega
      · right; omega
    | stop hc hp hs h' ih =>
      have := (freed_grows (hc.run h).1 h').length_le
      rcases ih h hi with hh | hh
      · left; omega
      · rcases progress (hc.run h).1 h' hp i (by have := (hc.run h).2; omega) hs with hk | hk
        · left; omega
        · right; omega
  omega

/-- Histories in which no object is retired with an epoch that the last value of `active_epoch` seen makes safe at once,
as is so when that value is not ahead of the global epoch.  `last` is that value; it never moves back by exactly one,
because epochs are odd numbers (/repo/mtd.cc:86-87 and /repo/mtd.cc:933-934). -/
inductive Timely (cb : Nat → List (Nat × Epoch)) : Epoch → Ti → List (Nat × Epoch) → Prop where
  | init : Timely cb 0 Ti.init []
  | retire {last : Epoch} {t t' : Ti} {r : List (Nat × Epoch)} {p : Nat} {e : Epoch} (h : Timely cb last t r)
      (h' : t.record p e = some t') (he : (last - 1 - e).toInt < 0) : Timely cb last t' (r ++ [(p, e)])
  | stop {last : Epoch} {t t' : Ti} {r : List (Nat × Epoch)} {fuel : Nat} {a : Epoch} (h : Timely cb last t r)
      (h' : t.stop cb fuel a = some t') (hc : ∀ n, ∀ x ∈ cb n, (a - 1 - x.2).toInt < 0) (ho : a ≠ last - 1) :
      Timely cb a t' (r ++ (List.range' t.freed.length (t'.freed.length - t.freed.length)).flatMap cb)

theorem Timely.run {cb : Nat → List (Nat × Epoch)} {last : Epoch} {t : Ti} {r : List (Nat × Epoch)}
    (h : Timely cb last t r) : Run cb t r := by
  induction h with
  | init => exact .init
  | retire _ h' _ ih => exact ih.retire h'
  | stop _ h' _ _ ih => exact ih.stop h'

theorem Timely.perform {cb : Nat → List (Nat × Epoch)} {last : Epoch} {t : Ti} {r : List (Nat × Epoch)}
    (h : Timely cb last t r) : t.perform = last ∨ t.perform = last - 1 := by
  induction h with
  | init => exact .inl rfl
  | @retire last t t' r p e h h' he ih =>
    obtain ⟨done, hd⟩ := run_holds h.run
    obtain ⟨u, y, h1, _, _, _, _, _, _, h8, h9, _⟩ :=
      record_spec (p := p) (ep := e) hd.inv.first hd.inv.rest hd.inv.spare
    rw [h1, Option.some.injEq] at h'
    rw [← h', h9]; exact ih
  | @stop last t t' r fuel a h h' hc ho ih =>
    obtain ⟨done, hd⟩ := run_holds h.run
    obtain ⟨fr, hh, ⟨rfl, _, hpa⟩ | ⟨_, hq⟩⟩ := hd.stop h'
    · exact .inl hpa
    · rw [hq.perform]
      split
      · exact .inr rfl
      · exact .inl rfl

/-- `rcu_stop` skips collecting only when there is nothing to collect: when `perform_gc_epoch_` equals the active epoch
last seen, the next pending object, if any, or the last one freed is not safe. -/
theorem nothing_missed {cb : Nat → List (Nat × Epoch)} {last : Epoch} {t : Ti} {r : List (Nat × Epoch)}
    (h : Timely cb last t r) (hp : t.perform = last) :
    r.length = t.freed.length ∨ ∃ (j : Nat) (x : Nat × Epoch), (j = t.freed.length ∨ j + 1 = t.freed.length) ∧ r[j]? = some x ∧
      (last - 1 - x.2).toInt < 0 := by
  have hneg : ∀ b e : Epoch, safe b e = false → (b - e).toInt < 0 := fun b e hs => by
    rcases Int.lt_or_le (b - e).toInt 0 with h | h
    · exact h
    · rw [(safe_iff b e).2 h] at hs; simp at hs
  induction h with
  | init => exact .inl rfl
  | @retire last t t' r p e h h' he ih =>
    obtain ⟨done, hd⟩ := run_holds h.run
    obtain ⟨u, y, h1, _, _, _, _, _, _, h8, h9, _⟩ :=
      record_spec (p := p) (ep := e) hd.inv.first hd.inv.rest hd.inv.spare
    rw [h1, Option.some.injEq] at h'
    subst h'
    rw [h8]
    right
    rcases ih (by rw [← h9]; exact hp) with hh | ⟨j, x, hj, hx, hs⟩
    · exact ⟨r.length, (p, e), .inl hh, by simp, he⟩
    · exact ⟨j, x, hj, by rw [List.getElem?_append_left (List.getElem?_eq_some_iff.1 hx).1]; exact hx, hs⟩
  | @stop last t t' r fuel a h h' hc ho ih =>
    obtain ⟨done, hd⟩ := run_holds h.run
    obtain ⟨fr, hh, hcase⟩ := hd.stop h'
    have hlen := hh.len
    have fromPend : ∀ x l, pendFrom 0 t' = x :: l →
        (r ++ (List.range' t.freed.length (t'.freed.length - t.freed.length)).flatMap cb)[t'.freed.length]? = some x := by
      intro x l hx
      rw [hh.split, hx, hlen, List.getElem?_append_right (Nat.le_refl _)]; simp
    rcases hcase with ⟨rfl, rfl, hpa⟩ | ⟨hne, hq⟩
    · -- nothing was done: `perform` is `a` since an earlier call
      have hl : t'.perform = last := by
        rcases h.perform with h1 | h1
        · exact h1
        · exact absurd (hpa.symm.trans h1) ho
      have he : a = last := hpa.symm.trans hl
      subst he
      simpa using ih hl
    · cases hpe : pendFrom 0 t' with
      | nil => left; rw [hh.split, hpe, List.append_nil, hlen]
      | cons x l =>
        right
        have hlt : fr.length < 128 := by
          rcases Nat.lt_or_ge fr.length 128 with h | h
          · exact h
          · have := hq.perform
            rw [if_pos (by have := hq.most; omega), hp] at this
            exact absurd this (by bv_omega)
        rcases hq.stop hlt x l hpe with hu | ⟨m, hm, hu⟩
        · exact ⟨_, x, .inl rfl, fromPend x l hpe, hneg _ _ hu⟩
        · rw [lastOf_append] at hm
          rcases lastOf_mem _ _ _ hm with h0 | ⟨j, hj, hj1, hjm⟩
          · simp at h0
          · refine ⟨j, (done ++ fr)[j], by omega, ?_, by rw [hjm]; exact hneg _ _ hu⟩
            rw [hh.split, List.getElem?_append_left hj, List.getElem?_eq_getElem hj]

/-- 100 objects retired in epoch 1, then 200 in epoch 3. -/
def sample : Option Ti :=
  (Ti.init.recordAll ((List.range 100).map fun p => (p, 1))).bind fun t =>
    t.recordAll ((List.range 200).map fun p => (100 + p, 3))

set_option maxRecDepth 100000 in
/-- 300 objects do not fit one group.  With `active_epoch` 3 the hundred objects of epoch 1 are freed and no more; a
second call does nothing; with `active_epoch` 5, 128 objects are freed, `perform_gc_epoch_` stays behind, and one more
call frees the rest although it is the same epoch. -/
example :
    (sample.bind fun t => (t.stop (fun _ => []) 5 3).map fun t => (t.freed.length, t.perform, t.more.length)) =
      some (100, 3, 1) ∧
    (sample.bind fun t => (t.stop (fun _ => []) 5 3).bind fun t =>
      (t.stop (fun _ => []) 5 5).map fun t => (t.freed.length, t.perform, t.more.length)) = some (228, 4, 1) ∧
    (sample.bind fun t => (t.stop (fun _ => []) 5 3).bind fun t => (t.stop (fun _ => []) 5 5).bind fun t =>
      (t.stop (fun _ => []) 5 5).map fun t => (t.freed.map Prod.fst == List.range 300, t.perform, t.more.length, t.spare.length)) =
      some (true, 5, 0, 1) := by decide +kernel

/-- A callback that retires two objects while the only group is being emptied. -/
example :
    let cb : Nat → List (Nat × Epoch) := fun n => if n = 0 then [(7, 5), (8, 5)] else []
    (Ti.init.record 1 1).bind (fun t => (t.stop cb 5 3).map fun t => (t.freed, t.first.elems)) =
      some ([(1, 2)], [.mark 5, .item 7, .item 8]) := by decide +kernel

/-- The hypotheses of the theorems are met by histories with retirements, collections and callbacks. -/
example : ∃ t r, Timely (fun n => if n = 0 then [(7, 5)] else []) 3 t r ∧ t.freed = [(1, 2)] ∧ r = [(1, 1), (7, 5)] ∧
    t.perform = 3 := by
  refine ⟨_, _, .stop (fuel := 5) (a := 3) (.retire (p := 1) (e := 1) .init rfl (by decide)) rfl ?_ (by decide),
    by decide +kernel, by decide +kernel, by decide +kernel⟩
  intro n x hx
  by_cases h : n = 0
  · simp only [h, if_true, List.mem_singleton] at hx
    subst hx; decide
  · simp only [h, if_false] at hx; simp at hx

end Verif.Props.C14
