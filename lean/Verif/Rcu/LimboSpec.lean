import Verif.Rcu.Limbo

/-!
# What the limbo list holds

The list of pending objects with their epochs, read off the groups, and how each function changes it.
-/
namespace Verif.Rcu

/-- The objects of a stretch of elements with the epochs of the marks before them. -/
def decode : Epoch → List Elem → List (Nat × Epoch)
  | _, [] => []
  | _, .mark e :: l => decode e l
  | e, .item p :: l => (p, e) :: decode e l

/-- The epoch in force after a stretch of elements. -/
def endEpoch : Epoch → List Elem → Epoch
  | e, [] => e
  | _, .mark e :: l => endEpoch e l
  | e, .item _ :: l => endEpoch e l

theorem decode_append (e : Epoch) (l m : List Elem) :
    decode e (l ++ m) = decode e l ++ decode (endEpoch e l) m := by
  induction l generalizing e with
  | nil => rfl
  | cons a l ih => cases a <;> simp [decode, endEpoch, ih]

theorem endEpoch_append (e : Epoch) (l m : List Elem) :
    endEpoch e (l ++ m) = endEpoch (endEpoch e l) m := by
  induction l generalizing e with
  | nil => rfl
  | cons a l ih => cases a <;> simp [endEpoch, ih]

/-- Every mark is followed by an object. -/
def Tight : List Elem → Prop
  | [] => True
  | .item _ :: l => Tight l
  | .mark _ :: .item _ :: l => Tight l
  | .mark _ :: _ => False

theorem tight_append {l m : List Elem} (hl : Tight l) (hm : Tight m) : Tight (l ++ m) := by
  fun_induction Tight l with
  | case1 => exact hm
  | case2 _ l ih => exact ih hl
  | case3 _ _ l ih => exact ih hl
  | case4 => exact hl.elim

/-- A group fits its array and `epoch_` is the epoch of its last element. -/
def GInv (e : Epoch) (g : Group) : Prop :=
  g.tail ≤ capacity ∧ (g.elems ≠ [] → endEpoch e g.elems = g.epoch)

/-- A group that holds something begins with a mark. -/
def Marked (g : Group) : Prop := ∀ p l, g.elems ≠ .item p :: l

/-- An empty group begins at 0. -/
def Rested (g : Group) : Prop := g.elems = [] → g.head = 0

/-- All that is pending, when the first group is read with epoch `e`. -/
def pendFrom (e : Epoch) (t : Ti) : List (Nat × Epoch) :=
  decode e t.first.elems ++ t.more.flatMap fun g => decode 0 g.elems

/-- The groups behind the first one. -/
def RestInv (l : List Group) : Prop := ∀ g ∈ l, GInv 0 g ∧ Marked g ∧ Rested g ∧ Tight g.elems

/-- The spare groups are empty. -/
def SpareInv (l : List Group) : Prop := ∀ g ∈ l, g.head = 0 ∧ g.elems = []

theorem endEpoch_marked {e e' : Epoch} {g : Group} (hm : Marked g) (hn : g.elems ≠ []) :
    endEpoch e g.elems = endEpoch e' g.elems := by
  cases h : g.elems with
  | nil => exact absurd h hn
  | cons a l =>
    cases a with
    | mark x => rfl
    | item p => exact absurd h (hm p l)

theorem decode_marked {e e' : Epoch} {g : Group} (hm : Marked g) : decode e g.elems = decode e' g.elems := by
  cases h : g.elems with
  | nil => rfl
  | cons a l =>
    cases a with
    | mark x => rfl
    | item p => exact absurd h (hm p l)

theorem push_spec {e : Epoch} {g : Group} {p : Nat} {ep : Epoch} (hg : GInv e g) (ht : g.tail + 2 ≤ capacity) :
    ∃ g' x, g.push p ep = some g' ∧ g'.elems = g.elems ++ x ∧ g'.head = g.head ∧ GInv e g' ∧
      decode e g'.elems = decode e g.elems ++ [(p, ep)] ∧ (Marked g → Marked g') ∧ Tight x := by
  unfold Group.push
  rw [if_neg (by omega)]
  by_cases hc : g.elems = [] ∨ g.epoch ≠ ep
  · rw [if_pos hc]
    refine ⟨_, [.mark ep, .item p], rfl, rfl, rfl, ⟨?_, fun _ => ?_⟩, ?_, fun hm q l h => ?_, by simp [Tight]⟩
    · simp [Group.tail] at ht ⊢; omega
    · simp [endEpoch_append, endEpoch]
    · simp [decode_append, decode]
    · cases hl : g.elems with
      | nil => simp [hl] at h
      | cons a r =>
        simp only [hl, List.cons_append, List.cons.injEq] at h
        exact hm q r (by rw [hl, h.1])
  · rw [if_neg hc]
    simp only [not_or, Decidable.not_not] at hc
    have he := hg.2 hc.1
    refine ⟨_, [.item p], rfl, rfl, rfl, ⟨?_, fun _ => ?_⟩, ?_, fun hm q l h => ?_, by simp [Tight]⟩
    · simp [Group.tail] at ht ⊢; omega
    · simp [endEpoch_append, endEpoch, he]
    · simp [decode_append, decode, he, hc.2]
    · cases hl : g.elems with
      | nil => exact hc.1 hl
      | cons a r =>
        simp only [hl, List.cons_append, List.cons.injEq] at h
        exact hm q r (by rw [hl, h.1])

/-- `onLast` in a list whose last group has room. -/
theorem onLast_spec {e : Epoch} {p : Nat} {ep : Epoch} (g : Group) (l : List Group) (hg : GInv e g) (hl : RestInv l)
    (ht : (lastGroup g l).tail + 2 ≤ capacity) :
    ∃ g' l' x, onLast (fun g => g.push p ep) g l = some (g', l') ∧ g'.elems = g.elems ++ x ∧ g'.head = g.head ∧
      GInv e g' ∧ RestInv l' ∧
      decode e g'.elems ++ l'.flatMap (fun g => decode 0 g.elems) =
        decode e g.elems ++ l.flatMap (fun g => decode 0 g.elems) ++ [(p, ep)] ∧ (Marked g → Marked g') ∧ Tight x := by
  induction l generalizing g e with
  | nil =>
    obtain ⟨g', x, h1, h2, h3, h4, h5, h6, h7⟩ := push_spec (p := p) (ep := ep) hg ht
    exact ⟨g', [], x, by simp [onLast, h1], h2, h3, h4, hl, by simp [h5], h6, h7⟩
  | cons h t ih =>
    obtain ⟨hh, hm, hr, htt⟩ := hl h (by simp)
    obtain ⟨g', l', x, h1, h2, h3, h4, h5, h6, h7, h8⟩ := ih h hh (fun g hg => hl g (by simp [hg])) ht
    refine ⟨g, g' :: l', [], by simp [onLast, h1], by simp, rfl, hg, ?_, ?_, id, trivial⟩
    · intro k hk
      rcases List.mem_cons.1 hk with rfl | hk
      · refine ⟨h4, h7 hm, fun he => ?_, by rw [h2]; exact tight_append htt h8⟩
        rw [h3]; apply hr
        rw [h2] at he; exact (List.append_eq_nil_iff.1 he).1
      · exact h5 k hk
    · simp only [List.flatMap_cons, h6, List.append_assoc]

theorem lastGroup_append (g : Group) (l : List Group) (h : Group) : lastGroup g (l ++ [h]) = h := by
  induction l generalizing g with
  | nil => rfl
  | cons a l ih => exact ih a

/-- `record_rcu` adds its object at the end. -/
theorem record_spec {e : Epoch} {t : Ti} {p : Nat} {ep : Epoch} (hg : GInv e t.first) (hl : RestInv t.more)
    (hs : SpareInv t.spare) :
    ∃ t' x, t.record p ep = some t' ∧ t'.first.elems = t.first.elems ++ x ∧ t'.first.head = t.first.head ∧
      GInv e t'.first ∧ RestInv t'.more ∧ SpareInv t'.spare ∧ pendFrom e t' = pendFrom e t ++ [(p, ep)] ∧
      t'.freed = t.freed ∧ t'.perform = t.perform ∧ (Marked t.first → Marked t'.first) ∧ Tight x := by
  have key : ∀ u : Ti, u.first = t.first → RestInv u.more → SpareInv u.spare → pendFrom e u = pendFrom e t →
      u.freed = t.freed → u.perform = t.perform → (lastGroup u.first u.more).tail + 2 ≤ capacity →
      ∃ t' x, (onLast (fun g => g.push p ep) u.first u.more).map
          (fun r => { u with first := r.1, more := r.2 }) = some t' ∧ t'.first.elems = t.first.elems ++ x ∧
        t'.first.head = t.first.head ∧
        GInv e t'.first ∧ RestInv t'.more ∧ SpareInv t'.spare ∧ pendFrom e t' = pendFrom e t ++ [(p, ep)] ∧
        t'.freed = t.freed ∧ t'.perform = t.perform ∧ (Marked t.first → Marked t'.first) ∧ Tight x := by
    intro u h1 h2 h3 h4 h5 h6 h7
    obtain ⟨g', l', x, k1, k2, k3, k4, k5, k6, k7, k8⟩ :=
      onLast_spec (p := p) (ep := ep) u.first u.more (by rw [h1]; exact hg) h2 h7
    refine ⟨{ u with first := g', more := l' }, x, by rw [k1]; rfl, by simp [k2, h1], by simp [k3, h1], k4, k5, h3, ?_, h5, h6, by rw [h1] at k7; exact k7, k8⟩
    rw [← h4]; exact k6
  unfold Ti.record
  by_cases hc : capacity < (lastGroup t.first t.more).tail + 2
  · rw [if_pos hc]
    cases hsp : t.spare with
    | nil =>
      have : t.refill = some { t with more := t.more ++ [fresh] } := by simp [Ti.refill, hsp]
      rw [this]
      refine key _ rfl ?_ hs ?_ rfl rfl ?_
      · intro g h
        rcases List.mem_append.1 h with h | h
        · exact hl g h
        · simp only [List.mem_singleton] at h
          subst h
          exact ⟨⟨by decide, fun h => absurd rfl h⟩, fun p l h => by simp [fresh] at h, fun _ => rfl, trivial⟩
      · simp [pendFrom, fresh, decode]
      · simp only [lastGroup_append]; decide
    | cons g rest =>
      have hg0 := hs g (by simp [hsp])
      have : t.refill = some { t with more := t.more ++ [g], spare := rest } := by simp [Ti.refill, hsp, hg0]
      rw [this]
      refine key _ rfl ?_ (fun k hk => hs k (by simp [hsp, hk])) ?_ rfl rfl ?_
      · intro k h
        rcases List.mem_append.1 h with h | h
        · exact hl k h
        · simp only [List.mem_singleton] at h
          subst h
          refine ⟨⟨?_, fun h => absurd hg0.2 h⟩, fun p l h => by simp [hg0.2] at h, fun _ => hg0.1, by simp [hg0.2, Tight]⟩
          simp [Group.tail, hg0]
      · simp [pendFrom, hg0.2, decode]
      · simp only [lastGroup_append]; simp only [Group.tail, hg0]; decide
  · rw [if_neg hc]
    exact key t rfl hl hs rfl rfl rfl (by omega)

theorem recordAll_spec {e : Epoch} (l : List (Nat × Epoch)) (t : Ti) (hg : GInv e t.first) (hl : RestInv t.more)
    (hs : SpareInv t.spare) :
    ∃ t' x, t.recordAll l = some t' ∧ t'.first.elems = t.first.elems ++ x ∧ t'.first.head = t.first.head ∧
      GInv e t'.first ∧ RestInv t'.more ∧ SpareInv t'.spare ∧ pendFrom e t' = pendFrom e t ++ l ∧
      t'.freed = t.freed ∧ t'.perform = t.perform ∧ (Marked t.first → Marked t'.first) ∧ Tight x := by
  induction l generalizing t with
  | nil => exact ⟨t, [], rfl, by simp, rfl, hg, hl, hs, by simp, rfl, rfl, id, trivial⟩
  | cons a l ih =>
    obtain ⟨t1, x, h1, h2, h3, h4, h5, h6, h7, h8, h9, h10, h11⟩ := record_spec (p := a.1) (ep := a.2) hg hl hs
    obtain ⟨t2, y, k1, k2, k3, k4, k5, k6, k7, k8, k9, k10, k11⟩ := ih t1 h4 h5 h6
    refine ⟨t2, x ++ y, ?_, by simp [k2, h2], by rw [k3, h3], k4, k5, k6, by simp [k7, h7], by rw [k8, h8],
      by rw [k9, h9], fun h => k10 (h10 h), tight_append h11 k11⟩
    simp only [Ti.recordAll, h1, Option.bind_some, k1]

theorem tight_tail {a : Elem} {l : List Elem} (h : Tight (a :: l)) : Tight l := by
  match a, l, h with
  | .item _, _, h => exact h
  | .mark _, .item _ :: _, h => exact h
  | .mark _, [], h => exact h.elim
  | .mark _, .mark _ :: _, h => exact h.elim

/-- The epoch of the last object of a list, or `d`. -/
def lastOf : Option Epoch → List (Nat × Epoch) → Option Epoch
  | d, [] => d
  | _, x :: l => lastOf (some x.2) l

theorem lastOf_append (d : Option Epoch) (a b : List (Nat × Epoch)) : lastOf (lastOf d a) b = lastOf d (a ++ b) := by
  induction a generalizing d with
  | nil => rfl
  | cons x a ih => exact ih _

/-- In the first group, the first mark may be the one left by the last free, whose object had epoch `last`. -/
def Lead (last : Option Epoch) (l : List Elem) : Prop :=
  Tight l ∨ ∃ m r, l = .mark m :: r ∧ Tight r ∧ last = some m

/-- What `skip` does. -/
theorem skip_spec (bound : Epoch) (k : Nat) (e : Epoch) (l : List Elem) :
    ∃ k' e' l', skip bound k e l = (k + k', e', l') ∧ k' + l'.length = l.length ∧ decode e l = decode e' l' ∧
      endEpoch e l = endEpoch e' l' ∧ (Tight l → Tight l') ∧
      (l' = [] ∨ (∃ m r, l' = .mark m :: r ∧ safe bound m = false) ∨
        (∃ p r, l' = .item p :: r ∧ ((∀ q s, l = .item q :: s → safe bound e = true) → safe bound e' = true))) := by
  induction l generalizing k e with
  | nil => exact ⟨0, e, [], rfl, rfl, rfl, rfl, id, .inl rfl⟩
  | cons a l ih =>
    cases a with
    | item p => exact ⟨0, e, _, rfl, by simp, rfl, rfl, id, .inr (.inr ⟨p, l, rfl, fun h => h p l rfl⟩)⟩
    | mark m =>
      by_cases hm : safe bound m = true
      · obtain ⟨k', e', l', h1, h2, h3, h4, h6, h5⟩ := ih (k + 1) m
        refine ⟨k' + 1, e', l', ?_, by simp only [List.length_cons]; omega, h3, h4, fun h => h6 (tight_tail h), ?_⟩
        · rw [skip, if_pos hm, h1, Nat.add_assoc, Nat.add_comm 1]
        · rcases h5 with h | h | ⟨p, r, hr, hs⟩
          · exact .inl h
          · exact .inr (.inl h)
          · exact .inr (.inr ⟨p, r, hr, fun _ => hs fun _ _ _ => hm⟩)
      · refine ⟨0, e, .mark m :: l, by rw [skip, if_neg hm]; rfl, by simp, rfl, rfl, id,
          .inr (.inl ⟨m, l, rfl, by simpa using hm⟩)⟩

/-- The objects retired by the frees number `i`, …, `i + n - 1`. -/
def called (cb : Nat → List (Nat × Epoch)) (i n : Nat) : List (Nat × Epoch) := (List.range' i n).flatMap cb

theorem called_succ (cb : Nat → List (Nat × Epoch)) (i n : Nat) : called cb i (n + 1) = cb i ++ called cb (i + 1) n := by
  simp [called, List.range'_succ]

theorem called_add (cb : Nat → List (Nat × Epoch)) (i n m : Nat) :
    called cb i (n + m) = called cb i n ++ called cb (i + n) m := by
  induction n generalizing i with
  | zero => simp [called]
  | succ n ih => rw [Nat.succ_add, called_succ, called_succ, ih, List.append_assoc, Nat.succ_add_eq_add_succ]

/-- The outcome of freeing `fr`: from `pend` pending and state `t` to `t'`. -/
structure Freed (cb : Nat → List (Nat × Epoch)) (bound : Epoch) (pend : List (Nat × Epoch)) (t t' : Ti)
    (fr : List (Nat × Epoch)) : Prop where
  freed : t'.freed = t.freed ++ fr.map fun x => (x.1, bound)
  pend : fr ++ pendFrom 0 t' = pend ++ called cb t.freed.length fr.length
  safe : ∀ x ∈ fr, safe bound x.2 = true
  perform : t'.perform = t.perform

theorem clean_spec (cb : Nat → List (Nat × Epoch)) (bound : Epoch) (c : Nat) (e : Epoch) (t : Ti) (hc : 0 < c)
    (hg : GInv e t.first) (hl : RestInv t.more) (hs : SpareInv t.spare)
    (hi : ∀ p l, t.first.elems = .item p :: l → safe bound e = true) {last : Option Epoch} (hla : Lead last t.first.elems) :
    ∃ t' c' fr, t.clean cb bound c e = some (t', c') ∧ Freed cb bound (pendFrom e t) t t' fr ∧
      c' + fr.length = c ∧ GInv 0 t'.first ∧ Marked t'.first ∧ Rested t'.first ∧ RestInv t'.more ∧ SpareInv t'.spare ∧
      (c' = 0 → t'.first.elems ≠ []) ∧ (fr = [] → t'.more = t.more) ∧
      (c' ≠ 0 → ∀ x l, t'.first.elems = x :: l → ∃ m, x = .mark m ∧ safe bound m = false) ∧
      Lead (lastOf last fr) t'.first.elems := by
  induction c generalizing e t last with
  | zero => omega
  | succ c ih =>
    obtain ⟨k, e', l', h1, h2, h3, h4, h6, h5⟩ := skip_spec bound 0 e t.first.elems
    rw [Nat.zero_add] at h1
    have h7 : Lead last l' ∧ ((∃ p r, l' = .item p :: r) → Tight l') := by
      rcases hla with hla | ⟨m, r, hm, hr, hl⟩
      · exact ⟨.inl (h6 hla), fun _ => h6 hla⟩
      · by_cases hs : safe bound m = true
        · obtain ⟨k2, e2, l2, g1, _, _, _, g6, _⟩ := skip_spec bound 1 m r
          rw [hm, skip, if_pos hs, g1] at h1
          simp only [Prod.mk.injEq] at h1
          rw [← h1.2.2]
          exact ⟨.inl (g6 hr), fun _ => g6 hr⟩
        · rw [hm, skip, if_neg hs] at h1
          simp only [Prod.mk.injEq] at h1
          rw [← h1.2.2]
          exact ⟨.inr ⟨m, r, rfl, hr, hl⟩, fun ⟨p, q, hq⟩ => by simp at hq⟩
    rcases h5 with rfl | ⟨m, r, rfl, hm⟩ | ⟨p, r, rfl, hsafe⟩
    · refine ⟨{ t with first := { t.first with head := 0, elems := [] } }, c + 1, [], ?_, ⟨?_, ?_, ?_, rfl⟩, rfl,
        ⟨by simp [Group.tail], fun h => absurd rfl h⟩, fun p l h => by simp at h, fun _ => rfl, hl, hs,
        fun h => by omega, fun _ => rfl, fun _ x l h => by simp at h, .inl trivial⟩
      · rw [Ti.clean, h1]
      · simp
      · simp [pendFrom, h3, decode, called]
      · simp
    · have hmark : Marked { t.first with head := t.first.head + k, elems := .mark m :: r } := fun p l h => by simp at h
      refine ⟨{ t with first := { t.first with head := t.first.head + k, elems := .mark m :: r } }, c + 1, [], ?_,
        ⟨?_, ?_, ?_, rfl⟩, rfl, ⟨?_, fun _ => ?_⟩, hmark, fun h => by simp at h, hl, hs, fun h => by omega, fun _ => rfl,
        fun _ x l h => ?_, h7.1⟩
      · rw [Ti.clean, h1]
      · simp
      · simp [pendFrom, h3, decode, called]
      · simp
      · have := hg.1; simp [Group.tail] at this h2 ⊢; omega
      · have := hg.2 (fun h0 => by rw [h0] at h2; simp at h2)
        rw [h4] at this; exact this
      · simp only [List.cons.injEq] at h
        exact ⟨m, h.1.symm, hm⟩
    · have hne : t.first.elems ≠ [] := fun h0 => by rw [h0] at h2; simp at h2
      have hse : safe bound e' = true := hsafe hi
      let t1 : Ti := { t with
        first := { t.first with head := t.first.head + k, elems := .item p :: r }, freed := t.freed ++ [(p, bound)] }
      have hg1 : GInv e' t1.first := by
        refine ⟨?_, fun _ => ?_⟩
        · have := hg.1; simp [t1, Group.tail] at this h2 ⊢; omega
        · have := hg.2 hne; rw [h4] at this; exact this
      obtain ⟨t2, x, k1, k2, k3, k4, k5, k6, k7, k8, k9, k10, k11⟩ :=
        recordAll_spec (e := e') (cb t.freed.length) t1 hg1 hl hs
      have k2' : t2.first.elems = .item p :: (r ++ x) := k2
      have hp1 : pendFrom e' t1 = pendFrom e t := by simp [pendFrom, t1, h3]
      have hclean : t.clean cb bound (c + 1) e =
          if c = 0 then some ({ t2 with first := { t2.first with elems := .mark e' :: (r ++ x) } }, 0)
          else Ti.clean cb bound c e' { t2 with first := { t2.first with head := t2.first.head + 1, elems := r ++ x } } := by
        have hd : t.clean cb bound (c + 1) e = (t1.recordAll (cb t.freed.length)).bind fun t2 =>
            if c = 0 then some ({ t2 with first := { t2.first with elems := .mark e' :: t2.first.elems.tail } }, 0)
            else Ti.clean cb bound c e'
              { t2 with first := { t2.first with head := t2.first.head + 1, elems := t2.first.elems.tail } } := by
          rw [Ti.clean, h1]
        rw [hd, k1]
        simp [k2']
      have htx : Tight (r ++ x) := tight_append (tight_tail (h7.2 ⟨p, r, rfl⟩)) k11
      have hpend : (p, e') :: (decode e' (r ++ x) ++ t2.more.flatMap fun g => decode 0 g.elems) =
          pendFrom e t ++ cb t.freed.length := by
        rw [← hp1, ← k7]; simp [pendFrom, k2', decode]
      have hend : endEpoch e' (r ++ x) = t2.first.epoch := by
        have := k4.2 (by rw [k2']; simp)
        rw [k2'] at this; exact this
      have htail : t2.first.head + (r ++ x).length + 1 ≤ capacity := by
        have := k4.1
        rw [Group.tail, k2', List.length_cons] at this; omega
      by_cases hc0 : c = 0
      · subst hc0
        rw [if_pos rfl] at hclean
        refine ⟨_, 0, [(p, e')], hclean, ⟨by simp [k8, t1], ?_, by simp [hse], by simp [k9, t1]⟩, rfl, ⟨?_, fun _ => ?_⟩,
          fun q l h => by simp at h, fun h => by simp at h, k5, k6, fun _ => by simp, fun h => by simp at h,
          fun h => absurd rfl h, .inr ⟨e', r ++ x, rfl, htx, rfl⟩⟩
        · have : pendFrom 0 { t2 with first := { t2.first with elems := .mark e' :: (r ++ x) } } =
              decode e' (r ++ x) ++ t2.more.flatMap fun g => decode 0 g.elems := rfl
          rw [this, List.singleton_append, hpend]; simp [called]
        · simp only [Group.tail, List.length_cons]; omega
        · exact hend
      · rw [if_neg hc0] at hclean
        let t3 : Ti := { t2 with first := { t2.first with head := t2.first.head + 1, elems := r ++ x } }
        obtain ⟨t', c', fr, i1, i2, i3, i4, i5, i6, i7, i8, i9, i10, i11, i12⟩ := ih e' t3 (by omega)
          ⟨by simp only [t3, Group.tail]; omega, fun _ => hend⟩ k5 k6 (fun _ _ _ => hse) (last := some e') (.inl htx)
        have hf3 : t3.freed = t.freed ++ [(p, bound)] := k8
        refine ⟨t', c', (p, e') :: fr, by rw [hclean]; exact i1, ⟨?_, ?_, ?_, ?_⟩, by simp only [List.length_cons]; omega,
          i4, i5, i6, i7, i8, i9, fun h => by simp at h, i11, i12⟩
        · rw [i2.freed, hf3]; simp
        · rw [List.cons_append, i2.pend, hf3, List.length_append, List.length_singleton, List.length_cons, called_succ,
            ← List.append_assoc, ← hpend]
          rfl
        · intro y hy
          rcases List.mem_cons.1 hy with rfl | hy
          · exact hse
          · exact i2.safe y hy
        · rw [i2.perform]; simp [t3, k9, t1]

/-- The invariant of a thread between calls. -/
structure Ti.Inv (last : Option Epoch) (t : Ti) : Prop where
  first : GInv 0 t.first
  marked : Marked t.first
  rested : Rested t.first
  rest : RestInv t.more
  spare : SpareInv t.spare
  lead : Lead last t.first.elems

theorem Ti.init_inv : Ti.init.Inv none :=
  ⟨⟨by decide, fun h => absurd rfl h⟩, fun p l h => by simp [Ti.init, fresh] at h, fun _ => rfl,
    fun g h => by simp [Ti.init] at h, fun g h => by simp [Ti.init] at h, .inl trivial⟩

/-- What `cleanLoop` establishes. -/
structure Cleaned (cb : Nat → List (Nat × Epoch)) (bound : Epoch) (count : Nat) (last : Option Epoch) (t t' : Ti) (c' : Nat)
    (fr : List (Nat × Epoch)) : Prop where
  freed : Freed cb bound (pendFrom 0 t) t t' fr
  count : c' + fr.length = count
  inv : t'.Inv (lastOf last fr)
  stop : c' ≠ 0 → ∀ x l, pendFrom 0 t' = x :: l → Rcu.safe bound x.2 = false ∨
    ∃ m, lastOf last fr = some m ∧ Rcu.safe bound m = false

theorem Freed.trans {cb : Nat → List (Nat × Epoch)} {bound : Epoch} {p : List (Nat × Epoch)} {t t1 t2 : Ti}
    {fr fr' : List (Nat × Epoch)} (h : Freed cb bound p t t1 fr) (h' : Freed cb bound (pendFrom 0 t1) t1 t2 fr') :
    Freed cb bound p t t2 (fr ++ fr') := by
  refine ⟨by rw [h'.freed, h.freed]; simp, ?_, ?_, by rw [h'.perform, h.perform]⟩
  · rw [List.append_assoc, h'.pend, ← List.append_assoc, h.pend, List.length_append, called_add, h.freed]
    simp
  · intro x hx
    rcases List.mem_append.1 hx with hx | hx
    · exact h.safe x hx
    · exact h'.safe x hx

/-- Whether the loop of `hard_rcu_quiesce` has ended after a call of `clean_until`. -/
theorem cleanLoop_spec (cb : Nat → List (Nat × Epoch)) (bound : Epoch) (fuel count : Nat) (emp : List Group) (t : Ti)
    {last : Option Epoch} (hc : 0 < count) (ht : t.Inv last) (he : SpareInv emp) :
    t.cleanLoop cb bound fuel count emp = none ∨
      ∃ t' c' fr, t.cleanLoop cb bound fuel count emp = some (t', c') ∧ Cleaned cb bound count last t t' c' fr := by
  induction fuel generalizing count emp t last with
  | zero => exact .inl rfl
  | succ fuel ih =>
    obtain ⟨t1, c1, fr, h1, h2, h3, h4, h5, h6, h7, h8, h9, _, h11, h12⟩ := clean_spec cb bound count 0 t hc ht.first ht.rest
      ht.spare (fun p l h => absurd h (ht.marked p l)) ht.lead
    rw [Ti.cleanLoop, if_neg (by omega), h1, Option.bind_some]
    dsimp only
    by_cases hn : t1.first.elems = []
    · rw [if_neg (by simpa using hn)]
      cases hm : t1.more with
      | nil =>
        dsimp only
        have hsp : SpareInv (emp ++ [t1.first]) := by
          intro g hg
          rcases List.mem_append.1 hg with hg | hg
          · exact he g hg
          · simp only [List.mem_singleton] at hg
            subst hg; exact ⟨h6 hn, hn⟩
        have hpe : pendFrom 0 t1 = [] := by simp [pendFrom, hn, hm, decode]
        cases hg : emp ++ [t1.first] with
        | nil => simp at hg
        | cons g rest =>
          right
          have hg0 := hsp g (by rw [hg]; simp)
          refine ⟨_, _, fr, rfl, ⟨h2.freed, ?_, h2.safe, h2.perform⟩, h3, ⟨⟨?_, ?_⟩, ?_, fun _ => hg0.1,
            fun k hk => by simp at hk, ?_, .inl (by rw [hg0.2]; trivial)⟩, ?_⟩
          · have := h2.pend
            rw [hpe] at this
            simpa [pendFrom, hg0.2, decode] using this
          · simp [Group.tail, hg0]
          · simp [hg0.2]
          · intro p l h; simp [hg0.2] at h
          · intro k hk
            rcases List.mem_append.1 hk with hk | hk
            · exact hsp k (by rw [hg]; simp [hk])
            · exact h8 k hk
          · intro _ x l h; simp [pendFrom, hg0.2, decode] at h
      | cons g rest =>
        dsimp only
        have hg := h7 g (by simp [hm])
        have hc1 : 0 < c1 := by
          rcases Nat.eq_zero_or_pos c1 with h | h
          · exact absurd hn (h9 h)
          · exact h
        have hinv : Ti.Inv (lastOf last fr) { t1 with first := g, more := rest } :=
          ⟨hg.1, hg.2.1, hg.2.2.1, fun k hk => h7 k (by simp [hm, hk]), h8, .inl hg.2.2.2⟩
        rcases ih c1 (emp ++ [t1.first]) { t1 with first := g, more := rest } hc1 hinv (by
          intro k hk
          rcases List.mem_append.1 hk with hk | hk
          · exact he k hk
          · simp only [List.mem_singleton] at hk
            subst hk; exact ⟨h6 hn, hn⟩) with h | ⟨t', c', fr', i1, i2⟩
        · exact .inl h
        · right
          have hpe : pendFrom 0 { t1 with first := g, more := rest } = pendFrom 0 t1 := by
            simp [pendFrom, hn, hm, decode]
          have hf : Freed cb bound (pendFrom 0 t1) t1 t' fr' := by
            have := i2.freed
            rw [hpe] at this
            exact ⟨this.freed, this.pend, this.safe, this.perform⟩
          refine ⟨t', c', fr ++ fr', i1, h2.trans hf, ?_, by rw [← lastOf_append]; exact i2.inv, by rw [← lastOf_append]; exact i2.stop⟩
          have := i2.count
          rw [List.length_append]; omega
    · rw [if_pos hn]
      right
      refine ⟨_, _, fr, rfl, ⟨h2.freed, h2.pend, h2.safe, h2.perform⟩, h3, ⟨h4, h5, h6, h7, ?_, h12⟩, ?_⟩
      · intro k hk
        rcases List.mem_append.1 hk with hk | hk
        · exact he k hk
        · exact h8 k hk
      · intro hc0 x l h
        cases hel : t1.first.elems with
        | nil => exact absurd hel hn
        | cons a r =>
          obtain ⟨m, rfl, hm⟩ := h11 hc0 a r hel
          rcases h12 with h12 | ⟨m', r', hm', _, hl'⟩
          · rw [hel] at h12
            match r, h12 with
            | .item p :: r', _ =>
              left
              have hp : pendFrom 0 t1 = (p, m) :: (decode m r' ++ t1.more.flatMap fun g => decode 0 g.elems) := by
                simp [pendFrom, hel, decode]
              have hx : pendFrom 0 t1 = x :: l := h
              rw [hp, List.cons.injEq] at hx
              rw [← hx.1]; exact hm
          · rw [hel, List.cons.injEq, Elem.mark.injEq] at hm'
            right
            exact ⟨m, by rw [hl', hm'.1], hm⟩

/-- The loop of `hard_rcu_quiesce` ends. -/
theorem cleanLoop_ends (cb : Nat → List (Nat × Epoch)) (bound : Epoch) (count n : Nat) (emp : List Group) (t : Ti)
    {last : Option Epoch} (hc : 0 < count) (ht : t.Inv last) (hn : t.more.length = n) :
    ∃ fuel, t.cleanLoop cb bound fuel count emp ≠ none := by
  induction count using Nat.strongRecOn generalizing n emp t last with
  | ind count ihc =>
    induction n generalizing emp t last with
    | zero =>
      obtain ⟨t1, c1, fr, h1, h2, h3, h4, h5, h6, h7, h8, h9, h10, h11, h12⟩ := clean_spec cb bound count 0 t hc ht.first
        ht.rest ht.spare (fun p l h => absurd h (ht.marked p l)) ht.lead
      have hun : ∀ fuel, t.cleanLoop cb bound (fuel + 1) count emp =
          if t1.first.elems ≠ [] then some ({ t1 with spare := emp ++ t1.spare }, c1)
          else match t1.more with
            | [] => match emp ++ [t1.first] with
              | [] => none
              | g :: rest => some ({ t1 with first := g, more := [], spare := rest ++ t1.spare }, c1)
            | g :: rest => Ti.cleanLoop cb bound fuel c1 (emp ++ [t1.first]) { t1 with first := g, more := rest } := by
        intro fuel
        rw [Ti.cleanLoop, if_neg (by omega), h1, Option.bind_some]
        rfl
      by_cases he : t1.first.elems = []
      · cases hm : t1.more with
        | nil =>
          refine ⟨1, ?_⟩
          rw [hun, if_neg (by simpa using he), hm]
          cases hg : emp ++ [t1.first] with
          | nil => simp at hg
          | cons g rest => simp
        | cons g rest =>
          have hfr : fr ≠ [] := fun h => by
            have := h10 h
            rw [hm, List.length_eq_zero_iff.1 hn] at this; simp at this
          have hlen : 0 < fr.length := List.length_pos_iff.2 hfr
          have hg := h7 g (by simp [hm])
          have hc1 : 0 < c1 := by
            rcases Nat.eq_zero_or_pos c1 with h | h
            · exact absurd he (h9 h)
            · exact h
          obtain ⟨fuel, hf⟩ := ihc c1 (by omega) rest.length (emp ++ [t1.first]) { t1 with first := g, more := rest }
            (last := lastOf last fr) hc1
            ⟨hg.1, hg.2.1, hg.2.2.1, fun k hk => h7 k (by simp [hm, hk]), h8, .inl hg.2.2.2⟩ rfl
          exact ⟨fuel + 1, by rw [hun, if_neg (by simpa using he), hm]; exact hf⟩
      · exact ⟨1, by rw [hun, if_pos he]; simp⟩
    | succ n ihn =>
      obtain ⟨t1, c1, fr, h1, h2, h3, h4, h5, h6, h7, h8, h9, h10, h11, h12⟩ := clean_spec cb bound count 0 t hc ht.first
        ht.rest ht.spare (fun p l h => absurd h (ht.marked p l)) ht.lead
      have hun : ∀ fuel, t.cleanLoop cb bound (fuel + 1) count emp =
          if t1.first.elems ≠ [] then some ({ t1 with spare := emp ++ t1.spare }, c1)
          else match t1.more with
            | [] => match emp ++ [t1.first] with
              | [] => none
              | g :: rest => some ({ t1 with first := g, more := [], spare := rest ++ t1.spare }, c1)
            | g :: rest => Ti.cleanLoop cb bound fuel c1 (emp ++ [t1.first]) { t1 with first := g, more := rest } := by
        intro fuel
        rw [Ti.cleanLoop, if_neg (by omega), h1, Option.bind_some]
        rfl
      by_cases he : t1.first.elems = []
      · cases hm : t1.more with
        | nil =>
          refine ⟨1, ?_⟩
          rw [hun, if_neg (by simpa using he), hm]
          cases hg : emp ++ [t1.first] with
          | nil => simp at hg
          | cons g rest => simp
        | cons g rest =>
          have hg := h7 g (by simp [hm])
          have hc1 : 0 < c1 := by
            rcases Nat.eq_zero_or_pos c1 with h | h
            · exact absurd he (h9 h)
            · exact h
          have hinv : Ti.Inv (lastOf last fr) { t1 with first := g, more := rest } :=
            ⟨hg.1, hg.2.1, hg.2.2.1, fun k hk => h7 k (by simp [hm, hk]), h8, .inl hg.2.2.2⟩
          by_cases hfr : fr = []
          · have hmm := h10 hfr
            have hce : c1 = count := by subst hfr; simpa using h3
            subst hce
            obtain ⟨fuel, hf⟩ := ihn (emp ++ [t1.first]) { t1 with first := g, more := rest } hinv (by
              rw [hm] at hmm; rw [← hmm] at hn; simpa using hn)
            exact ⟨fuel + 1, by rw [hun, if_neg (by simpa using he), hm]; exact hf⟩
          · have hlen : 0 < fr.length := List.length_pos_iff.2 hfr
            obtain ⟨fuel, hf⟩ := ihc c1 (by omega) rest.length (emp ++ [t1.first]) { t1 with first := g, more := rest }
              hc1 hinv rfl
            exact ⟨fuel + 1, by rw [hun, if_neg (by simpa using he), hm]; exact hf⟩
      · exact ⟨1, by rw [hun, if_pos he]; simp⟩

/-- No group behind the first is empty. -/
def Full (t : Ti) : Prop := ∀ g ∈ t.more, g.elems ≠ []

theorem push_full {g g' : Group} {p : Nat} {ep : Epoch} (h : g.push p ep = some g') : g'.elems ≠ [] := by
  unfold Group.push at h
  split at h
  · exact absurd h (by simp)
  · split at h <;> · rw [← Option.some.inj h]; simp

theorem onLast_full {p : Nat} {ep : Epoch} (g : Group) (l : List Group) {g' : Group} {l' : List Group}
    (h : onLast (fun g => g.push p ep) g l = some (g', l')) (hl : ∀ k ∈ l.dropLast, k.elems ≠ []) :
    (∀ k ∈ l', k.elems ≠ []) ∧ (g.elems ≠ [] ∨ l = [] → g'.elems ≠ []) := by
  induction l generalizing g g' l' with
  | nil =>
    simp only [onLast, Option.map_eq_some_iff, Prod.mk.injEq] at h
    obtain ⟨x, hx, rfl, rfl⟩ := h
    exact ⟨by simp, fun _ => push_full hx⟩
  | cons a l ih =>
    simp only [onLast, Option.map_eq_some_iff, Prod.mk.injEq] at h
    obtain ⟨⟨x, y⟩, hx, rfl, rfl⟩ := h
    have hi := ih a hx (fun k hk => hl k (by
      cases l with
      | nil => simp at hk
      | cons b l => simp only [List.dropLast_cons₂]; exact List.mem_cons_of_mem _ hk))
    refine ⟨?_, fun h => ?_⟩
    · intro k hk
      rcases List.mem_cons.1 hk with rfl | hk
      · apply hi.2
        cases l with
        | nil => exact .inr rfl
        | cons b l => exact .inl (hl a (by simp))
      · exact hi.1 k hk
    · rcases h with h | h
      · exact h
      · simp at h

theorem record_full {t t' : Ti} {p : Nat} {ep : Epoch} (h : t.record p ep = some t') (hf : Full t) :
    Full t' ∧ (t.first.elems ≠ [] ∨ Rested t.first ∧ t.more = [] → t'.first.elems ≠ []) := by
  unfold Ti.record at h
  have key : ∀ u : Ti, (onLast (fun g => g.push p ep) u.first u.more).map
      (fun r => { u with first := r.1, more := r.2 }) = some t' → (∀ k ∈ u.more.dropLast, k.elems ≠ []) →
      Full t' ∧ (u.first.elems ≠ [] ∨ u.more = [] → t'.first.elems ≠ []) := by
    intro u hu hd
    simp only [Option.map_eq_some_iff] at hu
    obtain ⟨⟨g', l'⟩, h1, rfl⟩ := hu
    exact onLast_full u.first u.more h1 hd
  by_cases hc : capacity < (lastGroup t.first t.more).tail + 2
  · rw [if_pos hc] at h
    have hnot : ¬(t.first.elems = [] ∧ Rested t.first ∧ t.more = []) := by
      rintro ⟨h1, h2, h3⟩
      rw [h3] at hc
      simp only [lastGroup, Group.tail, h1, h2 h1] at hc
      exact absurd hc (by decide)
    cases hr : t.refill with
    | none => rw [hr] at h; simp at h
    | some u =>
      rw [hr, Option.bind_some] at h
      have hu : u.first = t.first ∧ u.more.dropLast = t.more := by
        unfold Ti.refill at hr
        split at hr
        · rw [← Option.some.inj hr]; simp
        · split at hr
          · rw [← Option.some.inj hr]; simp
          · simp at hr
      have hk := key u h (by rw [hu.2]; exact hf)
      refine ⟨hk.1, fun hh => hk.2 (.inl ?_)⟩
      rw [hu.1]
      rcases hh with hh | hh
      · exact hh
      · exact fun h0 => hnot ⟨h0, hh.1, hh.2⟩
  · rw [if_neg hc, Option.bind_some] at h
    have hk := key t h (fun k hk => hf k (List.dropLast_subset _ hk))
    exact ⟨hk.1, fun hh => hk.2 (hh.imp id fun x => x.2)⟩

theorem recordAll_full (l : List (Nat × Epoch)) {t t' : Ti} (h : t.recordAll l = some t') (hf : Full t) : Full t' := by
  induction l generalizing t with
  | nil => simp only [Ti.recordAll, Option.some.injEq] at h; rw [← h]; exact hf
  | cons a l ih =>
    simp only [Ti.recordAll, Option.bind_eq_some_iff] at h
    obtain ⟨u, hu, h⟩ := h
    exact ih h (record_full hu hf).1

theorem clean_full (cb : Nat → List (Nat × Epoch)) (bound : Epoch) (c : Nat) (e : Epoch) {t t' : Ti} {c' : Nat}
    (h : t.clean cb bound c e = some (t', c')) (hf : Full t) : Full t' := by
  induction c generalizing e t with
  | zero => simp only [Ti.clean, Option.some.injEq, Prod.mk.injEq] at h; rw [← h.1]; exact hf
  | succ c ih =>
    rw [Ti.clean] at h
    split at h
    · simp only [Option.some.injEq, Prod.mk.injEq] at h; rw [← h.1]; exact hf
    · simp only [Option.some.injEq, Prod.mk.injEq] at h; rw [← h.1]; exact hf
    · simp only [Option.bind_eq_some_iff] at h
      obtain ⟨u, hu, h⟩ := h
      have hfu : Full u := recordAll_full _ hu hf
      split at h
      · simp only [Option.some.injEq, Prod.mk.injEq] at h; rw [← h.1]; exact hfu
      · exact ih _ h hfu

theorem cleanLoop_full (cb : Nat → List (Nat × Epoch)) (bound : Epoch) (fuel count : Nat) (emp : List Group)
    {t t' : Ti} {c' : Nat} (h : t.cleanLoop cb bound fuel count emp = some (t', c')) (hf : Full t) (hc : 0 < count)
    {last : Option Epoch} (ht : t.Inv last) :
    Full t' ∧ (t'.first.elems = [] → t'.more = []) := by
  induction fuel generalizing count emp t last with
  | zero => simp [Ti.cleanLoop] at h
  | succ fuel ih =>
    obtain ⟨t1, c1, fr, h1, h2, h3, h4, h5, h6, h7, h8, h9, h10, h11, h12⟩ := clean_spec cb bound count 0 t hc ht.first
      ht.rest ht.spare (fun p l h => absurd h (ht.marked p l)) ht.lead
    rw [Ti.cleanLoop, if_neg (by omega), h1, Option.bind_some] at h
    have hf1 := clean_full cb bound count 0 h1 hf
    dsimp only at h
    split at h
    · rename_i hne
      simp only [Option.some.injEq, Prod.mk.injEq] at h; rw [← h.1]
      exact ⟨hf1, fun h => absurd h hne⟩
    · rename_i hne
      simp only [ne_eq, Decidable.not_not] at hne
      split at h
      · split at h
        · simp at h
        · simp only [Option.some.injEq, Prod.mk.injEq] at h; rw [← h.1]
          exact ⟨fun k hk => by simp at hk, fun _ => rfl⟩
      · rename_i g rest hm
        have hg := h7 g (by simp [hm])
        have hc1 : 0 < c1 := by
          rcases Nat.eq_zero_or_pos c1 with h | h
          · exact absurd hne (h9 h)
          · exact h
        exact ih c1 _ h (fun k hk => hf1 k (by rw [hm]; simp at hk; simp [hk])) hc1 (last := lastOf last fr)
          ⟨hg.1, hg.2.1, hg.2.2.1, fun k hk => h7 k (by simp [hm, hk]), h8, .inl hg.2.2.2⟩

/-- An empty first group is the only one. -/
def Front (t : Ti) : Prop := Full t ∧ (t.first.elems = [] → t.more = [])

theorem record_front {t t' : Ti} {p : Nat} {ep : Epoch} (h : t.record p ep = some t') (hr : Rested t.first)
    (hf : Front t) : Front t' := by
  have := record_full h hf.1
  refine ⟨this.1, fun h0 => absurd h0 (this.2 ?_)⟩
  by_cases he : t.first.elems = []
  · exact .inr ⟨hr, hf.2 he⟩
  · exact .inl he

theorem quiesce_front (cb : Nat → List (Nat × Epoch)) {fuel : Nat} {active : Epoch} {t t' : Ti} {last : Option Epoch}
    (ht : t.Inv last) (hf : Front t) (h : t.quiesce cb fuel active = some t') : Front t' := by
  unfold Ti.quiesce at h
  simp only [Option.map_eq_some_iff] at h
  obtain ⟨⟨u, c⟩, h1, rfl⟩ := h
  have hu : Front u := by
    generalize t.ready (active - 1) = go at h1
    cases go with
    | true => exact cleanLoop_full cb _ fuel 128 [] h1 hf.1 (by omega) ht
    | false =>
      simp only [Bool.false_eq_true, if_false, Option.some.injEq, Prod.mk.injEq] at h1
      rw [← h1.1]; exact hf
  exact hu

/-- What `hard_rcu_quiesce` establishes. -/
structure Quiesced (cb : Nat → List (Nat × Epoch)) (active : Epoch) (last : Option Epoch) (t t' : Ti)
    (fr : List (Nat × Epoch)) : Prop where
  freed : t'.freed = t.freed ++ fr.map fun x => (x.1, active - 1)
  pend : fr ++ pendFrom 0 t' = pendFrom 0 t ++ called cb t.freed.length fr.length
  safe : ∀ x ∈ fr, Rcu.safe (active - 1) x.2 = true
  inv : t'.Inv (lastOf last fr)
  most : fr.length ≤ 128
  perform : t'.perform = if fr.length = 128 then active - 1 else active
  stop : fr.length < 128 → ∀ x l, pendFrom 0 t' = x :: l → Rcu.safe (active - 1) x.2 = false ∨
    ∃ m, lastOf last fr = some m ∧ Rcu.safe (active - 1) m = false

theorem quiesce_spec (cb : Nat → List (Nat × Epoch)) (fuel : Nat) (active : Epoch) (t : Ti) {last : Option Epoch}
    (ht : t.Inv last) (hf : Front t) :
    t.quiesce cb fuel active = none ∨ ∃ t' fr, t.quiesce cb fuel active = some t' ∧ Quiesced cb active last t t' fr := by
  have hsub : active - 1 + 1 = active := by bv_omega
  have hone : ∀ u : Ti, ({ u with perform := active } : Ti) = { u with perform := active - 1 + 1 } := fun u => by rw [hsub]
  -- nothing to do
  have key : (∀ x l, pendFrom 0 t = x :: l → Rcu.safe (active - 1) x.2 = false ∨
      ∃ m, last = some m ∧ Rcu.safe (active - 1) m = false) →
      Quiesced cb active last t { t with perform := active } [] := fun h =>
    ⟨by simp, by simp [called, pendFrom], by simp, ⟨ht.first, ht.marked, ht.rested, ht.rest, ht.spare, ht.lead⟩, by simp,
      by simp, fun _ x l hp => h x l hp⟩
  unfold Ti.quiesce Ti.ready
  cases hel : t.first.elems with
  | nil =>
    right
    refine ⟨_, [], rfl, ?_⟩
    have := key (by
      intro x l hp
      simp [pendFrom, hel, hf.2 hel, decode] at hp)
    rw [hone] at this; exact this
  | cons a r =>
    cases a with
    | item p => exact absurd hel (ht.marked p r)
    | mark m =>
      dsimp only
      by_cases hs : Rcu.safe (active - 1) m = true
      · simp only [hs, if_true]
        rcases cleanLoop_spec cb (active - 1) fuel 128 [] t (by omega) ht (fun g h => by simp at h) with h | ⟨t', c', fr, h, hcl⟩
        · left; rw [h]; rfl
        · right
          have := hcl.count
          refine ⟨{ t' with perform := if c' = 0 then active - 1 else active - 1 + 1 }, fr, by rw [h]; rfl, hcl.freed.freed, hcl.freed.pend, hcl.freed.safe, ?_, by omega, ?_, fun h => ?_⟩
          · exact ⟨hcl.inv.first, hcl.inv.marked, hcl.inv.rested, hcl.inv.rest, hcl.inv.spare, hcl.inv.lead⟩
          · dsimp only
            by_cases hc : c' = 0
            · rw [if_pos hc, if_pos (by omega)]
            · rw [if_neg hc, if_neg (by omega), hsub]
          · exact hcl.stop (by omega)
      · rw [if_neg hs]
        right
        refine ⟨_, [], rfl, ?_⟩
        have := key (by
          intro x l hp
          rcases ht.lead with h12 | ⟨m', r', hm', _, hl'⟩
          · rw [hel] at h12
            match r, h12 with
            | .item p :: r', _ =>
              left
              have hp' : pendFrom 0 t = (p, m) :: (decode m r' ++ t.more.flatMap fun g => decode 0 g.elems) := by
                simp [pendFrom, hel, decode]
              rw [hp', List.cons.injEq] at hp
              rw [← hp.1]; simpa using hs
          · rw [hel, List.cons.injEq, Elem.mark.injEq] at hm'
            right
            exact ⟨m, by rw [hl', hm'.1], by simpa using hs⟩)
        rw [hone] at this; exact this

end Verif.Rcu
