import Verif.Range.Keys

/-!
# What scans of a tree visit
-/
namespace Verif.Range

open Verif.Key (Bytes LexLt slice)

variable {W : Type} {R : Nat → Hist (Ent W)} {fwd : Bool}

/-- Where the scan of the layer at position `p` starts. -/
def Start.at (p : Nat) : Start → Start
  | .all => .all
  | .key k e => if p = Range.pos k then .key (k.drop 8) e else .all

/-- The keys to be visited that are in the layer from `a` to `t` have been visited. -/
def Covers (R : Nat → Hist (Ent W)) (fwd : Bool) (l : Nat) (st : Start) (pre : Bytes) (a t : Nat) (out : List (Bytes × W)) : Prop :=
  ∀ κ, st.Wants fwd κ → (∀ u, a ≤ u → u ≤ t → find R u l κ ≠ none) → ∃ w, (pre ++ κ, w) ∈ out

/-- The layer was linked at position `p` at some time from `a` to `b`. -/
def Linked (R : Nat → Hist (Ent W)) (l a p l' b : Nat) : Prop :=
  ∃ u, a ≤ u ∧ u ≤ b ∧ entry ((R l).m u) p = some (.link l')

def Runs (R : Nat → Hist (Ent W)) (fwd : Bool) (t : Nat) (f : Frame W) : Prop :=
  Scan (R f.l) fwd (f.st.pos fwd) (f.st.want fwd) f.a t f.s

/-- What is to be done for an entry has been done. -/
def Paid (R : Nat → Hist (Ent W)) (fwd : Bool) (t : Nat) (out : List (Bytes × W)) (f : Frame W) (x : Nat × Ent W) : Prop :=
  match x.2 with
  | .val w => (f.pre ++ keyAt x.1, w) ∈ out
  | .suf ρ w => (f.pre ++ keyAt x.1 ++ ρ, w) ∈ out
  | .link l => ∃ a' t', t' ≤ t ∧ Linked R f.l f.a x.1 l a' ∧ Covers R fwd l (f.st.at x.1) (f.pre ++ keyAt x.1) a' t' out

/-- The keys that may follow in the layer. -/
def Next (fwd : Bool) (f : Frame W) (κ : Bytes) : Prop :=
  (f.st = .all ∨ f.pre ≠ [] → κ ≠ []) ∧ match f.s.out with
  | [] => f.st.Wants fwd κ
  | x :: _ => Before fwd x.1 (pos κ)

def Ahead (fwd : Bool) (out : List (Bytes × W)) (f : Frame W) : Prop :=
  ∀ k w κ, (k, w) ∈ out → Next fwd f κ → KBefore fwd k (f.pre ++ κ)

/-- The layers above that of a frame. -/
def Under (R : Nat → Hist (Ent W)) (fwd : Bool) (k : Bytes) (e : Bool) (a t : Nat) (out : List (Bytes × W)) :
    Frame W → List (Frame W) → Prop
  | f, [] => f.l = 0 ∧ f.st = .key k e ∧ f.pre = [] ∧ f.a = a
  | f, g :: gs => Runs R fwd t g ∧ Ahead fwd out g ∧
      (∃ p o, g.s.out = (p, .link f.l) :: o ∧ (∀ x ∈ o, Paid R fwd t out g x) ∧ f.pre = g.pre ++ keyAt p ∧
        f.st = g.st.at p ∧ Linked R g.l g.a p f.l f.a) ∧ Under R fwd k e a t out g gs

/-- What holds during a scan. -/
structure WInv (R : Nat → Hist (Ent W)) (fwd : Bool) (k : Bytes) (e : Bool) (a t : Nat) (c : Conf W) (f : Frame W)
    (fs : List (Frame W)) : Prop where
  frames : c.frames = f :: fs
  runs : Runs R fwd t f
  ahead : Ahead fwd c.out f
  paid : ∀ x ∈ f.s.out, Paid R fwd t c.out f x
  under : Under R fwd k e a t c.out f fs
  ord : c.out.Pairwise fun x y => KBefore fwd y.1 x.1
  val : ∀ κ w, (κ, w) ∈ c.out → (Start.key k e).Wants fwd κ ∧ ∃ u, a ≤ u ∧ u ≤ t ∧ find R u 0 κ = some w

/-! ### Lookups -/

theorem find_entry {u l : Nat} {κ : Bytes} (h : find R u l κ ≠ none) : ∃ v, entry ((R l).m u) (pos κ) = some v := by
  rw [find] at h
  cases he : entry ((R l).m u) (pos κ) with
  | none => rw [he] at h; exact absurd rfl h
  | some v => exact ⟨v, rfl⟩

theorem find_val {u l : Nat} {κ : Bytes} {w : W} (he : entry ((R l).m u) (pos κ) = some (.val w)) :
    find R u l κ = some w := by rw [find, he]

theorem find_suf {u l : Nat} {κ ρ : Bytes} {w : W} (he : entry ((R l).m u) (pos κ) = some (.suf ρ w)) :
    find R u l κ = if ρ = κ.drop 8 then some w else none := by rw [find, he]

theorem find_link {u l l' : Nat} {κ : Bytes} (he : entry ((R l).m u) (pos κ) = some (.link l')) (hl : 8 < κ.length) :
    find R u l κ = find R u l' (κ.drop 8) := by rw [find, he]; simp [hl]

/-- A layer that is not empty is still where it was. -/
theorem Tree.still (hT : Tree R) {l p l' u u' : Nat} (he : entry ((R l).m u) p = some (.link l')) (hu : u ≤ u')
    (hn : ∃ q, entry ((R l').m u') q ≠ none) : entry ((R l).m u') p = some (.link l') := by
  have key : ∀ d, u + d ≤ u' → entry ((R l).m (u + d)) p = some (.link l') := by
    intro d
    induction d with
    | zero => intro _; exact he
    | succ d ih =>
      intro hd
      rcases hT.held _ _ _ _ (ih (by omega)) with h1 | h1
      · exact h1
      · obtain ⟨q, hq⟩ := hn
        exact absurd (h1 u' (by omega) q) hq
  have := key (u' - u) (by omega)
  rwa [show u + (u' - u) = u' by omega] at this

/-- A layer in which a key is all the time stays where it is. -/
theorem Tree.stays (hT : Tree R) {l l' u t : Nat} {κ : Bytes} (he : entry ((R l).m u) (pos κ) = some (.link l'))
    (hp : ∀ x, u ≤ x → x ≤ t → find R x l κ ≠ none) {u' : Nat} (h1 : u ≤ u') (h2 : u' ≤ t) :
    entry ((R l).m u') (pos κ) = some (.link l') ∧ find R u' l' (κ.drop 8) ≠ none := by
  have hl : 8 < κ.length := (hT.link _ _ _ _ he).1.long
  have key : ∀ d, u + d ≤ t → entry ((R l).m (u + d)) (pos κ) = some (.link l') := by
    intro d
    induction d with
    | zero => intro _; exact he
    | succ d ih =>
      intro hd
      have h3 := ih (by omega)
      rcases hT.held _ _ _ _ h3 with h4 | h4
      · exact h4
      · have h5 := hp (u + d) (by omega) (by omega)
        rw [find_link h3 hl] at h5
        obtain ⟨v, hv⟩ := find_entry h5
        rw [h4 (u + d) (Nat.le_refl _)] at hv
        cases hv
  have h3 := key (u' - u) (by omega)
  rw [show u + (u' - u) = u' by omega] at h3
  refine ⟨h3, ?_⟩
  rw [← find_link h3 hl]
  exact hp u' h1 h2

/-! ### Starts -/

theorem want_suf (k ρ : Bytes) (e : Bool) (w : W) :
    (Start.key k e).want fwd (.suf ρ w) = true ↔ KBefore fwd (k.drop 8) ρ ∨ ρ = k.drop 8 ∧ e = true := by
  obtain ⟨h1, h2, h3⟩ := Scan.cmpBytes_spec ρ (k.drop 8)
  cases fwd
  · simp [Start.want, KBefore, h1, h2]
  · simp [Start.want, KBefore, h3, h2]

/-- A key to be visited is at a position to be visited. -/
theorem wants_pos (hT : Tree R) {st : Start} {κ : Bytes} (hw : st.Wants fwd κ) {u l : Nat} (hf : find R u l κ ≠ none) :
    ∃ v, entry ((R l).m u) (pos κ) = some v ∧
      (Before fwd (st.pos fwd) (pos κ) ∨ pos κ = st.pos fwd ∧ st.want fwd v = true) := by
  obtain ⟨v, hv⟩ := find_entry hf
  refine ⟨v, hv, ?_⟩
  cases st with
  | all =>
    left
    have h1 : 0 < κ.length := List.length_pos_iff.2 hw
    have h2 := Key.slice_lt κ
    unfold Start.pos Before pos
    cases fwd <;> simp <;> omega
  | key k e =>
    rcases Before.tri fwd (pos k) (pos κ) with h1 | h1 | h1
    · exact Or.inl h1
    · refine Or.inr ⟨h1.symm, ?_⟩
      cases v with
      | val w =>
        obtain ⟨k', h2, h3⟩ := hT.val _ _ _ _ hv
        have h4 : k = κ := by
          have h5 := eq_of_pos h3.symm h2
          have h6 := eq_of_pos (h3.symm.trans h1.symm) h2
          rw [← h5, h6]
        rcases hw with h5 | h5
        · rw [h4] at h5; exact absurd h5 (KBefore.irrefl _ _)
        · exact h5.2
      | suf ρ w =>
        rw [find_suf hv] at hf
        by_cases hρ : ρ = κ.drop 8
        · rw [want_suf]
          rcases hw with h5 | h5
          · left; rw [hρ]; exact (kbefore_drop h1).1 h5
          · right; rw [hρ, h5.1]; exact ⟨rfl, h5.2⟩
        · rw [if_neg hρ] at hf; exact absurd rfl hf
      | link l' => rfl
    · have h2 := kbefore_of_pos h1
      rcases hw with h5 | h5
      · exact absurd (h2.trans h5) (KBefore.irrefl _ _)
      · rw [h5.1] at h2; exact absurd h2 (KBefore.irrefl _ _)

/-- A key to be visited is one in the layer below. -/
theorem wants_below {st : Start} {κ : Bytes} (hw : st.Wants fwd κ) (hl : 8 < κ.length) :
    (st.at (pos κ)).Wants fwd (κ.drop 8) := by
  have hne : κ.drop 8 ≠ [] := by
    intro h
    have := congrArg List.length h
    simp at this
    omega
  cases st with
  | all => exact hne
  | key k e =>
    show Start.Wants fwd (if pos κ = pos k then .key (k.drop 8) e else .all) _
    by_cases h1 : pos κ = pos k
    · rw [if_pos h1]
      rcases hw with h2 | h2
      · exact Or.inl ((kbefore_drop h1.symm).1 h2)
      · exact Or.inr ⟨by rw [h2.1], h2.2⟩
    · rw [if_neg h1]; exact hne

/-- And conversely. -/
theorem wants_above {st : Start} {κ : Bytes} {p : Nat} (hp : Slot p) (hκ : κ ≠ []) (hw : (st.at p).Wants fwd κ)
    (hb : Before fwd (st.pos fwd) p ∨ p = st.pos fwd) : st.Wants fwd (keyAt p ++ κ) := by
  obtain ⟨h1, h2⟩ := hp.pos hκ
  cases st with
  | all => exact List.append_ne_nil_of_right_ne_nil _ hκ
  | key k e =>
    have hd : (keyAt p ++ κ).drop 8 = κ := List.drop_left' h2
    change Start.Wants fwd (if p = pos k then .key (k.drop 8) e else .all) _ at hw
    by_cases h3 : p = pos k
    · rw [if_pos h3] at hw
      rcases hw with h4 | h4
      · left
        rw [kbefore_drop (by rw [h1, h3]), hd]
        exact h4
      · exact Or.inr ⟨eq_of_drop (by rw [h1, h3]) (by rw [hd, h4.1]), h4.2⟩
    · rcases hb with h4 | h4
      · exact Or.inl (kbefore_of_pos (by rw [h1]; exact h4))
      · exact absurd h4 h3

/-! ### One layer -/

theorem start_begin (st : Start) : Begin fwd (st.pos fwd) (st.want (W := W) fwd) (st.init fwd) := by
  cases st with
  | all =>
    cases fwd
    · exact .downReverse rfl rfl fun _ => rfl
    · exact .down rfl rfl fun _ => rfl
  | key k e => exact .first (by rw [show (Start.key k e).pos fwd = pos k from rfl, pos_div]; exact Key.slice_lt k)

/-- An entry is visited by `find_initial` if it is at the start. -/
theorem first_iff (hs : ∀ l, (R l).Sound) {t : Nat} {f : Frame W} {s : St (Ent W)} {p : Nat} {v : Ent W} (hf : Runs R fwd t f)
    (hst : Step (R f.l) fwd (f.st.want fwd) t f.s s) (ho : s.out = (p, v) :: f.s.out) (hp : Slot p) :
    f.st.below f.s.pc.first = f.st.at p := by
  obtain ⟨l, st, pre, a, s0⟩ := f
  unfold Runs at hf
  dsimp only at hf hst ho ⊢
  cases st with
  | all => rfl
  | key k e =>
    have hne : ∀ o : List (Nat × Ent W), o ≠ (p, v) :: o := fun o h => by
      have := congrArg List.length h
      simp at this
    have hvis := ((hs l).visits (.step hf hst)).val p v (by rw [ho]; exact List.mem_cons_self ..)
    have hmod := hp.mod
    have h1 : s0.pc.first = true ↔ p = pos k := by
      cases hst with
      | @emitFirst ka ub out n vi vs u w K v' hok hk hu hv hw =>
        obtain ⟨h2, rfl⟩ := Prod.mk.inj (List.cons.inj ho).1
        subst h2
        have hka : ka = pos k := by
          cases fwd
          · exact (Rev.scan (hs l) hf).2.2.2.2.1
          · exact (Fwd.scan (hs l) hf).2.2.2.1
        exact ⟨fun _ => hka, fun _ => rfl⟩
      | @emit ka ub out n vi vs u w p' K ki v' hok hk hd hu hv =>
        obtain ⟨h2, rfl⟩ := Prod.mk.inj (List.cons.inj ho).1
        subst h2
        refine ⟨fun h => (by cases h), fun h => ?_⟩
        exfalso
        cases fwd
        · obtain ⟨_, h2, _, h3, _⟩ := Rev.scan (hs l) hf
          dsimp only [Start.pos] at h2 h3
          cases ub with
          | true => have := (h3 rfl).2.1; omega
          | false => simp [dup] at hd; omega
        · have h2 := (Fwd.scan (hs l) hf).2.2.1
          dsimp only [Start.pos] at h2
          simp [dup] at hd
          omega
      | _ => exact absurd ho (hne _)
    unfold Start.below Start.at
    dsimp only
    by_cases h2 : p = pos k
    · rw [if_pos h2, if_pos (h1.2 h2)]
    · rw [if_neg h2, if_neg fun h => h2 (h1.1 h)]

/-- An entry visited for a key that is there all the time gives the key. -/
theorem paid_visit (hs : ∀ l, (R l).Sound) (hT : Tree R) {t : Nat} {out : List (Bytes × W)} {f : Frame W} (hf : Runs R fwd t f)
    {κ : Bytes} (hw : f.st.Wants fwd κ) (hp : ∀ u, f.a ≤ u → u ≤ t → find R u f.l κ ≠ none) {v : Ent W}
    (hv : (pos κ, v) ∈ f.s.out) (hpaid : Paid R fwd t out f (pos κ, v)) : ∃ w, (f.pre ++ κ, w) ∈ out := by
  obtain ⟨u, h1, h2, h3⟩ := (hs f.l).genuine hf hv
  have hfu := hp u h1 h2
  cases v with
  | val w =>
    obtain ⟨k', h4, h5⟩ := hT.val _ _ _ _ h3
    have h6 : κ.length ≤ 8 := by rw [← eq_of_pos h5.symm h4]; exact h4
    refine ⟨w, ?_⟩
    have : (f.pre ++ keyAt (pos κ), w) ∈ out := hpaid
    rwa [keyAt_pos, List.take_of_length_le h6] at this
  | suf ρ w =>
    rw [find_suf h3] at hfu
    by_cases hρ : ρ = κ.drop 8
    · refine ⟨w, ?_⟩
      have : (f.pre ++ keyAt (pos κ) ++ ρ, w) ∈ out := hpaid
      rwa [keyAt_pos, hρ, List.append_assoc, List.take_append_drop] at this
    · rw [if_neg hρ] at hfu; exact absurd rfl hfu
  | link l' =>
    obtain ⟨a', t', h4, ⟨u0, h5, h6, h7⟩, h8⟩ := hpaid
    have hl : 8 < κ.length := (hT.link _ _ _ _ h7).1.long
    obtain ⟨w, h9⟩ := h8 (κ.drop 8) (wants_below hw hl) fun x h9 h10 =>
      (hT.stays h7 (fun y h11 h12 => hp y (by omega) h12) (by omega) (by omega)).2
    refine ⟨w, ?_⟩
    dsimp only at h9
    rwa [keyAt_pos, List.append_assoc, List.take_append_drop] at h9

/-- The scan of a layer that has ended has covered it. -/
theorem covers (hs : ∀ l, (R l).Sound) (hT : Tree R) {t : Nat} {out : List (Bytes × W)} {f : Frame W} (hf : Runs R fwd t f)
    (hfin : f.s.pc = .fin) (hpaid : ∀ x ∈ f.s.out, Paid R fwd t out f x) : Covers R fwd f.l f.st f.pre f.a t out := by
  intro κ hw hp
  obtain ⟨v, hv⟩ := (hs f.l).complete hf hfin (pos_lt κ) fun u h1 h2 => wants_pos hT hw (hp u h1 h2)
  exact paid_visit hs hT hf hw hp hv (hpaid _ hv)

/-! ### Changes -/

theorem Covers.mono {l : Nat} {st : Start} {pre : Bytes} {a t : Nat} {out out' : List (Bytes × W)}
    (h : Covers R fwd l st pre a t out) (hs : ∀ x ∈ out, x ∈ out') : Covers R fwd l st pre a t out' := fun κ h1 h2 => by
  obtain ⟨w, h3⟩ := h κ h1 h2
  exact ⟨w, hs _ h3⟩

theorem Paid.mono {t t' : Nat} {out out' : List (Bytes × W)} {f : Frame W} {x : Nat × Ent W} (h : Paid R fwd t out f x)
    (ht : t ≤ t') (hs : ∀ x ∈ out, x ∈ out') : Paid R fwd t' out' f x := by
  obtain ⟨p, v⟩ := x
  cases v with
  | val w => exact hs _ h
  | suf ρ w => exact hs _ h
  | link l =>
    obtain ⟨a1, t1, h1, h2, h3⟩ := h
    exact ⟨a1, t1, by omega, h2, h3.mono hs⟩

theorem Under.frame {k : Bytes} {e : Bool} {a t : Nat} {out : List (Bytes × W)} {f : Frame W} {fs : List (Frame W)}
    (h : Under R fwd k e a t out f fs) (s : St (Ent W)) : Under R fwd k e a t out { f with s := s } fs := by
  cases fs <;> exact h

theorem Under.wait {k : Bytes} {e : Bool} {a t : Nat} {out : List (Bytes × W)} {f : Frame W} {fs : List (Frame W)}
    (h : Under R fwd k e a t out f fs) : Under R fwd k e a (t + 1) out f fs := by
  induction fs generalizing f with
  | nil => exact h
  | cons g gs ih =>
    obtain ⟨h1, h2, ⟨p, o, h3, h4, h5⟩, h6⟩ := h
    exact ⟨.wait h1, h2, ⟨p, o, h3, fun x hx => (h4 x hx).mono (Nat.le_succ t) fun _ h => h, h5⟩, ih h6⟩

/-- A key of a layer is one of the tree. -/
theorem Under.find (hT : Tree R) {k : Bytes} {e : Bool} {a t : Nat} {out : List (Bytes × W)}
    {f : Frame W} {fs : List (Frame W)} (h : Under R fwd k e a t out f fs) {u : Nat} (hu : f.a ≤ u) {κ : Bytes} {w : W}
    (hf : find R u f.l κ = some w) : a ≤ u ∧ find R u 0 (f.pre ++ κ) = some w := by
  induction fs generalizing f κ with
  | nil =>
    obtain ⟨h1, h2, h3, h4⟩ := h
    rw [h3, ← h1, ← h4]
    exact ⟨hu, hf⟩
  | cons g gs ih =>
    obtain ⟨h1, h2, ⟨p, o, h3, h4, h5, h6, ⟨u0, h7, h8, h9⟩⟩, h10⟩ := h
    obtain ⟨v, hv⟩ := find_entry (κ := κ) (l := f.l) (u := u) (by rw [hf]; simp)
    obtain ⟨hsl, hz⟩ := hT.link _ _ _ _ h9
    have hκ : κ ≠ [] := by
      rintro rfl
      have : pos [] = 0 := by decide
      rw [this, hz] at hv
      cases hv
    obtain ⟨hp, hl⟩ := hsl.pos hκ
    have hlink := hT.still h9 (by omega : u0 ≤ u) ⟨_, by rw [hv]; simp⟩
    have := ih h10 (by omega) (κ := keyAt p ++ κ) (by
      rw [find_link (l' := f.l) (by rw [hp]; exact hlink) (by
        have := List.length_pos_iff.2 hκ
        rw [List.length_append]; omega), List.drop_left' hl]
      exact hf)
    rw [h5, List.append_assoc]
    exact this

/-- A key to be visited in a layer is one to be visited. -/
theorem Under.wants (hs : ∀ l, (R l).Sound) (hT : Tree R) {k : Bytes} {e : Bool} {a t : Nat} {out : List (Bytes × W)}
    {f : Frame W} {fs : List (Frame W)} (h : Under R fwd k e a t out f fs) {κ : Bytes} (hκ : κ ≠ [] ∨ fs = [])
    (hw : f.st.Wants fwd κ) : (Start.key k e).Wants fwd (f.pre ++ κ) := by
  induction fs generalizing f κ with
  | nil =>
    obtain ⟨h1, h2, h3, h4⟩ := h
    rw [h3, ← h2]
    exact hw
  | cons g gs ih =>
    obtain ⟨h1, h2, ⟨p, o, h3, h4, h5, h6, ⟨u0, h7, h8, h9⟩⟩, h10⟩ := h
    have hκ : κ ≠ [] := hκ.resolve_right (by simp)
    obtain ⟨hsl, hz⟩ := hT.link _ _ _ _ h9
    rw [h5, List.append_assoc]
    refine ih h10 (Or.inl (List.append_ne_nil_of_right_ne_nil _ hκ)) (wants_above hsl hκ (by rw [← h6]; exact hw) ?_)
    exact ((hs g.l).from_start h1 (by rw [h3]; exact List.mem_cons_self ..)).imp id And.left

/-- A key is visited. -/
theorem Under.emit (hT : Tree R) {k : Bytes} {e : Bool} {a t : Nat} {out : List (Bytes × W)}
    {f : Frame W} {fs : List (Frame W)} (h : Under R fwd k e a t out f fs) {κ : Bytes} (hκ : κ ≠ [] ∨ fs = []) (w : W) :
    Under R fwd k e a t ((f.pre ++ κ, w) :: out) f fs := by
  have key : ∀ (K : Bytes) (fs : List (Frame W)) (f : Frame W) (κ : Bytes), Under R fwd k e a t out f fs → (κ ≠ [] ∨ fs = []) → f.pre ++ κ = K →
      Under R fwd k e a t ((K, w) :: out) f fs := by
    intro K fs
    induction fs with
    | nil => exact fun f κ h _ _ => h
    | cons g gs ih =>
      intro f κ h hκ hK
      have hκ : κ ≠ [] := hκ.resolve_right (by simp)
      obtain ⟨h1, h2, ⟨p, o, h3, h4, h5, h6, h7⟩, h8⟩ := h
      obtain ⟨u0, _, _, h9⟩ := id h7
      obtain ⟨hsl, hz⟩ := hT.link _ _ _ _ h9
      obtain ⟨hp, hl⟩ := hsl.pos hκ
      rw [h5, List.append_assoc] at hK
      refine ⟨h1, ?_, ⟨p, o, h3, fun x hx => (h4 x hx).mono (Nat.le_refl t) fun _ h => List.mem_cons_of_mem _ h, h5, h6, h7⟩,
        ih g (keyAt p ++ κ) h8 (Or.inl (List.append_ne_nil_of_right_ne_nil _ hκ)) hK⟩
      intro k' w' κ' hk' hn
      rcases List.mem_cons.1 hk' with h10 | h10
      · cases h10
        rw [← hK, kbefore_append]
        unfold Next at hn
        rw [h3] at hn
        exact kbefore_of_pos (by rw [hp]; exact hn.2)
      · exact h2 k' w' κ' h10 hn
  exact key _ fs f κ h hκ rfl

/-! ### Steps -/

variable {k : Bytes} {e : Bool} {a t : Nat}

theorem WInv.begin : WInv R fwd k e a a ⟨[⟨0, .key k e, [], a, (Start.key k e).init fwd⟩], []⟩
    ⟨0, .key k e, [], a, (Start.key k e).init fwd⟩ [] where
  frames := rfl
  runs := .begin (start_begin _)
  ahead := by intro k w κ h; cases h
  paid := by intro x h; cases h
  under := ⟨rfl, rfl, rfl, rfl⟩
  ord := List.Pairwise.nil
  val := by intro κ w h; cases h

theorem WInv.wait {c : Conf W} {f : Frame W} {fs : List (Frame W)} (h : WInv R fwd k e a t c f fs) :
    WInv R fwd k e a (t + 1) c f fs where
  frames := h.frames
  runs := .wait h.runs
  ahead := h.ahead
  paid x hx := (h.paid x hx).mono (Nat.le_succ t) fun _ h => h
  under := h.under.wait
  ord := h.ord
  val κ w hκ := by
    obtain ⟨h1, u, h2, h3, h4⟩ := h.val κ w hκ
    exact ⟨h1, u, h2, by omega, h4⟩

/-- What follows from a visit of an entry in the current layer. -/
theorem visit (hs : ∀ l, (R l).Sound) {f : Frame W} {s : St (Ent W)} {p : Nat} {v : Ent W} (hf : Runs R fwd t f)
    (hst : Step (R f.l) fwd (f.st.want fwd) t f.s s) (ho : s.out = (p, v) :: f.s.out) :
    Runs R fwd t { f with s := s } ∧ (∃ u, f.a ≤ u ∧ u ≤ t ∧ entry ((R f.l).m u) p = some v) ∧
    (Before fwd (f.st.pos fwd) p ∨ p = f.st.pos fwd ∧ f.st.want fwd v = true) ∧
    ∀ x ∈ f.s.out, Before fwd x.1 p := by
  have hr : Runs R fwd t { f with s := s } := .step hf hst
  have hm : (p, v) ∈ s.out := by rw [ho]; exact List.mem_cons_self ..
  refine ⟨hr, (hs f.l).genuine hr hm, (hs f.l).from_start hr hm, fun x hx => ?_⟩
  have h1 := (hs f.l).ordered hr
  dsimp only at h1
  rw [ho, List.map_reverse, List.pairwise_reverse, List.map_cons, List.pairwise_cons] at h1
  exact h1.1 x.1 (List.mem_map_of_mem hx)

/-- A key at the position of the entry follows all that were visited before. -/
theorem visit_next {f : Frame W} {p : Nat} {κ : Bytes} (hκ : f.st = .all ∨ f.pre ≠ [] → κ ≠ []) (hp : pos κ = p) (hw : f.s.out = [] → f.st.Wants fwd κ)
    (hb : ∀ x ∈ f.s.out, Before fwd x.1 p) : Next fwd f κ := by
  refine ⟨hκ, ?_⟩
  cases ho : f.s.out with
  | nil => exact hw ho
  | cons x o =>
    dsimp only
    rw [hp]
    exact hb x (by rw [ho]; exact List.mem_cons_self ..)

/-- What may follow after the visit might have followed before. -/
theorem next_mono {f : Frame W} {s : St (Ent W)} {p : Nat} {v : Ent W} (ho : s.out = (p, v) :: f.s.out)
    (hb : ∀ x ∈ f.s.out, Before fwd x.1 p) (hw : Before fwd (f.st.pos fwd) p ∨ p = f.st.pos fwd) {κ : Bytes}
    (hn : Next fwd { f with s := s } κ) : Before fwd p (pos κ) ∧ Next fwd f κ := by
  have h1 : Before fwd p (pos κ) := by
    unfold Next at hn
    dsimp only at hn
    rw [ho] at hn
    exact hn.2
  refine ⟨h1, hn.1, ?_⟩
  cases ho : f.s.out with
  | nil =>
    dsimp only
    have h2 : Before fwd (f.st.pos fwd) (pos κ) := by
      rcases hw with h2 | h2
      · exact h2.trans h1
      · rw [← h2]; exact h1
    cases hst : f.st with
    | all => exact hn.1 (Or.inl hst)
    | key k e =>
      rw [hst] at h2
      exact Or.inl (kbefore_of_pos h2)
  | cons x o => exact (hb x (by rw [ho]; exact List.mem_cons_self ..)).trans h1

/-- In layers below the empty key does not occur. -/
theorem Under.ne (hT : Tree R) {out : List (Bytes × W)} {f : Frame W} {fs : List (Frame W)} (h : Under R fwd k e a t out f fs)
    {u : Nat} {κ : Bytes} (he : entry ((R f.l).m u) (pos κ) ≠ none) : κ ≠ [] ∨ fs = [] := by
  cases fs with
  | nil => exact Or.inr rfl
  | cons g gs =>
    obtain ⟨_, _, ⟨p, o, _, _, _, _, ⟨u0, _, _, h9⟩⟩, _⟩ := h
    left
    rintro rfl
    exact he (by rw [show pos [] = 0 by decide]; exact (hT.link _ _ _ _ h9).2 u)

theorem Under.all {out : List (Bytes × W)} {f : Frame W} {fs : List (Frame W)} (h : Under R fwd k e a t out f fs) {κ : Bytes}
    (hκ : κ ≠ [] ∨ fs = []) (ha : f.st = .all ∨ f.pre ≠ []) : κ ≠ [] := by
  cases fs with
  | nil =>
    obtain ⟨_, h1, h2, _⟩ := h
    rcases ha with ha | ha
    · rw [ha] at h1; cases h1
    · exact absurd h2 ha
  | cons g gs => exact hκ.resolve_right (by simp)

theorem WInv.emit (hs : ∀ l, (R l).Sound) (hT : Tree R) {f : Frame W} {fs : List (Frame W)} {out : List (Bytes × W)}
    (h : WInv R fwd k e a t ⟨f :: fs, out⟩ f fs) {s : St (Ent W)} {p : Nat} {v : Ent W} {κ : Bytes} {w : W}
    (hst : Step (R f.l) fwd (f.st.want fwd) t f.s s) (ho : s.out = (p, v) :: f.s.out) (hp : pos κ = p)
    (hwant : (κ ≠ [] ∨ fs = []) → f.st.Wants fwd κ)
    (hfind : ∀ u, entry ((R f.l).m u) p = some v → find R u f.l κ = some w)
    (hpaid : ∀ out', (f.pre ++ κ, w) ∈ out' → Paid R fwd t out' { f with s := s } (p, v)) :
    WInv R fwd k e a t ⟨{ f with s := s } :: fs, (f.pre ++ κ, w) :: out⟩ { f with s := s } fs := by
  obtain ⟨h1, ⟨u, h2, h3, h4⟩, h5, h6⟩ := visit hs h.runs hst ho
  have hκ : κ ≠ [] ∨ fs = [] := h.under.ne hT (u := u) (by rw [hp, h4]; simp)
  have hwant := hwant hκ
  have hnext : Next fwd f κ := visit_next (h.under.all hκ) hp (fun _ => hwant) h6
  refine ⟨rfl, h1, ?_, ?_, ?_, ?_, ?_⟩
  · intro k' w' κ' hk hn
    obtain ⟨h7, h8⟩ := next_mono ho h6 (h5.imp id And.left) hn
    rcases List.mem_cons.1 hk with h9 | h9
    · cases h9
      rw [kbefore_append]
      exact kbefore_of_pos (by rw [hp]; exact h7)
    · exact h.ahead k' w' κ' h9 h8
  · intro x hx
    dsimp only at hx ⊢
    rw [ho] at hx
    rcases List.mem_cons.1 hx with h7 | h7
    · rw [h7]; exact hpaid _ (List.mem_cons_self ..)
    · exact (h.paid x h7).mono (Nat.le_refl t) fun _ h => List.mem_cons_of_mem _ h
  · exact (h.under.emit hT hκ w).frame s
  · exact List.pairwise_cons.2 ⟨fun y hy => h.ahead y.1 y.2 κ hy hnext, h.ord⟩
  · intro κ' w' hk
    rcases List.mem_cons.1 hk with h7 | h7
    · cases h7
      obtain ⟨h8, h9⟩ := h.under.find hT h2 (hfind u h4)
      exact ⟨h.under.wants hs hT hκ hwant, u, h8, h3, h9⟩
    · exact h.val κ' w' h7

theorem WInv.step (hs : ∀ l, (R l).Sound) (hT : Tree R) {c c' : Conf W} {f : Frame W} {fs : List (Frame W)}
    (h : WInv R fwd k e a t c f fs) (hst : TStep R fwd t c c') : ∃ f' fs', WInv R fwd k e a t c' f' fs' := by
  cases hst with
  | run f' fs' out s hs1 ho =>
    obtain ⟨rfl, rfl⟩ := List.cons.inj h.frames
    refine ⟨{ f' with s := s }, fs', rfl, .step h.runs hs1, ?_, ?_, h.under.frame s, h.ord, h.val⟩
    · intro k' w' κ' hk hn
      refine h.ahead k' w' κ' hk ?_
      unfold Next at hn ⊢
      dsimp only at hn
      rwa [ho] at hn
    · intro x hx
      dsimp only at hx
      rw [ho] at hx
      exact h.paid x hx
  | value f' fs' out s p w hs1 ho =>
    obtain ⟨rfl, rfl⟩ := List.cons.inj h.frames
    obtain ⟨_, ⟨u, _, _, h4⟩, h5, _⟩ := visit hs h.runs hs1 ho
    obtain ⟨κ, h6, h7⟩ := hT.val _ _ _ _ h4
    have h8 : keyAt p = κ := by rw [h7, keyAt_pos, List.take_of_length_le h6]
    rw [h8]
    refine ⟨_, fs', h.emit hs hT hs1 ho h7.symm (fun hκ => ?_) (fun u hu => find_val (by rw [← h7]; exact hu)) fun out' ho' => ?_⟩
    · cases hst : f'.st with
      | all => exact h.under.all hκ (Or.inl hst)
      | key k0 e0 =>
        rw [hst] at h5
        rcases h5 with h9 | ⟨h9, h10⟩
        · exact Or.inl (kbefore_of_pos (by rw [← h7]; exact h9))
        · exact Or.inr ⟨eq_of_pos (by rw [← h7]; exact h9) h6, h10⟩
    · show (f'.pre ++ keyAt p, w) ∈ out'
      rw [h8]; exact ho'
  | suffix f' fs' out s p ρ w hs1 ho =>
    obtain ⟨rfl, rfl⟩ := List.cons.inj h.frames
    obtain ⟨_, ⟨u, _, _, h4⟩, h5, _⟩ := visit hs h.runs hs1 ho
    obtain ⟨h6, h7⟩ := hT.suf _ _ _ _ _ h4
    obtain ⟨h8, h9⟩ := h6.pos h7
    have h10 : (keyAt p ++ ρ).drop 8 = ρ := List.drop_left' h9
    rw [List.append_assoc]
    refine ⟨_, fs', h.emit hs hT hs1 ho h8 (fun hκ => ?_)
      (fun u hu => by rw [find_suf (by rw [h8]; exact hu), if_pos h10.symm]) fun out' ho' => ?_⟩
    · cases hst : f'.st with
      | all => exact h.under.all hκ (Or.inl hst)
      | key k0 e0 =>
        rw [hst] at h5
        rcases h5 with h11 | ⟨h11, h12⟩
        · exact Or.inl (kbefore_of_pos (by rw [h8]; exact h11))
        · have h13 : pos k0 = pos (keyAt p ++ ρ) := by rw [h8]; exact h11.symm
          rcases (want_suf ..).1 h12 with h14 | ⟨h14, h15⟩
          · left
            rw [kbefore_drop h13, h10]
            exact h14
          · exact Or.inr ⟨eq_of_drop h13.symm (by rw [h10, h14]), h15⟩
    · show (f'.pre ++ keyAt p ++ ρ, w) ∈ out'
      rw [List.append_assoc]; exact ho'
  | down f' fs' out s p l hs1 ho =>
    obtain ⟨rfl, rfl⟩ := List.cons.inj h.frames
    obtain ⟨h1, ⟨u, h2, h3, h4⟩, h5, h6⟩ := visit hs h.runs hs1 ho
    obtain ⟨h7, h8⟩ := hT.link _ _ _ _ h4
    rw [first_iff hs h.runs hs1 ho h7]
    have hah : ∀ κ, κ ≠ [] → (f'.st.at p).Wants fwd κ → Next fwd f' (keyAt p ++ κ) := fun κ hκ hw =>
      visit_next (fun _ => List.append_ne_nil_of_right_ne_nil _ hκ) (h7.pos hκ).1
        (fun _ => wants_above h7 hκ hw (h5.imp id And.left)) h6
    refine ⟨_, _, rfl, .begin (start_begin _), ?_, ?_, ⟨h1, ?_, ⟨p, f'.s.out, ho, h.paid, rfl, rfl, u, h2, h3, h4⟩, h.under.frame s⟩,
      h.ord, h.val⟩
    · intro k' w' κ' hk hn
      have hκ : κ' ≠ [] := hn.1 (Or.inr (List.append_ne_nil_of_right_ne_nil _ fun h9 => by
        have := (h7.pos (κ := [0]) (by simp)).2
        rw [h9] at this; cases this))
      dsimp only
      rw [List.append_assoc]
      refine h.ahead k' w' _ hk (hah κ' hκ ?_)
      have h9 := hn.2
      dsimp only at h9
      cases hst : f'.st.at p <;> (rw [hst] at h9; exact h9)
    · intro x hx
      exfalso
      cases hst : f'.st.at p <;> (dsimp only at hx; rw [hst] at hx; cases hx)
    · intro k' w' κ' hk hn
      exact h.ahead k' w' κ' hk (next_mono ho h6 (h5.imp id And.left) hn).2
  | up f' g fs' out n vi vs u K ki hf hg =>
    obtain ⟨rfl, rfl⟩ := List.cons.inj h.frames
    obtain ⟨h1, h2, ⟨p, o, h3, h4, h5, h6, h7⟩, h8⟩ := h.under
    refine ⟨{ g with s := { g.s with pc := .move n } }, fs', rfl, ?_, h2, ?_, h8.frame _, h.ord, h.val⟩
    · obtain ⟨l, st, pre, a', pc, ka, ub, go⟩ := g
      dsimp only at hg
      subst hg
      exact .step h1 (.changed ..)
    · intro x hx
      dsimp only at hx
      rw [h3] at hx
      rcases List.mem_cons.1 hx with h9 | h9
      · rw [h9]
        exact ⟨f'.a, t, Nat.le_refl t, h7, by rw [← h6, ← h5]; exact covers hs hT h.runs hf h.paid⟩
      · exact h4 x h9

theorem WInv.whole (hs : ∀ l, (R l).Sound) (hT : Tree R) {c : Conf W} (h : Whole R fwd k e a t c) :
    ∃ f fs, WInv R fwd k e a t c f fs := by
  induction h with
  | begin => exact ⟨_, _, WInv.begin⟩
  | wait h ih => obtain ⟨f, fs, h1⟩ := ih; exact ⟨f, fs, h1.wait⟩
  | step h hst ih => obtain ⟨f, fs, h1⟩ := ih; exact h1.step hs hT hst

/-! ### Scans that are stopped -/

/-- The keys to be visited in the layer that are not after what has been visited, have been visited. -/
def Until (R : Nat → Hist (Ent W)) (fwd : Bool) (t : Nat) (out : List (Bytes × W)) (f : Frame W) : Prop :=
  ∀ κ, f.st.Wants fwd κ → (∀ u, f.a ≤ u → u ≤ t → find R u f.l κ ≠ none) →
    (∃ k w, (k, w) ∈ out ∧ ¬ KBefore fwd k (f.pre ++ κ)) → ∃ w, (f.pre ++ κ, w) ∈ out

theorem until_head (hs : ∀ l, (R l).Sound) (hT : Tree R) {out : List (Bytes × W)} {f : Frame W} (hf : Runs R fwd t f)
    (hne : ∀ u κ, f.a ≤ u → find R u f.l κ ≠ none → f.st = .all ∨ f.pre ≠ [] → κ ≠ [])
    (hah : Ahead fwd out f) {o : List (Nat × Ent W)} (ho : ∀ x ∈ f.s.out, x ∈ o ∨ ∃ o', f.s.out = x :: o')
    (hpaid : ∀ x ∈ o, Paid R fwd t out f x) {κ : Bytes} (hw : f.st.Wants fwd κ)
    (hp : ∀ u, f.a ≤ u → u ≤ t → find R u f.l κ ≠ none) (hk : ∃ k w, (k, w) ∈ out ∧ ¬ KBefore fwd k (f.pre ++ κ)) :
    (∃ w, (f.pre ++ κ, w) ∈ out) ∨ ∃ v o', f.s.out = (pos κ, v) :: o' := by
  have hle := ((hs f.l).visits hf).le
  obtain ⟨k', w', h1, h2⟩ := hk
  have hn : ¬ Next fwd f κ := fun h => h2 (hah k' w' κ h1 h)
  have hκ := hne f.a κ (Nat.le_refl _) (hp f.a (Nat.le_refl _) hle)
  cases hout : f.s.out with
  | nil => exact absurd ⟨hκ, by rw [hout]; exact hw⟩ hn
  | cons x o' =>
    rcases Before.tri fwd x.1 (pos κ) with h3 | h3 | h3
    · exact absurd ⟨hκ, by rw [hout]; exact h3⟩ hn
    · exact Or.inr ⟨x.2, o', by rw [← h3]⟩
    · obtain ⟨v, hv⟩ := (hs f.l).stopped hf (q := x.1) (v := x.2) (by rw [hout]; exact List.mem_cons_self ..) h3
        fun u h4 h5 => wants_pos hT hw (hp u h4 h5)
      rcases ho _ hv with h4 | ⟨o2, h4⟩
      · exact Or.inl (paid_visit hs hT hf hw hp hv (hpaid _ h4))
      · rw [hout] at h4
        exact Or.inr ⟨v, o', by rw [(List.cons.inj h4).1]⟩

theorem Under.until (hs : ∀ l, (R l).Sound) (hT : Tree R) {out : List (Bytes × W)} {f : Frame W} {fs : List (Frame W)}
    (h : Under R fwd k e a t out f fs) (hf : Until R fwd t out f) (s : St (Ent W)) :
    Until R fwd t out ⟨0, .key k e, [], a, s⟩ := by
  induction fs generalizing f with
  | nil =>
    obtain ⟨l, st, pre, a', s'⟩ := f
    obtain ⟨h1, h2, h3, h4⟩ := h
    dsimp only at h1 h2 h3 h4
    subst h1 h2 h3 h4
    exact hf
  | cons g gs ih =>
    obtain ⟨h1, h2, ⟨p, o, h3, h4, h5, h6, ⟨u0, h7, h8, h9⟩⟩, h10⟩ := h
    refine ih h10 fun κ hw hp hk => ?_
    have hne : ∀ u κ, g.a ≤ u → Range.find R u g.l κ ≠ none → g.st = .all ∨ g.pre ≠ [] → κ ≠ [] := by
      intro u κ h11 h12 h13
      obtain ⟨v, hv⟩ := find_entry h12
      exact h10.all (h10.ne hT (u := u) (by rw [hv]; simp)) h13
    have ho : ∀ x ∈ g.s.out, x ∈ o ∨ ∃ o', g.s.out = x :: o' := by
      intro x hx
      rw [h3] at hx ⊢
      rcases List.mem_cons.1 hx with h11 | h11
      · exact Or.inr ⟨o, by rw [h11]⟩
      · exact Or.inl h11
    rcases until_head hs hT h1 hne h2 ho h4 hw hp hk with h11 | ⟨v, o', h11⟩
    · exact h11
    · rw [h3] at h11
      have h12 : p = pos κ := (Prod.mk.inj (List.cons.inj h11).1).1
      subst h12
      have hl : 8 < κ.length := (hT.link _ _ _ _ h9).1.long
      have he : f.pre ++ κ.drop 8 = g.pre ++ κ := by rw [h5, keyAt_pos, List.append_assoc, List.take_append_drop]
      rw [← he] at hk ⊢
      refine hf (κ.drop 8) (by rw [h6]; exact wants_below hw hl) (fun u h13 h14 => ?_) hk
      exact (hT.stays h9 (fun y h15 h16 => hp y (by omega) h16) (by omega) h14).2

/-- What has been visited has been visited from the start. -/
theorem WInv.until (hs : ∀ l, (R l).Sound) (hT : Tree R) {c : Conf W} {f : Frame W} {fs : List (Frame W)}
    (h : WInv R fwd k e a t c f fs) : Until R fwd t c.out ⟨0, .key k e, [], a, f.s⟩ := by
  refine h.under.until hs hT (fun κ hw hp hk => ?_) f.s
  have hne : ∀ u κ, f.a ≤ u → find R u f.l κ ≠ none → f.st = .all ∨ f.pre ≠ [] → κ ≠ [] := by
    intro u κ h11 h12 h13
    obtain ⟨v, hv⟩ := find_entry h12
    exact h.under.all (h.under.ne hT (u := u) (by rw [hv]; simp)) h13
  rcases until_head hs hT h.runs hne h.ahead (fun x hx => Or.inl hx) h.paid hw hp hk with h1 | ⟨v, o, h1⟩
  · exact h1
  · have hv : (pos κ, v) ∈ f.s.out := by rw [h1]; exact List.mem_cons_self ..
    exact paid_visit hs hT h.runs hw hp hv (h.paid _ hv)

end Verif.Range
