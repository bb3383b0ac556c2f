import Verif.Prune.Inv

/-!
# What the steps of one thread leave to the others
-/
namespace Verif.Prune

variable {G : Type}

/-- What every reader may rely on. -/
structure Mono (s s' : State G) : Prop where
  fresh : s.fresh ≤ s'.fresh
  lo : ∀ q, q < s.fresh → s'.lo q = s.lo q
  leaf : ∀ q, q < s.fresh → s'.leaf q = s.leaf q
  ins : ∀ q, q < s.fresh → s.ins q ≤ s'.ins q
  spl : ∀ q, q < s.fresh → s.spl q ≤ s'.spl q
  hi : ∀ q, q < s.fresh → s'.spl q = s.spl q → s'.dS q = false → s.dS q = false ∧ s'.dead q = s.dead q ∧ s.hi q ≤ s'.hi q
  clean : ∀ q, q < s.fresh → s'.clean q → s'.ins q = s.ins q → s'.spl q = s.spl q → s.clean q
  kid : ∀ q, q < s.fresh → s'.clean q → s'.ins q = s.ins q → s'.spl q = s.spl q →
    ∀ c, c < s.fresh → s.parent c = some q → s'.parent c = some q ∧ s.bd c ≤ s'.bd c

/-- What a thread may rely on for the nodes it has locked and their children.  The ends of ranges change by `u`. -/
structure Frame (i : Nat) (u : Nat → Nat) (s s' : State G) : Prop where
  pc : ∀ j, j ≠ i → s'.pc j = s.pc j
  key : ∀ j, j ≠ i → s'.key j = s.key j
  base : ∀ j, j ≠ i → s'.base j = s.base j
  le : ∀ v, v ≤ u v
  dI : ∀ q j, s.lock q = some j → j ≠ i → s'.dI q = s.dI q
  dS : ∀ q j, s.lock q = some j → j ≠ i → s'.dS q = s.dS q
  dead : ∀ q j, s.lock q = some j → j ≠ i → s'.dead q = s.dead q
  gone : ∀ q j, s.lock q = some j → j ≠ i → s'.gone q = s.gone q
  items : ∀ q j, s.lock q = some j → j ≠ i → s'.items q = s.items q
  hi : ∀ q j, s.lock q = some j → j ≠ i → s'.hi q = u (s.hi q)
  bd : ∀ q j, s.lock q = some j → j ≠ i → s'.bd q = u (s.bd q)
  elo : ∀ q j, s.lock q = some j → j ≠ i → s'.elo q = u (s.elo q)
  next : ∀ q c j, s.lock q = some j → s.lock c = some j → j ≠ i → s.next q = some c → s'.next q = some c
  loose : ∀ q j, s.lock q = some j → j ≠ i → s.parent q = none → s'.parent q = none
  parent : ∀ q p j, s.lock p = some j → j ≠ i → q < s.fresh → s.parent q = some p →
    s'.parent q = some p ∧ s'.elo q = u (s.elo q) ∧ s'.bd q = u (s.bd q)

theorem In.mono {s s' : State G} (h : Mono s s') {n k vs : Nat} (hi : s.In n k vs) : s'.In n k vs := by
  have h1 := h.fresh
  have h2 := h.lo n
  have h3 := h.spl n
  have h4 := h.hi n
  unfold State.In at *
  grind

theorem Same.mono {s s' : State G} (h : Mono s s') {n vi vs : Nat} (hn : n < s.fresh) (h1 : vi ≤ s.ins n) (h2 : vs ≤ s.spl n)
    (hs : s'.same n vi vs) : s.same n vi vs ∧
    ∀ c, c < s.fresh → s.parent c = some n → s'.parent c = some n ∧ s.bd c ≤ s'.bd c := by
  have h3 := h.spl n hn
  have h4 := h.ins n hn
  have h5 := h.clean n hn
  have h6 := h.kid n hn
  unfold State.same at *
  grind

/-- A thread that has no locks. -/
def PC.Free (x : PC G) : Prop := ∀ q, ¬ x.Owns q

theorem Loc.read {s s' : State G} (h : Mono s s') {k : Nat} {x : PC G} (hl : s.Loc k x) (ho : ∀ q, ¬ x.Owns q) : s'.Loc k x := by
  have h1 := h.fresh
  have h2 := h.lo
  have h3 := h.leaf
  have h4 := h.ins
  have h5 := h.spl
  have hin : ∀ n k vs, s.In n k vs → s'.In n k vs := fun n k vs => In.mono h
  have hsm : ∀ n vi vs, n < s.fresh → vi ≤ s.ins n → vs ≤ s.spl n → s'.same n vi vs →
    s.same n vi vs ∧ ∀ c, c < s.fresh → s.parent c = some n → s'.parent c = some n ∧ s.bd c ≤ s'.bd c :=
    fun n vi vs => Same.mono h
  cases x with
  | pick n vi vs c =>
    obtain ⟨a1, a2, a3, a4⟩ := hl
    refine ⟨hin _ _ _ a1, Nat.le_trans a2 (h4 n a1.1), by rw [h3 n a1.1]; exact a3, fun hs => ?_⟩
    obtain ⟨b1, b2⟩ := hsm n vi vs a1.1 a2 a1.2.2.1 hs
    obtain ⟨c1, c2, c3, c4⟩ := a4 b1
    obtain ⟨d1, d2⟩ := b2 c c1 c2
    exact ⟨by omega, d1, by rw [h2 c c1]; exact c3, by omega⟩
  | picked n vi vs c ci cs =>
    obtain ⟨a1, a2, a3, a4⟩ := hl
    refine ⟨hin _ _ _ a1, Nat.le_trans a2 (h4 n a1.1), by rw [h3 n a1.1]; exact a3, fun hs => ?_⟩
    obtain ⟨c1, c2⟩ := a4 (hsm n vi vs a1.1 a2 a1.2.2.1 hs).1
    exact ⟨hin _ _ _ c1, Nat.le_trans c2 (h4 c c1.1)⟩
  | at_ n vi vs => exact ⟨hin _ _ _ hl.1, Nat.le_trans hl.2 (h4 n hl.1.1)⟩
  | read n vi vs r =>
    obtain ⟨a1, a2, a3, a4⟩ := hl
    refine ⟨hin _ _ _ a1, Nat.le_trans a2 (h4 n a1.1), by rw [h3 n a1.1]; exact a3, fun e1 e2 => ?_⟩
    have hv := h5 n a1.1
    have hw := a1.2.2.1
    have := h.hi n a1.1 (by omega) e2
    rw [this.2.1]; exact a4 (by omega) this.1
  | idle | done => trivial
  | up n => unfold State.Loc at *; grind
  | cmp n => unfold State.Loc at *; grind
  | adv n => unfold State.Loc at *; grind
  | go n => unfold State.Loc at *; grind
  | hold n => exact absurd rfl (ho n)
  | pub n => exact absurd rfl (ho n)
  | par n => exact absurd (Or.inl rfl) (ho n)
  | got n => exact absurd (Or.inl rfl) (ho n)
  | mod n => exact absurd (Or.inl rfl) (ho n)
  | fin p nx n => exact absurd (Or.inr (Or.inr (Or.inl rfl))) (ho n)
  | cut p nx n => exact absurd (Or.inr (Or.inr (Or.inl rfl))) (ho n)
  | rel p nx n => exact absurd (Or.inr (Or.inr (Or.inl rfl))) (ho n)
  | unl n => exact absurd (Or.inl rfl) (ho n)
  | ulk n => exact absurd rfl (ho n)
  | rpar n => exact absurd rfl (ho n)
  | rgot n => exact absurd (Or.inl rfl) (ho n)
  | rmod n => exact absurd (Or.inl rfl) (ho n)
  | dpar n => exact absurd (Or.inl rfl) (ho n)
  | dgot n => exact absurd (Or.inl rfl) (ho n)
  | dset n => exact absurd (Or.inl rfl) (ho n)
  | dtop n => exact absurd (Or.inl rfl) (ho n)
  | rend n => exact absurd (Or.inl rfl) (ho n)
  | rnext n => exact absurd rfl (ho n)

section
variable {s s' : State G} {i j : Nat} {u : Nat → Nat}

theorem Target.frame (h : Mono s s') (hf : Frame i u s s') (hj : j ≠ i) {k l : Nat} (ho : s.lock l = some j)
    (ht : s.Target k l) : s'.Target k l := by
  have h1 := h.fresh
  have h2 := h.lo l ht.1
  have h3 := h.leaf l ht.1
  have h4 := hf.hi l j ho hj
  have h5 := hf.dead l j ho hj
  have h6 := hf.gone l j ho hj
  have h7 := hf.le (s.hi l)
  unfold State.Target at *
  grind

theorem Pair.frame (h : Mono s s') (hf : Frame i u s s') (hj : j ≠ i) {n c x : Nat} (h2 : s.lock c = some j)
    (hp : s.Pair n c x) : s'.Pair n c x := by
  unfold State.Pair at *
  obtain ⟨a1, a2, a3, a4, a5, a6, a7, a8⟩ := hp
  rw [h.lo c a2, hf.elo c j h2 hj, hf.bd c j h2 hj, h.leaf n a1, h.leaf c a2]
  have := h.fresh
  have := hf.le (s.elo c)
  have := hf.le (s.bd c)
  exact ⟨by omega, by omega, a3, a4, a5, by omega, by omega, a8⟩

theorem Open.frame (h : Mono s s') (hf : Frame i u s s') (hj : j ≠ i) {n c x : Nat} (h1 : s.lock n = some j)
    (h2 : s.lock c = some j) (hp : s.Open n c x) : s'.Open n c x := by
  refine ⟨Pair.frame h hf hj h2 hp.1, ?_, hf.loose c j h2 hj hp.2.2⟩
  rw [hf.bd n j h1 hj, hf.bd c j h2 hj, hp.2.1]

theorem Level.frame (h : Mono s s') (hf : Frame i u s s') (hj : j ≠ i) {k n c x : Nat}
    {t : Option Nat} (hn : n < s.fresh) (h1 : s.lock n = some j) (hc : s.lock c = some j)
    (h2 : ∀ l, t = some l → s.lock l = some j)
    (hp : s.Level k n c x t) : s'.Level k n c x t := by
  cases t with
  | none =>
    unfold State.Level at *
    obtain ⟨a1, a2, a3, a4, a5, a6, a7, a8⟩ := hp
    have := hf.le (s.hi n)
    rw [h.leaf n hn, h.lo n hn, hf.hi n j h1 hj, hf.hi c j hc hj, hf.next n c j h1 hc hj a4, hf.dead n j h1 hj,
      hf.dead c j hc hj, hf.gone n j h1 hj, hf.gone c j hc hj, ← a6]
    exact ⟨a1, a2, by omega, rfl, a5, rfl, by omega, a8⟩
  | some l =>
    obtain ⟨a1, a2, a3, a4⟩ := hp
    exact ⟨by rw [h.leaf n hn]; exact a1, by rw [hf.dS n j h1 hj]; exact a2,
      by rw [hf.hi n j h1 hj, hf.elo c j hc hj, a3], Target.frame h hf hj (h2 l rfl) a4⟩

theorem Above.frame (h : Mono s s') (hf : Frame i u s s') (hj : j ≠ i) {p : Option Nat}
    {nx : Option (Nat × Nat)} (h1 : ∀ q, p = some q → s.lock q = some j)
    (h2 : ∀ q, nx.map Prod.fst = some q → s.lock q = some j) (hp : s.Above p nx) : s'.Above p nx := by
  match p, nx with
  | none, _ => exact hp
  | some p, none =>
    obtain ⟨a1, a2⟩ := hp
    exact ⟨Nat.lt_of_lt_of_le a1 h.fresh, by rw [h.leaf p a1]; exact a2⟩
  | some p, some (c, y) =>
    obtain ⟨a1, a2, a3, a4⟩ := hp
    have hpf : p < s.fresh := a4.1.1
    exact ⟨by rw [h.leaf p hpf]; exact a1, by rw [hf.dS p j (h1 p rfl) hj]; exact a2,
      by rw [hf.hi p j (h1 p rfl) hj, hf.elo c j (h2 c rfl) hj, a3], Open.frame h hf hj (h1 p rfl) (h2 c rfl) a4⟩

theorem Above.frame1 (h : Mono s s') {p : Nat} (hp : s.Above (some p) none) : s'.Above (some p) none :=
  ⟨Nat.lt_of_lt_of_le hp.1 h.fresh, by rw [h.leaf p hp.1]; exact hp.2⟩

theorem Out.frame (h : Mono s s') (hf : Frame i u s s') (hj : j ≠ i) {n : Nat} {r : Option Nat} (h1 : s.lock n = some j)
    (hp : s.Out n r) : s'.Out n r := by
  cases r with
  | none =>
    obtain ⟨a1, a2, a3, a4, a5⟩ := hp
    exact ⟨Nat.lt_of_lt_of_le a1 h.fresh, by rw [hf.dead n j h1 hj]; exact a2, by rw [hf.dS n j h1 hj]; exact a3,
      by rw [hf.elo n j h1 hj, hf.bd n j h1 hj, a4], by rw [h.leaf n a1, hf.gone n j h1 hj]; exact a5⟩
  | some c =>
    obtain ⟨a1, a2, a3, a4, a5, a6, a7, a8, a9⟩ := hp
    obtain ⟨b1, b2, b3⟩ := hf.parent c n j h1 hj a5 a6
    exact ⟨Nat.lt_of_lt_of_le a1 h.fresh, by rw [hf.dead n j h1 hj]; exact a2, by rw [hf.dS n j h1 hj]; exact a3,
      by rw [h.leaf n a1]; exact a4, Nat.lt_of_lt_of_le a5 h.fresh, b1, by rw [b2, hf.elo n j h1 hj, a7],
      by rw [b3, hf.bd n j h1 hj, a8], by rw [h.lo c a5, h.lo n a1]; exact a9⟩

theorem Inner.frame (h : Mono s s') (hf : Frame i u s s') (hj : j ≠ i) {p n : Nat} (h1 : s.lock p = some j)
    (hp : s.Inner p n) : s'.Inner p n := by
  obtain ⟨a1, a2, a3, a4, a5⟩ := hp
  exact ⟨Nat.lt_of_lt_of_le a1 h.fresh, by rw [h.leaf p a1]; exact a2, by rw [hf.dead p j h1 hj]; exact a3, a4,
    Nat.lt_of_lt_of_le a5 h.fresh⟩

theorem Shift.frame (h : Mono s s') (hf : Frame i u s s') {q y : Nat} (h1 : s'.elo q = u (s.elo q)) (h2 : s'.bd q = u (s.bd q))
    (hp : s.Shift q y) : s'.Shift q y := by
  obtain ⟨a1, a2, a3, a4, a5⟩ := hp
  have := hf.le (s.elo q)
  have := hf.le (s.bd q)
  exact ⟨Nat.lt_of_lt_of_le a1 h.fresh, by rw [h.leaf q a1]; exact a2, a3, by omega, by omega⟩

/-- The knowledge of a thread survives the steps of the others. -/
theorem Loc.other (hi : Inv s) (h : Mono s s') (hf : Frame i u s s') (hj : j ≠ i) :
    s'.Loc (s'.key j) (s'.pc j) := by
  rw [hf.pc j hj, hf.key j hj]
  have hl := hi.loc j
  have ho : ∀ n, (s.pc j).Owns n → s.lock n = some j := hi.own j
  generalize s.pc j = x at hl ho
  generalize s.key j = k at hl
  match x with
  | .idle | .up _ | .at_ _ _ _ | .pick _ _ _ _ | .picked _ _ _ _ _ _ | .cmp _ _ _ | .adv _ _ _ | .go _ | .read _ _ _ _ | .done _ =>
    exact Loc.read h hl (by simp [PC.Owns])
  | .hold n => exact Target.frame h hf hj (ho n rfl) hl
  | .pub n => exact Target.frame h hf hj (ho n rfl) hl
  | .par n c x t =>
    obtain ⟨a1, a2, a3, a4⟩ := hl
    exact ⟨Open.frame h hf hj (ho n (by simp [PC.Owns])) (ho c (by simp [PC.Owns])) a1,
      Level.frame h hf hj a1.1.1 (ho n (by simp [PC.Owns])) (ho c (by simp [PC.Owns])) (fun l hl => ho l (by simp [PC.Owns, hl])) a2,
      a3, a4⟩
  | .got p n c x t =>
    obtain ⟨a1, a2, a3, a4, a5, a6, a7, a8⟩ := hl
    exact ⟨Open.frame h hf hj (ho n (by simp [PC.Owns])) (ho c (by simp [PC.Owns])) a1,
      Level.frame h hf hj a1.1.1 (ho n (by simp [PC.Owns])) (ho c (by simp [PC.Owns])) (fun l hl => ho l (by simp [PC.Owns, hl])) a2,
      a3, a4, Above.frame1 h a5, a6, a7, a8⟩
  | .mod p n c x t =>
    obtain ⟨a1, a2, a3, a4, a5, a6, a7, a8, a9, a10⟩ := hl
    exact ⟨Open.frame h hf hj (ho n (by simp [PC.Owns])) (ho c (by simp [PC.Owns])) a1,
      Level.frame h hf hj a1.1.1 (ho n (by simp [PC.Owns])) (ho c (by simp [PC.Owns])) (fun l hl => ho l (by simp [PC.Owns, hl])) a2,
      a3, a4, Above.frame1 h a5, a6, a7, a8, (hf.parent n p j (ho p (by simp [PC.Owns])) hj a1.1.1 a9).1,
      by rw [hf.dI p j (ho p (by simp [PC.Owns])) hj]; exact a10⟩
  | .fin p nx n c x t =>
    obtain ⟨a1, a2, a3, a4, a5, a6, a7⟩ := hl
    exact ⟨Pair.frame h hf hj (ho c (by simp [PC.Owns])) a1,
      by rw [hf.bd n j (ho n (by simp [PC.Owns])) hj, hf.elo c j (ho c (by simp [PC.Owns])) hj, a2],
      Level.frame h hf hj a1.1 (ho n (by simp [PC.Owns])) (ho c (by simp [PC.Owns])) (fun l hl => ho l (by simp [PC.Owns, hl])) a3,
      a4, a5,
      Above.frame h hf hj (fun q hq => ho q (by simp [PC.Owns, hq])) (fun q hq => ho q (Or.inr (Or.inl hq))) a6, a7⟩
  | .cut p nx n c x =>
    obtain ⟨a1, a2, a3, a4, a5, a6⟩ := hl
    exact ⟨Pair.frame h hf hj (ho c (by simp [PC.Owns])) a1,
      by rw [hf.bd n j (ho n (by simp [PC.Owns])) hj, hf.elo c j (ho c (by simp [PC.Owns])) hj, a2],
      Level.frame h hf hj a1.1 (ho n (by simp [PC.Owns])) (ho c (by simp [PC.Owns])) (by simp) a3,
      by rw [hf.dS n j (ho n (by simp [PC.Owns])) hj]; exact a4,
      Above.frame h hf hj (fun q hq => ho q (by simp [PC.Owns, hq])) (fun q hq => ho q (Or.inr (Or.inl hq))) a5, a6⟩
  | .rel p nx q t =>
    obtain ⟨a1, a2, a3, a5, a6⟩ := hl
    exact ⟨Target.frame h hf hj (ho t (by simp [PC.Owns])) a1, Nat.lt_of_lt_of_le a2 h.fresh, a3,
      Above.frame h hf hj (fun q hq => ho q (by simp [PC.Owns, hq])) (fun q hq => ho q (Or.inr (Or.inl hq))) a5, a6⟩
  | .unl p t =>
    obtain ⟨a1, a2, a3⟩ := hl
    exact ⟨Target.frame h hf hj (ho t (by simp [PC.Owns])) a1, Above.frame1 h a2, a3⟩
  | .ulk n =>
    obtain ⟨a1, a2, a3, a4, a5, a6, a7⟩ := hl
    have hn := ho n rfl
    exact ⟨Nat.lt_of_lt_of_le a1 h.fresh, by rw [h.leaf n a1]; exact a2, by rw [hf.dead n j hn hj]; exact a3,
      by rw [hf.gone n j hn hj]; exact a4, by rw [h.lo n a1]; exact a5, by rw [hf.dS n j hn hj]; exact a6,
      by rw [hf.items n j hn hj]; exact a7⟩
  | .rpar n r ik => exact Out.frame h hf hj (ho n rfl) hl
  | .rgot p n r ik =>
    obtain ⟨a1, a2, a3⟩ := hl
    exact ⟨Out.frame h hf hj (ho n (Or.inr rfl)) a1, Above.frame1 h a2, a3⟩
  | .rmod p n r ik =>
    obtain ⟨a1, a2, a3, a4, a5⟩ := hl
    have hn : n < s.fresh := by cases r <;> exact a1.1
    exact ⟨Out.frame h hf hj (ho n (Or.inr rfl)) a1, Above.frame1 h a2, a3,
      (hf.parent n p j (ho p (Or.inl rfl)) hj hn a4).1, by rw [hf.dI p j (ho p (Or.inl rfl)) hj]; exact a5⟩
  | .dpar q p n ik y =>
    obtain ⟨a1, a2, a3⟩ := hl
    have hq := ho q (Or.inl rfl)
    exact ⟨Inner.frame h hf hj (ho p (Or.inr (Or.inl rfl))) a1, Shift.frame h hf (hf.elo q j hq hj) (hf.bd q j hq hj) a2, a3⟩
  | .dgot u q p n ik y =>
    obtain ⟨a1, a2, a3, a4, a5⟩ := hl
    have hq := ho q (Or.inr (Or.inl rfl))
    exact ⟨Inner.frame h hf hj (ho p (Or.inr (Or.inr (Or.inl rfl)))) a1,
      Shift.frame h hf (hf.elo q j hq hj) (hf.bd q j hq hj) a2, a3, Above.frame1 h a4, a5⟩
  | .dset u q p n ik y =>
    obtain ⟨a1, a2, a3, a4, a5, a6⟩ := hl
    obtain ⟨b1, b2, b3⟩ := hf.parent q u j (ho u (Or.inl rfl)) hj a2.1 a6
    exact ⟨Inner.frame h hf hj (ho p (Or.inr (Or.inl rfl))) a1, Shift.frame h hf b2 b3 a2, Above.frame1 h a3, a4, a5, b1⟩
  | .dtop u p n y =>
    obtain ⟨a1, a2, a3⟩ := hl
    exact ⟨Inner.frame h hf hj (ho p (Or.inr (Or.inl rfl))) a1, Above.frame1 h a2, a3⟩
  | .rend p n ik => exact Inner.frame h hf hj (ho p (Or.inl rfl)) hl
  | .rnext p ik =>
    obtain ⟨a1, a2, a3⟩ := hl
    exact ⟨Nat.lt_of_lt_of_le a1 h.fresh, by rw [h.leaf p a1]; exact a2, by rw [hf.dead p j (ho p rfl) hj]; exact a3⟩

end

end Verif.Prune
