import Verif.Blink.Inv

/-!
# What the steps of one thread leave to the others
-/
namespace Verif.Blink

variable {G : Type}

/-- What every reader may rely on. -/
structure Mono (s s' : State G) : Prop where
  fresh : s.fresh ≤ s'.fresh
  lo : ∀ q, q < s.fresh → s'.lo q = s.lo q
  leaf : ∀ q, q < s.fresh → s'.leaf q = s.leaf q
  ins : ∀ q, q < s.fresh → s.ins q ≤ s'.ins q
  spl : ∀ q, q < s.fresh → s.spl q ≤ s'.spl q
  hi : ∀ q, q < s.fresh → s'.spl q = s.spl q → s'.dS q = false → s.dS q = false ∧ s'.hi q = s.hi q
  same : ∀ q, q < s.fresh → s'.clean q → s'.ins q = s.ins q → s'.spl q = s.spl q →
    s.clean q ∧ s'.keys q = s.keys q ∧ s'.kids q = s.kids q

/-- What a thread may rely on for the nodes it has locked. -/
structure Frame (i : Nat) (s s' : State G) : Prop where
  pc : ∀ j, j ≠ i → s'.pc j = s.pc j
  key : ∀ j, j ≠ i → s'.key j = s.key j
  base : ∀ j, j ≠ i → s'.base j = s.base j
  dI : ∀ q j, s.lock q = some j → j ≠ i → s'.dI q = s.dI q
  dS : ∀ q j, s.lock q = some j → j ≠ i → s'.dS q = s.dS q
  hi : ∀ q j, s.lock q = some j → j ≠ i → s'.hi q = s.hi q
  phi : ∀ q j, s.lock q = some j → j ≠ i → s'.phi q = s.phi q
  chi : ∀ q j, s.lock q = some j → j ≠ i → s'.chi q = s.chi q
  next : ∀ q j, s.lock q = some j → j ≠ i → s'.next q = s.next q
  loose : ∀ q j, s.lock q = some j → j ≠ i → s.parent q = none → s'.parent q = none
  parent : ∀ q p j, s.lock q = some j → j ≠ i → s.lock p = some j → s.parent q = some p → s'.parent q = some p

theorem In.mono {s s' : State G} (h : Mono s s') {n k vs : Nat} (hi : s.In n k vs) : s'.In n k vs := by
  have h1 := h.fresh
  have h2 := h.lo n
  have h3 := h.spl n
  have h4 := h.hi n
  unfold State.In at *
  grind

theorem Same.mono {s s' : State G} (h : Mono s s') {n vi vs : Nat} (hn : n < s.fresh) (h1 : vi ≤ s.ins n) (h2 : vs ≤ s.spl n)
    (hs : s'.same n vi vs) : s.same n vi vs ∧ s'.keys n = s.keys n ∧ s'.kids n = s.kids n := by
  have h3 := h.spl n hn
  have h4 := h.ins n hn
  have h5 := h.same n hn
  unfold State.same at *
  grind

theorem Loc.read {s s' : State G} (h : Mono s s') {k : Nat} {x : PC G} (hl : s.Loc k x) (ho : ∀ q, ¬ x.Owns q) : s'.Loc k x := by
  have h1 := h.fresh
  have h2 := h.lo
  have h3 := h.leaf
  have h4 := h.ins
  have h5 := h.spl
  have hin : ∀ n k vs, s.In n k vs → s'.In n k vs := fun n k vs => In.mono h
  have hsm : ∀ n vi vs, n < s.fresh → vi ≤ s.ins n → vs ≤ s.spl n → s'.same n vi vs →
    s.same n vi vs ∧ s'.keys n = s.keys n ∧ s'.kids n = s.kids n := fun n vi vs => Same.mono h
  cases x with
  | hold n => exact absurd rfl (ho n)
  | pub n => exact absurd rfl (ho n)
  | par n => exact absurd (Or.inl rfl) (ho n)
  | got n => exact absurd (Or.inl rfl) (ho n)
  | mrk n => exact absurd (Or.inl rfl) (ho n)
  | mod n => exact absurd (Or.inl rfl) (ho n)
  | fin p nx n => exact absurd (Or.inr (Or.inr (Or.inl rfl))) (ho n)
  | cut p nx n => exact absurd (Or.inr (Or.inr (Or.inl rfl))) (ho n)
  | rel p nx n => exact absurd (Or.inr (Or.inr (Or.inl rfl))) (ho n)
  | unl n => exact absurd (Or.inl rfl) (ho n)
  | pick n vi vs c =>
    obtain ⟨a1, a2, a3, a4⟩ := hl
    refine ⟨hin _ _ _ a1, Nat.le_trans a2 (h4 n a1.1), by rw [h3 n a1.1]; exact a3, fun hs => ?_⟩
    obtain ⟨b1, b2, b3⟩ := hsm n vi vs a1.1 a2 a1.2.2.1 hs
    rw [b2, b3]; exact a4 b1
  | picked n vi vs c ci cs =>
    obtain ⟨a1, a2, a3, a4⟩ := hl
    refine ⟨hin _ _ _ a1, Nat.le_trans a2 (h4 n a1.1), by rw [h3 n a1.1]; exact a3, fun hs => ?_⟩
    obtain ⟨b1, b2, b3⟩ := hsm n vi vs a1.1 a2 a1.2.2.1 hs
    obtain ⟨c1, c2⟩ := a4 b1
    exact ⟨hin _ _ _ c1, Nat.le_trans c2 (h4 c c1.1)⟩
  | at_ n vi vs => exact ⟨hin _ _ _ hl.1, Nat.le_trans hl.2 (h4 n hl.1.1)⟩
  | read n vi vs r => exact ⟨hin _ _ _ hl.1, Nat.le_trans hl.2.1 (h4 n hl.1.1), by rw [h3 n hl.1.1]; exact hl.2.2⟩
  | idle | done => trivial
  | up n => unfold State.Loc at *; grind
  | cmp n => unfold State.Loc at *; grind
  | adv n => unfold State.Loc at *; grind
  | go n => unfold State.Loc at *; grind

theorem Target.frame {s s' : State G} {i j : Nat} (h : Mono s s') (hf : Frame i s s') (hj : j ≠ i) {k l : Nat}
    (ho : s.lock l = some j) (ht : s.Target k l) : s'.Target k l := by
  have h1 := h.fresh
  have h2 := h.lo l ht.1
  have h3 := h.leaf l ht.1
  have h4 := hf.hi l j ho hj
  unfold State.Target at *
  grind

theorem Pair.frame {s s' : State G} {i j : Nat} (h : Mono s s') (hf : Frame i s s') (hj : j ≠ i) {n c x : Nat}
    (h1 : s.lock n = some j) (h2 : s.lock c = some j) (hp : s.Pair n c x) : s'.Pair n c x := by
  unfold State.Pair at *
  obtain ⟨a1, a2, a3, a4, a5, a6, a7, a8, a9, a10⟩ := hp
  rw [h.lo n a1, h.lo c a2, hf.hi n j h1 hj, hf.hi c j h2 hj, hf.phi c j h2 hj, hf.chi c j h2 hj, h.leaf n a1, h.leaf c a2]
  have := h.fresh
  exact ⟨by omega, by omega, a3, a4, a5, a6, a7, a8, a9, a10⟩

theorem Open.frame {s s' : State G} {i j : Nat} (h : Mono s s') (hf : Frame i s s') (hj : j ≠ i) {n c x : Nat}
    (h1 : s.lock n = some j) (h2 : s.lock c = some j) (hp : s.Open n c x) : s'.Open n c x := by
  refine ⟨Pair.frame h hf hj h1 h2 hp.1, ?_, hf.loose c j h2 hj hp.2.2⟩
  rw [hf.phi n j h1 hj, hf.hi n j h1 hj]; exact hp.2.1

theorem Level.frame {s s' : State G} {i j : Nat} (h : Mono s s') (hf : Frame i s s') (hj : j ≠ i) {k n c x : Nat}
    {t : Option Nat} (hn : n < s.fresh) (h1 : s.lock n = some j) (h2 : ∀ l, t = some l → s.lock l = some j)
    (hp : s.Level k n c x t) : s'.Level k n c x t := by
  cases t with
  | none =>
    unfold State.Level at *
    rw [h.leaf n hn, h.lo n hn, hf.hi n j h1 hj, hf.next n j h1 hj]; exact hp
  | some l =>
    obtain ⟨a1, a2, a3, a4⟩ := hp
    refine ⟨by rw [h.leaf n hn]; exact a1, by rw [hf.dS n j h1 hj]; exact a2, by rw [hf.chi n j h1 hj]; exact a3,
      Target.frame h hf hj (h2 l rfl) a4⟩

theorem Above.frame {s s' : State G} {i j : Nat} (h : Mono s s') (hf : Frame i s s') (hj : j ≠ i) {p : Option Nat}
    {nx : Option (Nat × Nat)} (h1 : ∀ q, p = some q → s.lock q = some j)
    (h2 : ∀ q, nx.map Prod.fst = some q → s.lock q = some j) (hp : s.Above p nx) : s'.Above p nx := by
  match p, nx with
  | none, _ => exact hp
  | some p, none =>
    obtain ⟨a1, a2, a3⟩ := hp
    exact ⟨Nat.lt_of_lt_of_le a1 h.fresh, by rw [h.leaf p a1]; exact a2, by rw [hf.dS p j (h1 p rfl) hj]; exact a3⟩
  | some p, some (c, y) =>
    obtain ⟨a1, a2, a3, a4⟩ := hp
    have hpf : p < s.fresh := a4.1.1
    refine ⟨by rw [h.leaf p hpf]; exact a1, by rw [hf.dS p j (h1 p rfl) hj]; exact a2, by rw [hf.chi p j (h1 p rfl) hj]; exact a3,
      Open.frame h hf hj (h1 p rfl) (h2 c rfl) a4⟩

/-- The knowledge of a thread survives the steps of the others. -/
theorem Loc.other {s s' : State G} {i j : Nat} (hi : Inv s) (h : Mono s s') (hf : Frame i s s') (hj : j ≠ i) :
    s'.Loc (s'.key j) (s'.pc j) := by
  rw [hf.pc j hj, hf.key j hj]
  have hl := hi.loc j
  have ho : ∀ n, (s.pc j).Owns n → s.lock n = some j := hi.own j
  generalize s.pc j = x at hl ho
  generalize s.key j = k at hl
  match x with
  | .idle | .up _ | .at_ _ _ _ | .pick _ _ _ _ | .picked _ _ _ _ _ _ | .cmp _ _ _ | .adv _ _ _ | .go _ | .read _ _ _ _ | .done _ =>
    exact Loc.read h hl (by simp [PC.Owns])
  | .hold n => exact Target.frame h hf hj (ho n rfl) hl
  | .pub n => exact Target.frame h hf hj (ho n rfl) hl
  | .par n c x t =>
    obtain ⟨a1, a2, a3, a4⟩ := hl
    exact ⟨Open.frame h hf hj (ho n (by simp [PC.Owns])) (ho c (by simp [PC.Owns])) a1,
      Level.frame h hf hj a1.1.1 (ho n (by simp [PC.Owns])) (fun l hl => ho l (by simp [PC.Owns, hl])) a2, a3, a4⟩
  | .got p n c x t =>
    obtain ⟨a1, a2, a3, a4, a5, a6, a7, a8, a9⟩ := hl
    exact ⟨Open.frame h hf hj (ho n (by simp [PC.Owns])) (ho c (by simp [PC.Owns])) a1,
      Level.frame h hf hj a1.1.1 (ho n (by simp [PC.Owns])) (fun l hl => ho l (by simp [PC.Owns, hl])) a2, a3, a4,
      Above.frame h hf hj (fun q hq => ho q (by simp only [Option.some.injEq] at hq; simp [PC.Owns, hq])) (by simp) a5, a6, a7,
      a8, by rw [hf.dI p j (ho p (by simp [PC.Owns])) hj]; exact a9⟩
  | .mrk p n c x t =>
    obtain ⟨a1, a2, a3, a4, a5, a6, a7, a8, a9⟩ := hl
    exact ⟨Open.frame h hf hj (ho n (by simp [PC.Owns])) (ho c (by simp [PC.Owns])) a1,
      Level.frame h hf hj a1.1.1 (ho n (by simp [PC.Owns])) (fun l hl => ho l (by simp [PC.Owns, hl])) a2, a3, a4,
      Above.frame h hf hj (fun q hq => ho q (by simp only [Option.some.injEq] at hq; simp [PC.Owns, hq])) (by simp) a5, a6, a7,
      a8, hf.parent n p j (ho n (by simp [PC.Owns])) hj (ho p (by simp [PC.Owns])) a9⟩
  | .mod p n c x t =>
    obtain ⟨a1, a2, a3, a4, a5, a6, a7, a8, a9, a10⟩ := hl
    exact ⟨Open.frame h hf hj (ho n (by simp [PC.Owns])) (ho c (by simp [PC.Owns])) a1,
      Level.frame h hf hj a1.1.1 (ho n (by simp [PC.Owns])) (fun l hl => ho l (by simp [PC.Owns, hl])) a2, a3, a4,
      Above.frame h hf hj (fun q hq => ho q (by simp only [Option.some.injEq] at hq; simp [PC.Owns, hq])) (by simp) a5, a6, a7,
      a8, hf.parent n p j (ho n (by simp [PC.Owns])) hj (ho p (by simp [PC.Owns])) a9,
      by rw [hf.dI p j (ho p (by simp [PC.Owns])) hj]; exact a10⟩
  | .fin p nx n c x t =>
    obtain ⟨a1, a2, a3, a4, a5, a6, a7⟩ := hl
    exact ⟨Pair.frame h hf hj (ho n (by simp [PC.Owns])) (ho c (by simp [PC.Owns])) a1,
      by rw [hf.phi n j (ho n (by simp [PC.Owns])) hj]; exact a2,
      Level.frame h hf hj a1.1 (ho n (by simp [PC.Owns])) (fun l hl => ho l (by simp [PC.Owns, hl])) a3, a4, a5,
      Above.frame h hf hj (fun q hq => ho q (by simp [PC.Owns, hq])) (fun q hq => ho q (Or.inr (Or.inl hq))) a6, a7⟩
  | .cut p nx n c x =>
    obtain ⟨a1, a2, a3, a4, a5, a6⟩ := hl
    exact ⟨Pair.frame h hf hj (ho n (by simp [PC.Owns])) (ho c (by simp [PC.Owns])) a1,
      by rw [hf.phi n j (ho n (by simp [PC.Owns])) hj]; exact a2,
      Level.frame h hf hj a1.1 (ho n (by simp [PC.Owns])) (by simp) a3,
      by rw [hf.dS n j (ho n (by simp [PC.Owns])) hj]; exact a4,
      Above.frame h hf hj (fun q hq => ho q (by simp [PC.Owns, hq])) (fun q hq => ho q (Or.inr (Or.inl hq))) a5, a6⟩
  | .rel p nx q t =>
    obtain ⟨a1, a2, a3, a4, a5, a6⟩ := hl
    exact ⟨Target.frame h hf hj (ho t (by simp [PC.Owns])) a1, Nat.lt_of_lt_of_le a2 h.fresh, a3,
      by rw [hf.chi q j (ho q (by simp [PC.Owns])) hj, hf.hi q j (ho q (by simp [PC.Owns])) hj]; exact a4,
      Above.frame h hf hj (fun q hq => ho q (by simp [PC.Owns, hq])) (fun q hq => ho q (Or.inr (Or.inl hq))) a5, a6⟩
  | .unl p t =>
    obtain ⟨a1, a2, a3⟩ := hl
    exact ⟨Target.frame h hf hj (ho t (by simp [PC.Owns])) a1,
      Above.frame h hf hj (fun q hq => ho q (by simp only [Option.some.injEq] at hq; simp [PC.Owns, hq])) (by simp) a2, a3⟩

end Verif.Blink
