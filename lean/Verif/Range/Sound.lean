import Verif.Range.Model
import Mathlib.Tactic.ByContra

/-!
# What scans rely on
-/
namespace Verif.Range

variable {V : Type}

/-- The history is one of a layer whose leaves are changed according to the protocol. -/
structure Hist.Sound (h : Hist V) : Prop where
  leaf : ∀ t n, h.leaf t n → h.leaf (t + 1) n
  lo : ∀ t n, h.leaf t n → h.lo (t + 1) n = h.lo t n
  ins : ∀ t n, h.leaf t n → h.ins t n ≤ h.ins (t + 1) n
  spl : ∀ t n, h.leaf t n → h.spl t n ≤ h.spl (t + 1) n
  /-- A version that is current has been so since it was read, and the range of the leaf has not become smaller. -/
  back : ∀ t n vi vs, h.leaf t n → vi ≤ h.ins t n → vs ≤ h.spl t n → h.Ok (t + 1) n vi vs →
    h.Ok t n vi vs ∧ h.hi t n ≤ h.hi (t + 1) n
  /-- The range of a leaf grows only into a range without entries. -/
  grow : ∀ t n k, h.leaf t n → h.hi t n ≤ k → k < h.hi (t + 1) n → h.m t k = none
  top : ∀ t n, h.leaf t n → h.hi t n ≤ 2 ^ 64
  val : ∀ t n k, h.leaf t n → h.dead t n = false → h.lo t n ≤ k → k < h.hi t n → h.items t n k = h.m t k
  dom : ∀ t n k, h.leaf t n → h.dead t n = false → h.items t n k ≠ none → h.lo t n ≤ k ∧ k < h.hi t n
  next : ∀ t n r, h.leaf t n → h.next t n = some r → h.leaf t r ∧ h.lo t r ≤ h.hi t n
  last : ∀ t n, h.leaf t n → h.next t n = none → h.hi t n = 2 ^ 64
  walk : ∀ t k n vi vs, h.walk t k n vi vs → h.leaf t n ∧ h.lo t n ≤ k ∧ vi ≤ h.ins t n ∧ vs ≤ h.spl t n ∧
    (h.Ok t n vi vs → k < h.hi t n)

/-- `n` is a leaf, and has or had the version. -/
structure Hist.Has (h : Hist V) (t n vi vs : Nat) : Prop where
  leaf : h.leaf t n
  ins : vi ≤ h.ins t n
  spl : vs ≤ h.spl t n

theorem Hist.Has.succ {h : Hist V} (hs : h.Sound) {t n vi vs : Nat} (hh : h.Has t n vi vs) : h.Has (t + 1) n vi vs :=
  ⟨hs.leaf _ _ hh.leaf, Nat.le_trans hh.ins (hs.ins _ _ hh.leaf), Nat.le_trans hh.spl (hs.spl _ _ hh.leaf)⟩

/-- From time `u` on `n` has been a leaf, and if the version is current, it has been so. -/
structure Hist.Since (h : Hist V) (u t n vi vs : Nat) : Prop where
  le : u ≤ t
  leaf : ∀ w, u ≤ w → w ≤ t → h.leaf w n ∧ h.lo w n = h.lo t n
  ok : h.Ok t n vi vs → ∀ w, u ≤ w → w ≤ t → h.Ok w n vi vs ∧ h.hi u n ≤ h.hi w n

theorem Hist.Since.refl {h : Hist V} {t n vi vs : Nat} (hl : h.leaf t n) : h.Since t t n vi vs :=
  ⟨Nat.le_refl _, fun w h1 h2 => by obtain rfl : w = t := by omega
                                    exact ⟨hl, rfl⟩,
    fun ho w h1 h2 => by obtain rfl : w = t := by omega
                         exact ⟨ho, Nat.le_refl _⟩⟩

theorem Hist.Since.succ {h : Hist V} (hs : h.Sound) {u t n vi vs : Nat} (hh : h.Has t n vi vs) (hu : h.Since u t n vi vs) :
    h.Since u (t + 1) n vi vs := by
  have hlo := hs.lo t n hh.leaf
  refine ⟨by have := hu.le; omega, fun w h1 h2 => ?_, fun ho w h1 h2 => ?_⟩
  · by_cases hw : w = t + 1
    · subst hw; exact ⟨hs.leaf _ _ hh.leaf, rfl⟩
    · rw [hlo]; exact hu.leaf w h1 (by omega)
  · obtain ⟨h3, h4⟩ := hs.back t n vi vs hh.leaf hh.ins hh.spl ho
    by_cases hw : w = t + 1
    · subst hw; exact ⟨ho, Nat.le_trans (hu.ok h3 t hu.le (Nat.le_refl _)).2 h4⟩
    · exact hu.ok h3 w h1 (by omega)

/-- An entry of the leaf is one of the layer. -/
theorem Hist.Sound.entry_val {h : Hist V} (hs : h.Sound) {t n p : Nat} {v : V} (hl : h.leaf t n) (hd : h.dead t n = false)
    (hv : entry (h.items t n) p = some v) : entry (h.m t) p = some v ∧ h.lo t n ≤ p / 16 ∧ p / 16 < h.hi t n := by
  have hne : h.items t n (p / 16) ≠ none := by
    intro h1
    rw [entry, h1] at hv
    cases hv
  obtain ⟨h1, h2⟩ := hs.dom t n _ hl hd hne
  refine ⟨?_, h1, h2⟩
  rw [entry, ← hs.val t n _ hl hd h1 h2]
  exact hv

/-- A position in the range of the leaf without an entry there has none in the layer. -/
theorem Hist.Sound.entry_none {h : Hist V} (hs : h.Sound) {t n p : Nat} (hl : h.leaf t n) (hd : h.dead t n = false)
    (h1 : h.lo t n ≤ p / 16) (h2 : p / 16 < h.hi t n) (hv : entry (h.items t n) p = none) : entry (h.m t) p = none := by
  rw [entry, ← hs.val t n _ hl hd h1 h2]
  exact hv

/-- The scan is to visit an entry with value `v` at position `p`. -/
def Wanted (fwd : Bool) (b : Nat) (want : V → Bool) (p : Nat) (v : V) : Prop :=
  (if fwd then b < p else p < b) ∨ p = b ∧ want v = true

/-- The position was visited, or at some time between `a` and `t` there was nothing to visit. -/
def Cov (h : Hist V) (fwd : Bool) (b : Nat) (want : V → Bool) (a t : Nat) (out : List (Nat × V)) (p : Nat) : Prop :=
  (∃ v, (p, v) ∈ out) ∨ ∃ u, a ≤ u ∧ u ≤ t ∧ ∀ v, entry (h.m u) p = some v → ¬ Wanted fwd b want p v

section
variable {h : Hist V} {fwd : Bool} {b : Nat} {want : V → Bool} {a t : Nat} {out : List (Nat × V)} {p : Nat}

theorem Cov.succ (hc : Cov h fwd b want a t out p) : Cov h fwd b want a (t + 1) out p := by
  rcases hc with h1 | ⟨u, h1, h2, h3⟩
  · exact Or.inl h1
  · exact Or.inr ⟨u, h1, by omega, h3⟩

theorem Cov.cons (e : Nat × V) (hc : Cov h fwd b want a t out p) : Cov h fwd b want a t (e :: out) p := by
  rcases hc with ⟨v, h1⟩ | h1
  · exact Or.inl ⟨v, List.mem_cons_of_mem _ h1⟩
  · exact Or.inr h1

theorem Cov.none {u : Nat} (h1 : a ≤ u) (h2 : u ≤ t) (hn : entry (h.m u) p = none) : Cov h fwd b want a t out p :=
  Or.inr ⟨u, h1, h2, fun v hv => by rw [hn] at hv; cases hv⟩

/-- What is known of what has been visited. -/
structure Visits (h : Hist V) (fwd : Bool) (b : Nat) (want : V → Bool) (a t ka : Nat) (out : List (Nat × V)) : Prop where
  le : a ≤ t
  /-- In order. -/
  ord : (out.map Prod.fst).Pairwise (fun p q => if fwd then q < p else p < q)
  ka : ∀ p v, (p, v) ∈ out → if fwd then p ≤ ka else ka ≤ p
  val : ∀ p v, (p, v) ∈ out → Wanted fwd b want p v ∧ ∃ u, a ≤ u ∧ u ≤ t ∧ entry (h.m u) p = some v

theorem Visits.succ {ka : Nat} (hv : Visits h fwd b want a t ka out) : Visits h fwd b want a (t + 1) ka out :=
  ⟨by have := hv.le; omega, hv.ord, hv.ka, fun p v hp => by
    obtain ⟨h1, u, h2, h3, h4⟩ := hv.val p v hp
    exact ⟨h1, u, h2, by omega, h4⟩⟩

theorem Visits.emit {ka q w : Nat} {v : V} (hv : Visits h fwd b want a t ka out) (hw : Wanted fwd b want q v)
    (hk : ∀ p v, (p, v) ∈ out → if fwd then p < q else q < p) (h1 : a ≤ w) (h2 : w ≤ t) (he : entry (h.m w) q = some v) :
    Visits h fwd b want a t q ((q, v) :: out) := by
  refine ⟨hv.le, ?_, ?_, ?_⟩
  · rw [List.map_cons, List.pairwise_cons]
    refine ⟨fun p hp => ?_, hv.ord⟩
    obtain ⟨⟨p', v'⟩, h3, rfl⟩ := List.mem_map.1 hp
    exact hk _ _ h3
  · intro p v' hp
    rcases List.mem_cons.1 hp with h3 | h3
    · cases h3; split <;> omega
    · have := hk _ _ h3
      split at this <;> simp_all <;> omega
  · intro p v' hp
    rcases List.mem_cons.1 hp with h3 | h3
    · cases h3; exact ⟨hw, w, h1, h2, he⟩
    · exact hv.val p v' h3

end

end Verif.Range
