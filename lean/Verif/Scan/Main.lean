import Verif.Scan.Initial

/-!
The whole scan.
-/
namespace Verif.Scan
open Verif.Key (Bytes slice LexLt)
open Verif.Tree
open Verif.Trie (T LV WF Deep contents get ReachableLe)
variable {V : Type}

/-- The list of pairs a scan reports if the visitor never stops it. -/
theorem scan_runs {t : T V} (h : ReachableLe 256 t) (d : Dir) (eq : Bool) {first junk : Bytes}
    (hb : (first ++ junk).length = 256) :
    ∃ c', Runs d eq (start t first junk) (d.ord (d.pick eq first (contents t))) c' ∧ step d eq c' = .done := by
  have hw := h.reachable.wf
  have hd := h.deep
  obtain ⟨c', h1, h2, h3, h4⟩ := initial_run (d := d) (eq := eq) hw hd (start t first junk) first rfl rfl rfl
    (by unfold Room start; dsimp only; rw [hb]; omega)
    ⟨by simp [start], by simp [start], rfl, rfl⟩
  refine ⟨c', ?_, ?_⟩
  · have e : ∀ L : List (Bytes × V), under (pre (start t first junk)) L = L := by
      intro L; simp [under, pre, start]
    rwa [e] at h1
  · unfold step
    rw [h3, h2.stack]
    rfl

theorem exec_scan {σ : Type} {t : T V} (h : ReachableLe 256 t) (d : Dir) (eq : Bool) {first junk : Bytes}
    (hb : (first ++ junk).length = 256) (vis : σ → Bytes → V → σ × Bool) :
    ∃ N, ∀ n, N ≤ n → ∀ st, exec d eq vis n (start t first junk) st 0
      = feed vis (d.ord (d.pick eq first (contents t))) st 0 := by
  obtain ⟨c', h1, h2⟩ := scan_runs h d eq hb
  obtain ⟨N, hN⟩ := exec_of_runs vis h1 h2
  exact ⟨N, fun n hn st => hN n hn st 0⟩

/-- State of the visitor after it has been called with all of `L`. -/
def after {σ : Type} (vis : σ → Bytes → V → σ × Bool) (st : σ) (L : List (Bytes × V)) : σ :=
  L.foldl (fun s e => (vis s e.1 e.2).1) st

/-- Does the visitor ask to go on when it is called with the pair at position `i`? -/
def goesOn {σ : Type} (vis : σ → Bytes → V → σ × Bool) (st : σ) (L : List (Bytes × V)) (i : Nat) : Prop :=
  ∀ e, L[i]? = some e → (vis (after vis st (L.take i)) e.1 e.2).2 = true

theorem feed_spec {σ : Type} (vis : σ → Bytes → V → σ × Bool) (L : List (Bytes × V)) (st : σ) (n : Nat) :
    ∃ m, m ≤ L.length ∧ feed vis L st n = .fin (after vis st (L.take m)) (n + m) ∧
      (∀ i, i + 1 < m → goesOn vis st L i) ∧ (m < L.length → 0 < m ∧ ¬ goesOn vis st L (m - 1)) := by
  induction L generalizing st n with
  | nil => exact ⟨0, by simp, rfl, by simp, by simp⟩
  | cons e L ih =>
    obtain ⟨k, v⟩ := e
    unfold feed
    dsimp only
    split
    · next hc =>
      obtain ⟨m, h1, h2, h3, h4⟩ := ih (vis st k v).1 (n + 1)
      refine ⟨m + 1, by simpa using h1, ?_, ?_, ?_⟩
      · rw [h2]; simp only [List.take_succ_cons, after, List.foldl_cons]
        congr 1; omega
      · intro i hi
        cases i with
        | zero => intro e he; simp only [List.getElem?_cons_zero, Option.some.injEq] at he; subst he; exact hc
        | succ i =>
          intro e he
          have := h3 i (by omega) e (by simpa using he)
          simpa [after] using this
      · intro hm
        refine ⟨by omega, ?_⟩
        obtain ⟨h5, h6⟩ := h4 (by simpa using hm)
        obtain ⟨m', rfl⟩ : ∃ m', m = m' + 1 := ⟨m - 1, by omega⟩
        intro hg
        apply h6
        intro e he
        have := hg e (by simpa using he)
        simpa [after] using this
    · next hc =>
      refine ⟨1, by simp, by simp [after], by simp, ?_⟩
      intro _
      refine ⟨by omega, fun hg => hc ?_⟩
      exact hg (k, v) (by simp)

theorem mem_scan {t : T V} (h : ReachableLe 256 t) (d : Dir) (eq : Bool) (first k : Bytes) (v : V) :
    (k, v) ∈ d.ord (d.pick eq first (contents t)) ↔ get k t = some (some v) ∧ d.after eq first k := by
  have : (k, v) ∈ d.ord (d.pick eq first (contents t)) ↔ (k, v) ∈ d.pick eq first (contents t) := by
    cases d <;> simp [Dir.ord]
  rw [this, ← Trie.mem_contents h.reachable.wf h.deep]
  simp [Dir.pick]

theorem scan_sorted {t : T V} (h : ReachableLe 256 t) (d : Dir) (eq : Bool) (first : Bytes) :
    (d.ord (d.pick eq first (contents t))).Pairwise fun a b =>
      match d with
      | .fwd => LexLt a.1 b.1
      | .rev => LexLt b.1 a.1 := by
  have hs : (d.pick eq first (contents t)).Pairwise fun a b => LexLt a.1 b.1 :=
    (Trie.contents_sorted h.reachable.wf h.deep).sublist (by unfold Dir.pick; exact List.filter_sublist)
  cases d with
  | fwd => exact hs
  | rev => simpa [Dir.ord, List.pairwise_reverse] using hs

end Verif.Scan
