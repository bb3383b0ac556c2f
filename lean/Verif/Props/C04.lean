import Verif.Scan.Main
import Verif.Props.C01

/-
C04: a reverse scan is complete, ordered and free of duplicates.

Keys in the table and the start key have at most 256 bytes, the size of the scan's key buffer.
-/
namespace Verif.Props.C04
open Verif.Key (Bytes LexLt)
open Verif.Trie (T get Op run empty ReachableLe)
open Verif.Scan (exec start Res goesOn after)
variable {V σ : Type}

/-- As `C03.forward_scan`, downwards: the list holds exactly the stored keys at or before
(strictly before, if `emit_firstkey` is off) the start key and is strictly decreasing; the
scan ends after calling the visitor with its first `m` elements in order, where `m` is the
length of the list or the number of the call at which the visitor first asked to stop. -/
theorem reverse_scan {t : T V} (ht : ReachableLe 256 t) (first junk : Bytes) (emitFirst : Bool)
    (hb : (first ++ junk).length = 256) :
    ∃ L : List (Bytes × V),
      (∀ k v, (k, v) ∈ L ↔ get k t = some (some v) ∧ (LexLt k first ∨ (k = first ∧ emitFirst = true))) ∧
      L.Pairwise (fun a b => LexLt b.1 a.1) ∧
      ∀ (vis : σ → Bytes → V → σ × Bool) (st : σ), ∃ m N, m ≤ L.length ∧
        (∀ n, N ≤ n → exec .rev emitFirst vis n (start t first junk) st 0 = .fin (after vis st (L.take m)) m) ∧
        (∀ i, i + 1 < m → goesOn vis st L i) ∧ (m < L.length → 0 < m ∧ ¬ goesOn vis st L (m - 1)) := by
  refine ⟨_, fun k v => Scan.mem_scan ht .rev emitFirst first k v, Scan.scan_sorted ht .rev emitFirst first, ?_⟩
  intro vis st
  obtain ⟨N, hN⟩ := Scan.exec_scan ht .rev emitFirst hb vis
  obtain ⟨m, h1, h2, h3, h4⟩ := Scan.feed_spec vis (Scan.Dir.rev.ord (Scan.Dir.rev.pick emitFirst first (Trie.contents t))) st 0
  exact ⟨m, N, h1, fun n hn => by rw [hN n hn st, h2, Nat.zero_add], h3, h4⟩

/-- Two sorted lists with the same elements are equal. -/
theorem eq_of_sorted {L M : List (Bytes × V)} (hL : L.Pairwise fun a b => LexLt a.1 b.1)
    (hM : M.Pairwise fun a b => LexLt a.1 b.1) (h : ∀ e, e ∈ L ↔ e ∈ M) : L = M := by
  induction L generalizing M with
  | nil =>
    cases M with
    | nil => rfl
    | cons b M => exact absurd ((h b).mpr (by simp)) (by simp)
  | cons a L ih =>
    cases M with
    | nil => exact absurd ((h a).mp (by simp)) (by simp)
    | cons b M =>
      have hL' := List.pairwise_cons.mp hL
      have hM' := List.pairwise_cons.mp hM
      have hab : a = b := by
        rcases List.mem_cons.mp ((h a).mp (by simp)) with e | e
        · exact e
        · rcases List.mem_cons.mp ((h b).mpr (by simp)) with e2 | e2
          · exact e2.symm
          · exact absurd (hM'.1 a e) (Key.lexLt_asymm (hL'.1 b e2))
      subst hab
      rw [ih hL'.2 hM'.2]
      intro e
      constructor
      · intro he
        rcases List.mem_cons.mp ((h e).mp (by simp [he])) with rfl | h2
        · exact absurd (hL'.1 e he) (Key.lexLt_irrefl _)
        · exact h2
      · intro he
        rcases List.mem_cons.mp ((h e).mpr (by simp [he])) with rfl | h2
        · exact absurd (hM'.1 e he) (Key.lexLt_irrefl _)
        · exact h2

/-- A forward scan from `lo` (inclusive) cut off above `hi` and a reverse scan from `hi`
(inclusive) cut off below `lo` give the same pairs, in opposite order. -/
theorem reverse_of_forward {t : T V} (lo hi : Bytes) {L M : List (Bytes × V)}
    (hL : ∀ k v, (k, v) ∈ L ↔ get k t = some (some v) ∧ (LexLt lo k ∨ (k = lo ∧ true = true)))
    (sL : L.Pairwise fun a b => LexLt a.1 b.1)
    (hM : ∀ k v, (k, v) ∈ M ↔ get k t = some (some v) ∧ (LexLt k hi ∨ (k = hi ∧ true = true)))
    (sM : M.Pairwise fun a b => LexLt b.1 a.1) (p : Bytes → Bool) (q : Bytes → Bool)
    (hp : ∀ k, p k = true ↔ (LexLt k hi ∨ k = hi)) (hq : ∀ k, q k = true ↔ (LexLt lo k ∨ k = lo)) :
    M.filter (fun e => q e.1) = (L.filter fun e => p e.1).reverse := by
  have : (M.filter fun e => q e.1).reverse = L.filter fun e => p e.1 := by
    apply eq_of_sorted
    · rw [List.pairwise_reverse]; exact sM.sublist List.filter_sublist
    · exact sL.sublist List.filter_sublist
    · rintro ⟨k, v⟩
      simp only [List.mem_reverse, List.mem_filter, hL, hM, hp, hq, and_true]
      constructor <;> rintro ⟨⟨a, b⟩, c⟩ <;> exact ⟨⟨a, c⟩, b⟩
  rw [← this, List.reverse_reverse]

/-! ### Concrete case -/

/-- Reverse from a stored key that is not to be reported: only smaller keys are. -/
example : ∃ (t : T Nat) (L : List (Bytes × Nat)),
    (C01.demoA, 1) ∈ L ∧ ([], 5) ∈ L ∧ (∀ v, (C01.demoB, v) ∉ L) ∧ (∀ v, (C01.demoD, v) ∉ L) ∧
    ∀ st : List (Bytes × Nat), ∃ m N, m ≤ L.length ∧ ∀ n, N ≤ n → exec .rev false (fun s k v => (s ++ [(k, v)], true)) n
      (start t C01.demoB (List.replicate 252 7)) st 0 = .fin (after (fun s k v => (s ++ [(k, v)], true)) st (L.take m)) m := by
  obtain ⟨outs, t, h1, h2⟩ := C01.history_is_map C01.demoOps (by simp [C01.demoOps, Op.Valid, C01.demoP])
  have hr : ReachableLe 256 t := ⟨C01.demoOps, by
    simp [C01.demoOps, Op.Valid, Trie.Op.Le, C01.demoP, C01.demoA, C01.demoB, C01.demoC, C01.demoD], outs, h1⟩
  obtain ⟨L, g1, _, g3⟩ := reverse_scan (σ := List (Bytes × Nat)) hr C01.demoB (List.replicate 252 7) false
    (by rw [List.length_append, List.length_replicate]; rfl)
  refine ⟨t, L, ?_, ?_, ?_, ?_, ?_⟩
  · rw [g1, h2]; exact ⟨by decide, .inl (by simp [C01.demoA, C01.demoB])⟩
  · rw [g1, h2]; exact ⟨by decide, .inl (by simp [C01.demoB])⟩
  · intro v; rw [g1]; rintro ⟨_, h | ⟨_, h⟩⟩
    · exact Key.lexLt_irrefl _ h
    · simp at h
  · intro v; rw [g1]; rintro ⟨_, h | ⟨_, h⟩⟩
    · revert h; simp [C01.demoB, C01.demoD, C01.demoP]
    · simp at h
  · intro st
    obtain ⟨m, N, q1, q2, _⟩ := g3 (fun s k v => (s ++ [(k, v)], true)) st
    exact ⟨m, N, q1, q2⟩

end Verif.Props.C04
