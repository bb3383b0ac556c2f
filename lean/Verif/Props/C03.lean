import Verif.Scan.Main
import Verif.Props.C01

/-
C03: a forward scan is complete, ordered and free of duplicates.

Keys in the table and the start key have at most 256 bytes, which is the size of the scan's
key buffer (`MASSTREE_MAXKEYLEN` is 255); `overflow` below shows what happens otherwise.
-/
namespace Verif.Props.C03
open Verif.Key (Bytes LexLt)
open Verif.Trie (T get Op run empty ReachableLe)
open Verif.Scan (exec start Res goesOn after)
variable {V σ : Type}

/-- For every table, every start key, both settings of `emit_firstkey`, every initial content
of the rest of the key buffer and every visitor there is a list `L` that does not depend on
the visitor, such that
* `L` holds exactly the stored keys at or after (strictly after, if `emit_firstkey` is off)
  the start key, with their values;
* `L` is strictly increasing, so no key occurs twice;
* the scan ends, without leaving its buffer, after calling the visitor with the first `m`
  elements of `L` in order and nothing else, and returns `m`; here `m` is the length of `L`
  or the visitor asked to stop at the `m`-th call, and it did not ask to stop before. -/
theorem forward_scan {t : T V} (ht : ReachableLe 256 t) (first junk : Bytes) (emitFirst : Bool)
    (hb : (first ++ junk).length = 256) :
    ∃ L : List (Bytes × V),
      (∀ k v, (k, v) ∈ L ↔ get k t = some (some v) ∧ (LexLt first k ∨ (k = first ∧ emitFirst = true))) ∧
      L.Pairwise (fun a b => LexLt a.1 b.1) ∧
      ∀ (vis : σ → Bytes → V → σ × Bool) (st : σ), ∃ m N, m ≤ L.length ∧
        (∀ n, N ≤ n → exec .fwd emitFirst vis n (start t first junk) st 0 = .fin (after vis st (L.take m)) m) ∧
        (∀ i, i + 1 < m → goesOn vis st L i) ∧ (m < L.length → 0 < m ∧ ¬ goesOn vis st L (m - 1)) := by
  refine ⟨_, fun k v => Scan.mem_scan ht .fwd emitFirst first k v, Scan.scan_sorted ht .fwd emitFirst first, ?_⟩
  intro vis st
  obtain ⟨N, hN⟩ := Scan.exec_scan ht .fwd emitFirst hb vis
  obtain ⟨m, h1, h2, h3, h4⟩ := Scan.feed_spec vis (Scan.Dir.fwd.ord (Scan.Dir.fwd.pick emitFirst first (Trie.contents t))) st 0
  exact ⟨m, N, h1, fun n hn => by rw [hN n hn st, h2, Nat.zero_add], h3, h4⟩

/-- A visitor that never stops sees every key: collecting the pairs gives the whole list. -/
theorem forward_scan_all {t : T V} (ht : ReachableLe 256 t) (first junk : Bytes) (emitFirst : Bool)
    (hb : (first ++ junk).length = 256) :
    ∃ L : List (Bytes × V),
      (∀ k v, (k, v) ∈ L ↔ get k t = some (some v) ∧ (LexLt first k ∨ (k = first ∧ emitFirst = true))) ∧
      L.Pairwise (fun a b => LexLt a.1 b.1) ∧
      ∃ N, ∀ n, N ≤ n → exec .fwd emitFirst (fun s k v => (s ++ [(k, v)], true)) n (start t first junk) [] 0
        = .fin L L.length := by
  obtain ⟨L, h1, h2, h3⟩ := forward_scan (σ := List (Bytes × V)) ht first junk emitFirst hb
  obtain ⟨m, N, q1, q2, q3, q4⟩ := h3 (fun s k v => (s ++ [(k, v)], true)) []
  refine ⟨L, h1, h2, N, fun n hn => ?_⟩
  have hm : m = L.length := by
    rcases Nat.lt_or_ge m L.length with h | h
    · exact absurd (fun e _ => rfl) (q4 h).2
    · omega
  rw [q2 n hn, hm, List.take_length]
  congr 1
  have : ∀ (M acc : List (Bytes × V)), after (fun s k v => (s ++ [(k, v)], true)) acc M = acc ++ M := by
    intro M
    induction M with
    | nil => intro acc; simp [after]
    | cons e M ih => intro acc; simp only [after, List.foldl_cons] at ih ⊢; rw [ih]; simp
  rw [this, List.nil_append]

/-! ### Concrete cases -/

/-- The theorem applies to tables with several layers; here to what the demo history of C01
leaves, from a start key that is not stored. -/
example : ∃ (t : T Nat) (L : List (Bytes × Nat)),
    (∀ k v, (k, v) ∈ L ↔ get k t = some (some v) ∧ (LexLt [1, 2] k ∨ (k = [1, 2] ∧ true = true))) ∧
    (C01.demoB, 2) ∈ L ∧ (C01.demoD, 14) ∈ L ∧ (∀ v, (C01.demoC, v) ∉ L) ∧ (∀ v, ([], v) ∉ L) ∧
    ∃ N, ∀ n, N ≤ n → exec .fwd true (fun s k v => (s ++ [(k, v)], true)) n
      (start t [1, 2] (List.replicate 254 7)) [] 0 = .fin L L.length := by
  obtain ⟨outs, t, h1, h2⟩ := C01.history_is_map C01.demoOps (by simp [C01.demoOps, Op.Valid, C01.demoP])
  have hr : ReachableLe 256 t := ⟨C01.demoOps, by
    simp [C01.demoOps, Op.Valid, Op.Le, Trie.Op.Le, C01.demoP, C01.demoA, C01.demoB, C01.demoC, C01.demoD], outs, h1⟩
  obtain ⟨L, g1, _, g3⟩ := forward_scan_all hr [1, 2] (List.replicate 254 7) true
    (by rw [List.length_append, List.length_replicate]; rfl)
  refine ⟨t, L, g1, ?_, ?_, ?_, ?_, g3⟩
  · rw [g1, h2]; exact ⟨by decide, .inl (by simp [C01.demoB])⟩
  · rw [g1, h2]; exact ⟨by decide, .inl (by simp [C01.demoD, C01.demoP])⟩
  · intro v; rw [g1, h2]
    rintro ⟨h, _⟩
    revert h
    rw [show (Trie.specRun C01.demoOps fun _ => none).2 C01.demoC = none by decide]
    simp
  · intro v; rw [g1]; rintro ⟨_, h | ⟨h, _⟩⟩
    · simp at h
    · simp at h

/-- Does scanning a table with the single key `k` leave the key buffer? -/
def overflows (k : Bytes) : Bool :=
  match run [Op.put k ()] empty with
  | some (_, t) =>
    match exec .fwd true (fun (_ : Unit) _ _ => ((), true)) 10 (start t [] (List.replicate 256 0)) () 0 with
    | .fail => true
    | _ => false
  | none => false

/-- The bound on the key length is needed: the code copies the rest of a stored key into the
buffer without checking (/repo/masstree_scan.hh:269-270), so with a key of 300 bytes in the
table a scan writes past the end of its buffer, while one of 256 bytes fits. -/
theorem overflow : overflows (List.replicate 300 65) = true ∧ overflows (List.replicate 256 65) = false := by
  decide +kernel

end Verif.Props.C03
