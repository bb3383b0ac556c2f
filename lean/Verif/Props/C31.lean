import Verif.Scan.Query
import Verif.Props.C03

/-
C31: limited scans return at most the requested number of live rows, in order.
-/
namespace Verif.Props.C31
open Verif.Key (Bytes LexLt)
open Verif.Trie (T get Op run empty ReachableLe)
open Verif.Scan (Dir runScan QS)
variable {V F : Type}

/-- The order in which a scan in direction `d` reports keys. -/
def Before (d : Dir) (a b : Bytes) : Prop :=
  match d with
  | .fwd => LexLt a b
  | .rev => LexLt b a

/-- For every table (keys up to 256 bytes), direction, start key and limit `n ≥ 1`, whatever
the string buffer held before: let `L` be the stored pairs at or after the start key in scan
order.  The request ends; the reply, read after the scan, consists of the first `n` pairs of
`L` whose row is not a marker (all of them if there are fewer), in order, with unharmed keys;
the scan looks at a prefix of `L` of length `m`, and if that is not all of `L` then its last
element is the `n`-th live row. -/
theorem limited_scan {t : T V} (ht : ReachableLe 256 t) (d : Dir) (marker : V → Bool) (emit : V → F)
    (fresh : Nat → Bytes) (hf : ∀ n, (fresh n).length = n) (first junk old : Bytes)
    (hb : (first ++ junk).length = 256) (n : Nat) (hn : 0 < n) :
    ∃ (L : List (Bytes × V)) (m : Nat) (q : QS F) (N : Nat),
      (∀ k v, (k, v) ∈ L ↔ get k t = some (some v) ∧ (Before d first k ∨ k = first)) ∧
      L.Pairwise (fun a b => Before d a.1 b.1) ∧
      (∀ fuel, N ≤ fuel → runScan d marker emit fresh t first junk old n fuel = .fin q m) ∧
      q.reply = ((L.filter fun e => !marker e.2).take n).map (fun e => (e.1, emit e.2)) ∧
      m ≤ L.length ∧
      (m < L.length → 0 < m ∧ ((L.take m).filter fun e => !marker e.2).length = n ∧
        ∀ e, L[m - 1]? = some e → marker e.2 = false) := by
  obtain ⟨N, hN⟩ := Scan.exec_scan ht d true hb (Scan.visitValue marker emit fresh)
  obtain ⟨m, q, h1, h2, h3, _, h5⟩ := Scan.feed_query (marker := marker) (emit := emit) hf
    (d.ord (d.pick true first (Trie.contents t))) ⟨n, [old], 0, []⟩ n 0
    ⟨by simp, by simp, by simp⟩ rfl hn
  refine ⟨_, m, q, N, ?_, ?_, ?_, ?_, h1, h5⟩
  · intro k v
    rw [Scan.mem_scan ht d true first k v]
    cases d <;> simp [Dir.after, Before]
  · have := Scan.scan_sorted ht d true first
    cases d <;> exact this
  · intro fuel hfuel
    unfold runScan
    rw [hN fuel hfuel, h2, Nat.zero_add]
  · rw [h3]; simp [QS.reply]

/-- At most `n` rows are returned. -/
theorem at_most {t : T V} (ht : ReachableLe 256 t) (d : Dir) (marker : V → Bool) (emit : V → F)
    (fresh : Nat → Bytes) (hf : ∀ n, (fresh n).length = n) (first junk old : Bytes)
    (hb : (first ++ junk).length = 256) (n : Nat) (hn : 0 < n) :
    ∃ (q : QS F) (m N : Nat), (∀ fuel, N ≤ fuel → runScan d marker emit fresh t first junk old n fuel = .fin q m) ∧
      q.reply.length ≤ n := by
  obtain ⟨L, m, q, N, _, _, h3, h4, _⟩ := limited_scan ht d marker emit fresh hf first junk old hb n hn
  refine ⟨q, m, N, h3, ?_⟩
  rw [h4, List.length_map, List.length_take]; omega

/-- The limit must be positive: the code asserts it (/repo/kvrow.hh:316), and with assertions
compiled out a request for zero rows returns every live row at or after the start key. -/
theorem zero_limit_returns_all {t : T V} (ht : ReachableLe 256 t) (d : Dir) (marker : V → Bool) (emit : V → F)
    (fresh : Nat → Bytes) (hf : ∀ n, (fresh n).length = n) (first junk old : Bytes)
    (hb : (first ++ junk).length = 256) :
    ∃ (L : List (Bytes × V)) (q : QS F) (N : Nat),
      (∀ k v, (k, v) ∈ L ↔ get k t = some (some v) ∧ (Before d first k ∨ k = first)) ∧
      (∀ fuel, N ≤ fuel → runScan d marker emit fresh t first junk old 0 fuel = .fin q L.length) ∧
      q.reply = (L.filter fun e => !marker e.2).map (fun e => (e.1, emit e.2)) := by
  obtain ⟨N, hN⟩ := Scan.exec_scan ht d true hb (Scan.visitValue marker emit fresh)
  obtain ⟨q, h2, h3⟩ := Scan.feed_query_zero (marker := marker) (emit := emit) hf
    (d.ord (d.pick true first (Trie.contents t))) ⟨0, [old], 0, []⟩ 0
    ⟨by simp, by simp, by simp⟩ (Int.le_refl 0)
  refine ⟨d.ord (d.pick true first (Trie.contents t)), q, N, ?_, ?_, ?_⟩
  · intro k v
    rw [Scan.mem_scan ht d true first k v]
    cases d <;> simp [Dir.after, Before]
  · intro fuel hfuel
    unfold runScan
    rw [hN fuel hfuel, h2, Nat.zero_add]
  · rw [h3]; simp [QS.reply]

/-! ### Concrete cases -/

/-- The theorem on the table of the C01 demo, rows with odd numbers being markers, a limit of
two rows and a buffer that is too small at first. -/
example : ∃ (t : T Nat) (L : List (Bytes × Nat)) (m : Nat) (q : QS Nat) (N : Nat),
    (C01.demoB, 2) ∈ L ∧ (C01.demoA, 1) ∈ L ∧
    (∀ fuel, N ≤ fuel → runScan .fwd (fun v => v % 2 == 1) id (fun n => List.replicate n 0) t []
      (List.replicate 256 7) [1, 2] 2 fuel = .fin q m) ∧
    q.reply = ((L.filter fun e => !(e.2 % 2 == 1)).take 2).map (fun e => (e.1, e.2)) := by
  obtain ⟨outs, t, h1, h2⟩ := C01.history_is_map C01.demoOps (by simp [C01.demoOps, Op.Valid, C01.demoP])
  have hr : ReachableLe 256 t := ⟨C01.demoOps, by
    simp [C01.demoOps, Op.Valid, Trie.Op.Le, C01.demoP, C01.demoA, C01.demoB, C01.demoC, C01.demoD], outs, h1⟩
  obtain ⟨L, m, q, N, g1, g2, g3, g4, _⟩ := limited_scan hr .fwd (fun v => v % 2 == 1) (id : Nat → Nat)
    (fun n => List.replicate n 0) (by simp) [] (List.replicate 256 7) [1, 2]
    (by rw [List.length_append, List.length_replicate]; rfl) 2 (by omega)
  refine ⟨t, L, m, q, N, ?_, ?_, g3, g4⟩
  · rw [g1, h2]; exact ⟨by decide, .inl (by simp [Before, C01.demoB])⟩
  · rw [g1, h2]; exact ⟨by decide, .inl (by simp [Before, C01.demoA])⟩

/-- The same by running the model: the reply is the two smallest live rows. -/
def demoReply : Option (List (Bytes × Nat)) :=
  match run C01.demoOps empty with
  | some (_, t) =>
    match runScan .fwd (fun v => v % 2 == 1) id (fun n => List.replicate n 0) t [] (List.replicate 256 7) [1, 2] 2 100 with
    | .fin q _ => some q.reply
    | _ => none
  | none => none

example : demoReply = some [(C01.demoB, 2), (C01.demoD, 14)] := by decide +kernel

end Verif.Props.C31
