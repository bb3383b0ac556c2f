import Verif.IO.Kvout

/-!
# C41: output buffers keep what is written to them and stay within their memory

The same claim for arbitrarily long streams holds for whole writes to a file (`stream`).  It fails for sizes beyond
32 bits (`full_append_hangs`, `huge_write_overruns`), for a buffer of size 0 (`zero_capacity_hangs`) and, as far as the
bytes received by the file are concerned, after a failed `write` (`failure_repeats`).
-/
namespace Verif.Props.C41
open Verif.Key (Bytes)
open Verif.IO

/-- A buffer without file: as long as no more than 2^31 bytes are asked for in total, every operation ends, stays inside
the buffer, and the buffer holds the bytes written in order. -/
theorem buffered (ops : List Op) (hv : ∀ o ∈ ops, o.Valid false) (hn : (ops.map Op.room).sum ≤ 2 ^ 31) :
    ∃ s, run ops newBufkvout = .ok s ∧ s.buf = (ops.map Op.data).flatten ∧ s.buf.length ≤ s.cap := by
  rcases run_good ops newBufkvout ⟨by decide, by decide, by decide⟩ hv (by simpa [newBufkvout] using hn) with ⟨h, _⟩ | ⟨s, h1, h2, _, _, _, _, _, h7⟩
  · cases h
  · exact ⟨s, h1, by simpa [newBufkvout] using (h7 rfl).2, h2.len⟩

/-- A buffer with a file: under the same bound no operation loops or leaves the buffer, and what the file has received
together with the buffer is what was written, in order, if no `write` failed. -/
theorem filed (ops : List Op) (buflen : Nat) (h0 : 0 < buflen) (h1 : buflen < 2 ^ 31) (env : List Wr)
    (hv : ∀ o ∈ ops, o.Valid true) (hn : (ops.map Op.room).sum ≤ 2 ^ 31) :
    run ops (newKvout true buflen env) = .wait ∨
    ∃ s, run ops (newKvout true buflen env) = .ok s ∧ s.buf.length ≤ s.cap ∧
      (Wr.fail ∉ env → s.sent ++ s.buf = (ops.map Op.data).flatten) := by
  rcases run_good ops (newKvout true buflen env) ⟨h0, by show buflen < 2 ^ 32; omega, by simp [newKvout]⟩ hv
    (by simpa [newKvout] using hn) with ⟨_, h⟩ | ⟨s, h1, h2, _, _, _, _, h6, _⟩
  · exact .inl h
  · exact .inr ⟨s, h1, h2.len, fun hf => by simpa [all, newKvout] using h6 hf⟩

/-- After a flush that ends without failure, the file has everything. -/
theorem flushed (ops : List Op) (buflen : Nat) (h0 : 0 < buflen) (h1 : buflen < 2 ^ 31) (env : List Wr)
    (hv : ∀ o ∈ ops, o.Valid true) (hn : (ops.map Op.room).sum ≤ 2 ^ 31) (hf : Wr.fail ∉ env) {s : Kv}
    (hr : run (ops ++ [.flush]) (newKvout true buflen env) = .ok s) : s.sent = (ops.map Op.data).flatten ∧ s.buf = [] := by
  have split : ∀ (os : List Op) (t : Kv), run (os ++ [.flush]) t = (run os t).bind flush := by
    intro os
    induction os with
    | nil => intro t; show (flush t).bind (run []) = flush t; cases flush t <;> rfl
    | cons o os ih =>
      intro t
      simp only [List.cons_append, run]
      cases step t o with
      | ok t' => simp only [Res.bind]; exact ih t'
      | wait => rfl
      | hang => rfl
      | ub => rfl
  rw [split] at hr
  rcases run_good ops (newKvout true buflen env) ⟨h0, by show buflen < 2 ^ 32; omega, by simp [newKvout]⟩ hv
    (by simpa [newKvout] using hn) with ⟨_, h⟩ | ⟨s1, h1, h2, _, _, _, ⟨u, hu⟩, h6, _⟩
  · rw [h] at hr; cases hr
  · rw [h1] at hr
    simp only [Res.bind] at hr
    have ha := h6 hf
    have hf' : Wr.fail ∉ s1.env := by
      intro hm; apply hf
      have : env = u ++ s1.env := hu
      rw [this]; simp [hm]
    rcases flush_spec s1 with g | ⟨s2, g1, _, _, _, _, g⟩
    · rw [g] at hr; cases hr
    · rw [g1] at hr
      cases hr
      rcases g with ⟨a, b⟩ | ⟨_, b, _⟩
      · exact ⟨by rw [b]; simpa [all, newKvout] using ha, a⟩
      · exact absurd b hf'

/-! ### Streams of any length -/

theorem growLoop_le {want : Nat} : ∀ k cap c, growLoop want cap k = .ok c → c ≤ cap ∨ c < 2 * want
  | 0, cap, c, h => by
    simp only [growLoop] at h
    split at h
    · cases h
    · cases h; exact .inl (Nat.le_refl _)
  | k + 1, cap, c, h => by
    simp only [growLoop] at h
    split at h
    · next hc =>
      rcases growLoop_le k _ c h with h | h
      · right
        have : cap * 2 % 2 ^ 32 ≤ cap * 2 := Nat.mod_le _ _
        omega
      · exact .inr h
    · cases h; exact .inl (Nat.le_refl _)

theorem kvwrite_stream {s : Kv} (hfd : s.fd = true) (h0 : 0 < s.cap) (hc : s.cap < 2 ^ 31) (hl : s.buf.length ≤ s.cap)
    (hf : Wr.fail ∉ s.env) {bs : Bytes} (hb : bs.length ≤ 2 ^ 30) :
    kvwrite s bs = .wait ∨ ∃ s', kvwrite s bs = .ok s' ∧ s'.fd = true ∧ 0 < s'.cap ∧ s'.cap < 2 ^ 31 ∧ s'.buf.length ≤ s'.cap ∧
      Wr.fail ∉ s'.env ∧ all s' = all s ++ bs := by
  unfold kvwrite
  rw [Nat.mod_eq_of_lt (by omega : s.buf.length + bs.length < 2 ^ 32)]
  by_cases c : s.buf.length + bs.length > s.cap
  · rw [if_pos (by simp [c, hfd])]
    rcases flush_spec s with g | ⟨s1, g1, g2, g3, _, ⟨u, hu⟩, g⟩
    · rw [g]; exact .inl rfl
    · rw [g1]
      simp only [Res.bind]
      rcases g with ⟨a, b⟩ | ⟨_, b, _⟩
      · have hf1 : Wr.fail ∉ s1.env := by intro hm; apply hf; rw [hu]; simp [hm]
        rw [a]
        simp only [List.length_nil, Nat.zero_add]
        rw [Nat.mod_eq_of_lt (by omega : bs.length < 2 ^ 32), g3]
        by_cases d : bs.length > s.cap
        · rw [if_pos d]
          have hflush : flush s1 = .ok s1 := by
            unfold flush; rw [a]; cases e : s1.env <;> simp only [flushLoop, Res.bind, if_true] <;> (rw [← e, ← a])
          unfold grow
          rw [if_pos (by rw [g2]; exact hfd), hflush]
          simp only [Res.bind]
          rw [if_neg (by omega), g3]
          obtain ⟨cc, k1, k2, k3, k4⟩ := growLoop_small (want := bs.length) (cap := s.cap) (by omega) h0 (by omega)
          have k5 := growLoop_le _ _ _ k1
          rw [k1]
          simp only [store]
          rw [a, if_pos (by simpa using k2)]
          refine .inr ⟨_, rfl, g2.trans hfd, by show 0 < cc; omega, by show cc < 2 ^ 31; omega, by simpa using k2, hf1, ?_⟩
          simp [all, b]
        · rw [if_neg d]
          simp only [store]
          rw [a, if_pos (by rw [g3]; simpa using d)]
          refine .inr ⟨_, rfl, g2.trans hfd, by show 0 < s1.cap; omega, by show s1.cap < 2 ^ 31; omega, by show (([] : Bytes) ++ bs).length ≤ s1.cap; simp; omega, hf1, ?_⟩
          simp [all, b]
      · exact absurd b hf
  · rw [if_neg (by simp [c])]
    simp only [Res.bind]
    rw [Nat.mod_eq_of_lt (by omega : s.buf.length + bs.length < 2 ^ 32), if_neg c]
    simp only [store]
    rw [if_pos (by omega)]
    exact .inr ⟨_, rfl, hfd, h0, hc, by simpa using Nat.le_of_not_lt c, hf, by simp [all]⟩

theorem stream_run : ∀ (ws : List Bytes), (∀ w ∈ ws, w.length ≤ 2 ^ 30) → ∀ s : Kv, s.fd = true → 0 < s.cap → s.cap < 2 ^ 31 →
    s.buf.length ≤ s.cap → Wr.fail ∉ s.env →
    run (ws.map Op.write) s = .wait ∨ ∃ s', run (ws.map Op.write) s = .ok s' ∧ s'.cap < 2 ^ 31 ∧ s'.buf.length ≤ s'.cap ∧ all s' = all s ++ ws.flatten
  | [], _, s, _, _, hc, hl, _ => .inr ⟨s, rfl, hc, hl, by simp⟩
  | w :: ws, hw, s, hfd, h0, hc, hl, hf => by
    simp only [List.map_cons, run, step]
    rcases kvwrite_stream hfd h0 hc hl hf (hw w (by simp)) with h | ⟨s1, h, a, b, c, d, e, f⟩
    · rw [h]; exact .inl rfl
    · rw [h]
      simp only [Res.bind]
      rcases stream_run ws (fun w' hw' => hw w' (by simp [hw'])) s1 a b c d e with h | ⟨s2, h, p, q, r⟩
      · exact .inl h
      · exact .inr ⟨s2, h, p, q, by rw [r, f]; simp⟩

/-- A stream of any number of whole writes to a file, each of at most 2^30 bytes, never loops or leaves the buffer, and
the buffer stays below 2^31 bytes. -/
theorem stream (ws : List Bytes) (hw : ∀ w ∈ ws, w.length ≤ 2 ^ 30) (buflen : Nat) (h0 : 0 < buflen) (h1 : buflen < 2 ^ 31)
    (env : List Wr) (hf : Wr.fail ∉ env) :
    run (ws.map Op.write) (newKvout true buflen env) = .wait ∨
    ∃ s, run (ws.map Op.write) (newKvout true buflen env) = .ok s ∧ s.cap < 2 ^ 31 ∧ s.buf.length ≤ s.cap ∧ s.sent ++ s.buf = ws.flatten := by
  rcases stream_run ws hw (newKvout true buflen env) rfl h0 h1 (by simp [newKvout]) hf with h | ⟨s, a, b, c, d⟩
  · exact .inl h
  · exact .inr ⟨s, a, b, c, by simpa [all, newKvout] using d⟩

/-! ### Limits -/

theorem fill {bs : Bytes} (hb : bs.length = 2 ^ 31) : kvwrite newBufkvout bs = .ok ⟨false, 2 ^ 31, bs, [], []⟩ := by
  unfold kvwrite newBufkvout
  simp only [List.length_nil, hb, Bool.and_false, Bool.false_eq_true, if_false, Res.bind, grow]
  rw [if_pos (by decide)]
  rw [show growLoop (if (0 + 2 ^ 31) % 2 ^ 32 = 0 then (256 + 1) % 2 ^ 32 else (0 + 2 ^ 31) % 2 ^ 32) 256 32 = .ok (2 ^ 31) by decide +kernel]
  simp only [store, List.nil_append, List.length_nil, hb]
  rw [if_pos (by omega)]

/-- One byte more than 2^31 in a buffer without file and `grow` never returns. -/
theorem full_append_hangs (bs : Bytes) (hb : bs.length = 2 ^ 31) (c : UInt8) : run [.write bs, .append c] newBufkvout = .hang := by
  simp only [run, step]
  rw [fill hb]
  simp only [Res.bind, append, hb, if_true, grow, Bool.false_eq_true, if_false]
  rw [show growLoop ((2 ^ 31 + 1) % 2 ^ 32) (2 ^ 31) 32 = .hang by decide +kernel]

/-- The loop really does not end there. -/
theorem full_append_loops (k : Nat) : doubled (2 ^ 31) k < 2 ^ 31 + 1 :=
  (growLoop_hang (by decide)).mp (show growLoop (2 ^ 31 + 1) (2 ^ 31) 32 = .hang by decide +kernel) k

/-- Two writes of 2^31 bytes: the sum of the lengths wraps to 0, no room is made, and the second write leaves the buffer. -/
theorem huge_write_overruns (bs : Bytes) (hb : bs.length = 2 ^ 31) : run [.write bs, .write bs] newBufkvout = .ub := by
  have h2 : kvwrite ⟨false, 2 ^ 31, bs, [], []⟩ bs = .ub := by
    have e : ¬ ((bs.length + bs.length) % 2 ^ 32 > 2 ^ 31) := by rw [hb]; omega
    simp only [kvwrite, Bool.and_false, Bool.false_eq_true, if_false, Res.bind]
    rw [if_neg e]
    simp only [store]
    rw [if_neg (by omega)]
  simp only [run, step]
  rw [fill hb]
  simp only [Res.bind]
  rw [h2]

/-- A buffer created with size 0 loops on the first byte. -/
theorem zero_capacity_hangs (env : List Wr) (c : UInt8) : run [.append c] (newKvout true 0 env) = .hang := by
  simp only [run, step, append, newKvout, List.length_nil, if_true, grow, flush]
  cases env <;> simp only [flushLoop, Res.bind, if_true] <;>
  rw [show growLoop ((0 + 1) % 2 ^ 32) 0 32 = .hang by decide +kernel]

/-- Single bytes written to a file double the buffer each time it is full, although it has just been emptied. -/
theorem append_doubles (s : Kv) (hfd : s.fd = true) (h0 : 0 < s.cap) (hc : s.cap < 2 ^ 31) (hl : s.buf.length = s.cap) (c : UInt8)
    {s' : Kv} (h : append s c = .ok s') : s'.cap = 2 * s.cap := by
  unfold append grow at h
  rw [if_pos hl, if_pos hfd] at h
  rcases flush_spec s with g | ⟨s1, g1, _, g3, _⟩
  · rw [g] at h; cases h
  · rw [g1] at h
    simp only [Res.bind, if_true, g3] at h
    have e : growLoop ((s.cap + 1) % 2 ^ 32) s.cap 32 = .ok (2 * s.cap) := by
      have e2 : growLoop (s.cap + 1) (s.cap * 2 % 2 ^ 32) 31 = .ok (2 * s.cap) := by
        rw [Nat.mod_eq_of_lt (by omega), growLoop, if_neg (by omega), Nat.mul_comm]
      rw [Nat.mod_eq_of_lt (by omega), growLoop, if_pos (by omega), e2]
    rw [e] at h
    simp only [store] at h
    split at h
    · cases h; rfl
    · cases h

/-- After a failed `write` the file gets the bytes that were sent before the failure again with the next flush. -/
theorem failure_repeats :
    run [.write [1, 2, 3], .flush, .flush] (newKvout true 8 [.took 2, .fail, .took 3]) = .ok ⟨true, 8, [], [1, 2, 1, 2, 3], []⟩ := by
  decide +kernel

/-! ### Concrete cases -/

/-- The hypotheses of `buffered` hold of a buffer that has to grow. -/
example : (∀ o ∈ [Op.write (List.replicate 200 1), .reserve 90 [2, 3], .append 4], o.Valid false) ∧
    ∃ s, run [.write (List.replicate 200 1), .reserve 90 [2, 3], .append 4] newBufkvout = .ok s ∧ s.cap = 512 ∧ s.buf.length = 203 := by
  refine ⟨?_, ?_⟩
  · intro o ho
    simp only [List.mem_cons, List.not_mem_nil, or_false] at ho
    rcases ho with rfl | rfl | rfl
    · trivial
    · exact ⟨by decide, by decide⟩
    · trivial
  · exact ⟨⟨false, 512, List.replicate 200 1 ++ [2, 3] ++ [4], [], []⟩, by decide +kernel, rfl, by decide +kernel⟩

/-- The hypotheses of `filed`, `flushed` and `stream` hold of a file that takes one, no and many bytes. -/
example : Wr.fail ∉ [Wr.took 1, .again, .took 9, .took 2] ∧
    run [.write [1, 2, 3], .write [4, 5], .flush] (newKvout true 4 [.took 1, .again, .took 9, .took 2]) = .ok ⟨true, 4, [], [1, 2, 3, 4, 5], []⟩ := by
  decide +kernel

end Verif.Props.C41
