import Verif.File.Model

/-!
# C74: Files are read and written whole, in whatever pieces the system moves them
-/
namespace Verif.Props.C74
open Verif.File

theorem moved_spec (n : Nat) (bs : Bytes) (h : bs ≠ []) :
    ∃ k, 1 ≤ k ∧ k ≤ bs.length ∧ moved n bs = bs.take k ∧ (moved n bs).length = k := by
  have : 0 < bs.length := List.length_pos_iff.2 h
  refine ⟨min (max n 1) bs.length, by omega, by omega, ?_, ?_⟩
  · unfold moved
    rcases Nat.le_total (max n 1) bs.length with h | h
    · rw [Nat.min_eq_left h]
    · rw [Nat.min_eq_right h, List.take_length, List.take_of_length_le h]
  · unfold moved; rw [List.length_take]

theorem take_ne_nil {bs : Bytes} {n : Nat} (h0 : 0 < n) (h : 0 < bs.length) : bs.take n ≠ [] := by
  intro e
  have := congrArg List.length e
  rw [List.length_take] at this
  simp only [List.length_nil] at this
  omega

/-- A system that only moves bytes and interrupts. -/
def Willing (as : List Answer) : Prop :=
  ∀ a ∈ as, (∃ n, a = .took n) ∨ a = .fail EINTR

/-- What is known when the loop of `safe_write` ends. -/
theorem writeLoop_spec : ∀ (as : List Answer) (buf : Bytes) (count pos errno : Nat) (w : Written),
    pos ≤ count → count - pos ≤ buf.length → writeLoop as buf count pos errno = some w →
    (w.ret = -1 ∧ w.out = [] ∧ pos = 0 ∧ 0 < count ∧ w.errno ≠ EINTR ∧ .fail w.errno ∈ as) ∨
    ∃ k, w.ret = ((pos + k : Nat) : Int) ∧ w.out = buf.take k ∧ pos + k ≤ count ∧
      (pos + k < count →
        .zero ∈ as ∨ (0 < pos + k ∧ w.errno ≠ EINTR ∧ .fail w.errno ∈ as)) := by
  intro as
  induction as with
  | nil =>
    intro buf count pos errno w hp hb h
    unfold writeLoop at h
    split at h
    · cases h; exact .inr ⟨0, by simp, by simp, by omega, by omega⟩
    · cases h
  | cons a as ih =>
    intro buf count pos errno w hp hb h
    unfold writeLoop at h
    split at h
    · cases h; exact .inr ⟨0, by simp, by simp, by omega, by omega⟩
    · next hne =>
      cases a with
      | took n =>
        simp only at h
        obtain ⟨k, k1, k2, k3, k4⟩ := moved_spec n (buf.take (count - pos))
          (take_ne_nil (by omega) (by omega))
        rw [List.length_take] at k2
        rw [k4, k3, List.take_take, Nat.min_eq_left (by omega)] at h
        cases h1 : writeLoop as (buf.drop k) count (pos + k) errno with
        | none => rw [h1] at h; cases h
        | some w' =>
          rw [h1] at h
          cases h
          rcases ih (buf.drop k) count (pos + k) errno w' (by omega)
            (by rw [List.length_drop]; omega) h1 with ⟨_, _, h3, _⟩ | ⟨j, j1, j2, j3, j4⟩
          · omega
          · refine .inr ⟨k + j, ?_, ?_, by omega, ?_⟩
            · simp only [j1]; omega
            · simp only [j2]; rw [List.take_add]
            · intro hlt
              rcases j4 (by omega) with h | ⟨h, h2, h3⟩
              · exact .inl (List.mem_cons_of_mem _ h)
              · exact .inr ⟨by omega, h2, List.mem_cons_of_mem _ h3⟩
      | zero =>
        cases h
        exact .inr ⟨0, by simp, by simp, by omega, fun _ => .inl (List.mem_cons_self ..)⟩
      | fail e =>
        simp only at h
        split at h
        · next he =>
          cases h
          exact .inl ⟨rfl, rfl, he.2, by omega, he.1, List.mem_cons_self ..⟩
        · split at h
          · next hn he =>
            cases h
            refine .inr ⟨0, by simp, by simp, by omega, fun _ => .inr ⟨?_, he, List.mem_cons_self ..⟩⟩
            rcases Nat.eq_zero_or_pos pos with h0 | h0
            · exact absurd ⟨he, h0⟩ hn
            · omega
          · rcases ih buf count pos e w hp hb h with ⟨h1, h2, h3, h4, h5, h6⟩ | ⟨j, j1, j2, j3, j4⟩
            · exact .inl ⟨h1, h2, h3, h4, h5, List.mem_cons_of_mem _ h6⟩
            · refine .inr ⟨j, j1, j2, j3, fun hlt => ?_⟩
              rcases j4 hlt with h | ⟨h, h2, h3⟩
              · exact .inl (List.mem_cons_of_mem _ h)
              · exact .inr ⟨h, h2, List.mem_cons_of_mem _ h3⟩

/-- `safe_write`: when it returns, either nothing was written, the result is -1, and a call failed
with the error now in `errno`; or the result is the number of bytes written, these are the first
bytes of the buffer in order and each once, and if they are not all, then a call returned 0 or
failed with the error now in `errno`.  An interruption is never the reason. -/
theorem safe_write (as : List Answer) (buf : Bytes) (count errno : Nat) (w : Written)
    (hb : count ≤ buf.length) (h : safeWrite as buf count errno = some w) :
    (w.ret = -1 ∧ w.out = [] ∧ 0 < count ∧ w.errno ≠ EINTR ∧ .fail w.errno ∈ as) ∨
    ∃ k : Nat, w.ret = k ∧ k ≤ count ∧ w.out = buf.take k ∧
      (k < count → .zero ∈ as ∨ (0 < k ∧ w.errno ≠ EINTR ∧ .fail w.errno ∈ as)) := by
  rcases writeLoop_spec as buf count 0 errno w (by omega) (by omega) h with
    ⟨h1, h2, _, h4, h5, h6⟩ | ⟨k, k1, k2, k3, k4⟩
  · exact .inl ⟨h1, h2, h4, h5, h6⟩
  · rw [Nat.zero_add] at k1 k3 k4
    exact .inr ⟨k, k1, k3, k2, k4⟩

example : safeWrite [.took 2, .fail EINTR, .took 1, .fail 28] [1, 2, 3, 4, 5] 4 0 =
    some ⟨3, [1, 2, 3], 28⟩ := by decide +kernel

example : safeWrite [.fail EINTR, .fail 28] [1, 2] 2 0 = some ⟨-1, [], 28⟩ := by decide +kernel

theorem writeLoop_finishes : ∀ (as : List Answer) (buf : Bytes) (count pos errno : Nat),
    pos ≤ count → count - pos ≤ buf.length → Willing as →
    count - pos ≤ as.countP (· ≠ .fail EINTR) →
    ∃ w, writeLoop as buf count pos errno = some w := by
  intro as
  induction as with
  | nil =>
    intro buf count pos errno hp hb hw hc
    rw [List.countP_nil] at hc
    unfold writeLoop
    rw [if_pos (by omega)]
    exact ⟨_, rfl⟩
  | cons a as ih =>
    intro buf count pos errno hp hb hw hc
    have hw' : Willing as := fun b hb => hw b (List.mem_cons_of_mem _ hb)
    unfold writeLoop
    split
    · exact ⟨_, rfl⟩
    · next hne =>
      rcases hw a (List.mem_cons_self ..) with ⟨n, rfl⟩ | rfl
      · simp only
        obtain ⟨k, k1, k2, k3, k4⟩ := moved_spec n (buf.take (count - pos))
          (take_ne_nil (by omega) (by omega))
        rw [List.length_take] at k2
        rw [k4]
        rw [List.countP_cons_of_pos (by simp)] at hc
        obtain ⟨w, hw⟩ := ih (buf.drop k) count (pos + k) errno (by omega)
          (by rw [List.length_drop]; omega) hw' (by omega)
        rw [hw]
        exact ⟨_, rfl⟩
      · rw [List.countP_cons_of_neg (by simp)] at hc
        simp only [ne_eq, not_true_eq_false, false_and, if_false]
        exact ih buf count pos EINTR hp hb hw' hc

/-- If the system only moves bytes, few or many at a time, and interrupts, then `safe_write` returns
after at most as many calls that move something as there are bytes, and everything was written. -/
theorem write_completes (as : List Answer) (buf : Bytes) (count errno : Nat)
    (hb : count ≤ buf.length) (hw : Willing as) (hc : count ≤ as.countP (· ≠ .fail EINTR)) :
    ∃ w, safeWrite as buf count errno = some w ∧ w.ret = count ∧ w.out = buf.take count := by
  obtain ⟨w, h⟩ := writeLoop_finishes as buf count 0 errno (by omega) (by omega) hw (by omega)
  refine ⟨w, h, ?_⟩
  have hz : Answer.zero ∉ as := fun hm => by
    rcases hw _ hm with ⟨n, h⟩ | h <;> cases h
  have hf : ∀ e, e ≠ EINTR → Answer.fail e ∉ as := fun e he hm => by
    rcases hw _ hm with ⟨n, h⟩ | h
    · cases h
    · cases h; exact he rfl
  rcases safe_write as buf count errno w hb h with ⟨_, _, _, h4, h5⟩ | ⟨k, k1, k2, k3, k4⟩
  · exact absurd h5 (hf _ h4)
  · have : k = count := by
      rcases Nat.lt_or_ge k count with hlt | hge
      · rcases k4 hlt with h | ⟨_, h1, h2⟩
        · exact absurd h hz
        · exact absurd h2 (hf _ h1)
      · omega
    subst this
    exact ⟨k1, k3⟩

example : Willing [.took 1, .fail EINTR, .took 0, .took 7] ∧
    3 ≤ [Answer.took 1, .fail EINTR, .took 0, .took 7].countP (· ≠ .fail EINTR) := by
  refine ⟨?_, by decide⟩
  intro a ha
  simp only [List.mem_cons, List.not_mem_nil, or_false] at ha
  rcases ha with rfl | rfl | rfl | rfl
  · exact .inl ⟨_, rfl⟩
  · exact .inr rfl
  · exact .inl ⟨_, rfl⟩
  · exact .inl ⟨_, rfl⟩

/-- `checked_write` only returns when everything was written. -/
theorem checked_write (as : List Answer) (buf : Bytes) (count errno : Nat) (out : Bytes)
    (hb : count ≤ buf.length) (h : checkedWrite as buf count errno = some (some out)) :
    out = buf.take count := by
  unfold checkedWrite at h
  cases h1 : safeWrite as buf count errno with
  | none => rw [h1] at h; cases h
  | some w =>
    rw [h1] at h
    simp only [Option.map_some, Option.some.injEq] at h
    split at h
    · next hr =>
      cases h
      rcases safe_write as buf count errno w hb h1 with ⟨h2, _⟩ | ⟨k, k1, _, k3, _⟩
      · rw [h2] at hr; omega
      · rw [k1] at hr
        have : k = count := by omega
        rw [k3, this]
    · cases h

example : checkedWrite [.took 1, .took 5] [1, 2, 3] 2 0 = some (some [1, 2]) ∧
    checkedWrite [.took 1, .fail 28] [1, 2, 3] 2 0 = some none := by decide +kernel

theorem put_put (buf : Bytes) (off : Nat) (a b : Bytes) (h : off + a.length ≤ buf.length) :
    put (put buf off a) (off + a.length) b = put buf off (a ++ b) := by
  have hl : (buf.take off ++ a).length = off + a.length := by
    rw [List.length_append, List.length_take, Nat.min_eq_left (by omega)]
  have e1 : (put buf off a).take (off + a.length) = buf.take off ++ a := by
    unfold put; exact List.take_left' hl
  have e2 : (put buf off a).drop (off + a.length + b.length) =
      buf.drop (off + (a ++ b).length) := by
    unfold put
    rw [← List.drop_drop, List.drop_left' hl, List.drop_drop, List.length_append, Nat.add_assoc]
  show (put buf off a).take (off + a.length) ++ b ++
    (put buf off a).drop (off + a.length + b.length) = _
  rw [e1, e2]
  unfold put
  rw [List.append_assoc (buf.take off) a b]

/-- What is known when the loop of `safe_read` ends. -/
theorem readLoop_spec : ∀ (as : List Answer) (buf : Bytes) (off count pos : Nat) (file : Bytes)
    (errno : Nat) (g : Got), pos ≤ count → off + (count - pos) ≤ buf.length →
    readLoop as buf off count pos file errno = some g →
    (g.ret = -1 ∧ g.buf = buf ∧ g.rest = file ∧ pos = 0 ∧ 0 < count ∧ g.errno ≠ EINTR ∧
      .fail g.errno ∈ as) ∨
    ∃ k, k ≤ file.length ∧ g.ret = ((pos + k : Nat) : Int) ∧ g.buf = put buf off (file.take k) ∧
      g.rest = file.drop k ∧ pos + k ≤ count ∧
      (pos + k < count → k = file.length ∨
        .zero ∈ as ∨ (0 < pos + k ∧ g.errno ≠ EINTR ∧ .fail g.errno ∈ as)) := by
  have p0 : ∀ (buf : Bytes) off (file : Bytes), buf = put buf off (file.take 0) := by
    intro buf off file
    unfold put
    simp
  intro as
  induction as with
  | nil =>
    intro buf off count pos file errno g hp hb h
    unfold readLoop at h
    split at h
    · cases h; exact .inr ⟨0, by omega, by simp, p0 .., by simp, by omega, by omega⟩
    · cases h
  | cons a as ih =>
    intro buf off count pos file errno g hp hb h
    unfold readLoop at h
    split at h
    · cases h; exact .inr ⟨0, by omega, by simp, p0 .., by simp, by omega, by omega⟩
    · next hne =>
      cases a with
      | took n =>
        simp only at h
        cases file with
        | nil =>
          have : moved n (List.take (count - pos) ([] : Bytes)) = [] := by simp [moved]
          rw [if_pos this] at h
          cases h
          exact .inr ⟨0, by simp, by simp, p0 .., by simp, by omega, fun _ => .inl rfl⟩
        | cons x xs =>
          generalize hfile : x :: xs = file at *
          have hlen : 0 < file.length := by rw [← hfile]; simp
          obtain ⟨k, k1, k2, k3, k4⟩ := moved_spec n (file.take (count - pos))
            (take_ne_nil (by omega) hlen)
          rw [List.length_take] at k2
          rw [if_neg (by intro e; rw [e] at k4; simp at k4; omega)] at h
          rw [k4, k3, List.take_take, Nat.min_eq_left (by omega)] at h
          have hk : (file.take k).length = k := by rw [List.length_take]; omega
          have hput : (put buf off (file.take k)).length = buf.length := by
            unfold put
            rw [List.length_append, List.length_append, List.length_take, List.length_drop, hk]
            omega
          rcases ih _ (off + k) count (pos + k) (file.drop k) errno g (by omega)
            (by rw [hput]; omega) h with ⟨_, _, _, h3, _⟩ | ⟨j, j0, j1, j2, j3, j4, j5⟩
          · omega
          · rw [List.length_drop] at j0 j5
            refine .inr ⟨k + j, by omega, by rw [j1]; omega, ?_, ?_, by omega, ?_⟩
            · have := put_put buf off (file.take k) ((file.drop k).take j) (by omega)
              rw [hk] at this
              rw [j2, this, List.take_add]
            · rw [j3, List.drop_drop]
            · intro hlt
              rcases j5 (by omega) with h | h | ⟨h, h2, h3⟩
              · exact .inl (by omega)
              · exact .inr (.inl (List.mem_cons_of_mem _ h))
              · exact .inr (.inr ⟨by omega, h2, List.mem_cons_of_mem _ h3⟩)
      | zero =>
        cases h
        exact .inr ⟨0, by omega, by simp, p0 .., by simp, by omega,
          fun _ => .inr (.inl (List.mem_cons_self ..))⟩
      | fail e =>
        simp only at h
        split at h
        · next he =>
          cases h
          exact .inl ⟨rfl, rfl, rfl, he.2, by omega, he.1, List.mem_cons_self ..⟩
        · split at h
          · next hn he =>
            cases h
            refine .inr ⟨0, by omega, by simp, p0 .., by simp, by omega,
              fun _ => .inr (.inr ⟨?_, he, List.mem_cons_self ..⟩)⟩
            rcases Nat.eq_zero_or_pos pos with h0 | h0
            · exact absurd ⟨he, h0⟩ hn
            · omega
          · rcases ih buf off count pos file e g hp hb h with
              ⟨h1, h2, h3, h4, h5, h6, h7⟩ | ⟨j, j0, j1, j2, j3, j4, j5⟩
            · exact .inl ⟨h1, h2, h3, h4, h5, h6, List.mem_cons_of_mem _ h7⟩
            · refine .inr ⟨j, j0, j1, j2, j3, j4, fun hlt => ?_⟩
              rcases j5 hlt with h | h | ⟨h, h2, h3⟩
              · exact .inl h
              · exact .inr (.inl (List.mem_cons_of_mem _ h))
              · exact .inr (.inr ⟨h, h2, List.mem_cons_of_mem _ h3⟩)

/-- `safe_read`: when it returns, either nothing was read, the result is -1, and a call failed with
the error now in `errno`; or the result is the number of bytes read, the buffer begins with that many
first bytes of the file and is otherwise untouched, the file goes on after them, and if there are
fewer than asked for, then the file has no more, or a call returned 0 or failed with the error now
in `errno`.  An interruption is never the reason. -/
theorem safe_read (as : List Answer) (buf : Bytes) (count : Nat) (file : Bytes) (errno : Nat)
    (g : Got) (hb : count ≤ buf.length) (h : safeRead as buf count file errno = some g) :
    (g.ret = -1 ∧ g.buf = buf ∧ g.rest = file ∧ 0 < count ∧ g.errno ≠ EINTR ∧
      .fail g.errno ∈ as) ∨
    ∃ k : Nat, g.ret = k ∧ k ≤ count ∧ k ≤ file.length ∧ g.buf = file.take k ++ buf.drop k ∧
      g.rest = file.drop k ∧
      (k < count → k = file.length ∨
        .zero ∈ as ∨ (0 < k ∧ g.errno ≠ EINTR ∧ .fail g.errno ∈ as)) := by
  rcases readLoop_spec as buf 0 count 0 file errno g (by omega) (by omega) h with
    ⟨h1, h2, h3, _, h5, h6, h7⟩ | ⟨k, k0, k1, k2, k3, k4, k5⟩
  · exact .inl ⟨h1, h2, h3, h5, h6, h7⟩
  · rw [Nat.zero_add] at k1 k4 k5
    refine .inr ⟨k, k1, k4, k0, ?_, k3, k5⟩
    rw [k2]
    unfold put
    rw [List.take_zero, List.nil_append, Nat.zero_add, List.length_take, Nat.min_eq_left k0]

example : safeRead [.took 2, .fail EINTR, .took 9] [0, 0, 0, 0, 7] 4 [1, 2, 3, 4, 5, 6] 0 =
    some ⟨4, [1, 2, 3, 4, 7], [5, 6], EINTR⟩ := by decide +kernel

example : safeRead [.took 2, .took 3, .zero] [0, 0, 0, 0] 4 [1, 2, 3] 0 =
    some ⟨3, [1, 2, 3, 0], [], 0⟩ := by decide +kernel

theorem readContents_spec : ∀ (as : List Answer) (sa file s : Bytes) (e : Nat),
    readContents as sa file = some (s, e) →
    (e = 0 ∧ ∃ k, k ≤ file.length ∧ s = sa ++ file.take k ∧ (.zero ∉ as → k = file.length)) ∨
    (s = [] ∧ e ≠ EINTR ∧ .fail e ∈ as) := by
  intro as
  induction as with
  | nil => intro sa file s e h; cases h
  | cons a as ih =>
    intro sa file s e h
    unfold readContents at h
    cases a with
    | took n =>
      simp only at h
      cases file with
      | nil =>
        have : moved n (List.take 4096 ([] : Bytes)) = [] := by simp [moved]
        rw [if_pos this] at h
        cases h
        exact .inl ⟨rfl, 0, by simp, by simp, fun _ => rfl⟩
      | cons x xs =>
        generalize hfile : x :: xs = file at *
        have hlen : 0 < file.length := by rw [← hfile]; simp
        obtain ⟨k, k1, k2, k3, k4⟩ := moved_spec n (file.take 4096) (take_ne_nil (by omega) hlen)
        rw [List.length_take] at k2
        rw [if_neg (by intro e; rw [e] at k4; simp at k4; omega)] at h
        rw [k4, k3, List.take_take, Nat.min_eq_left (by omega)] at h
        rcases ih _ _ _ _ h with ⟨h1, j, h2, h3, h4⟩ | ⟨h1, h2, h3⟩
        · rw [List.length_drop] at h2 h4
          refine .inl ⟨h1, k + j, by omega, ?_, fun hz => ?_⟩
          · rw [h3, List.take_add, List.append_assoc]
          · have := h4 (fun hm => hz (List.mem_cons_of_mem _ hm))
            omega
        · exact .inr ⟨h1, h2, List.mem_cons_of_mem _ h3⟩
    | zero =>
      cases h
      exact .inl ⟨rfl, 0, by omega, by simp, fun hz => absurd (List.mem_cons_self ..) hz⟩
    | fail e' =>
      simp only at h
      split at h
      · next he => cases h; exact .inr ⟨rfl, he, List.mem_cons_self ..⟩
      · rcases ih _ _ _ _ h with ⟨h1, j, h2, h3, h4⟩ | ⟨h1, h2, h3⟩
        · exact .inl ⟨h1, j, h2, h3, fun hz => h4 (fun hm => hz (List.mem_cons_of_mem _ hm))⟩
        · exact .inr ⟨h1, h2, List.mem_cons_of_mem _ h3⟩

/-- `read_file_contents(fd)`: when it returns, either `errno` is 0 and the text is the whole file, or
a call failed, the text is empty, and `errno` is that error.  Part of a file is never returned.
(A call returns 0 at the end of the file only.) -/
theorem read_contents (as : List Answer) (file s : Bytes) (e : Nat) (hz : .zero ∉ as)
    (h : readContents as [] file = some (s, e)) :
    (e = 0 ∧ s = file) ∨ (s = [] ∧ e ≠ EINTR ∧ .fail e ∈ as) := by
  rcases readContents_spec as [] file s e h with ⟨h1, k, h2, h3, h4⟩ | h
  · refine .inl ⟨h1, ?_⟩
    rw [h3, h4 hz, List.take_length, List.nil_append]
  · exact .inr h

example : readContents [.took 1, .fail EINTR, .took 9, .took 9] [] [1, 2, 3] = some ([1, 2, 3], 0) ∧
    readContents [.took 1, .fail 5] [] [1, 2, 3] = some ([], 5) := by decide +kernel

theorem readContents_finishes : ∀ (as : List Answer) (sa file : Bytes), Willing as →
    file.length < as.countP (· ≠ .fail EINTR) → readContents as sa file = some (sa ++ file, 0) := by
  intro as
  induction as with
  | nil => intro sa file _ hc; rw [List.countP_nil] at hc; omega
  | cons a as ih =>
    intro sa file hw hc
    have hw' : Willing as := fun b hb => hw b (List.mem_cons_of_mem _ hb)
    unfold readContents
    rcases hw a (List.mem_cons_self ..) with ⟨n, rfl⟩ | rfl
    · simp only
      rw [List.countP_cons_of_pos (by simp)] at hc
      cases file with
      | nil =>
        have : moved n (List.take 4096 ([] : Bytes)) = [] := by simp [moved]
        rw [if_pos this, List.append_nil]
      | cons x xs =>
        generalize hfile : x :: xs = file at *
        have hlen : 0 < file.length := by rw [← hfile]; simp
        obtain ⟨k, k1, k2, k3, k4⟩ := moved_spec n (file.take 4096) (take_ne_nil (by omega) hlen)
        rw [List.length_take] at k2
        rw [if_neg (by intro e; rw [e] at k4; simp at k4; omega)]
        rw [k4, k3, List.take_take, Nat.min_eq_left (by omega),
          ih _ _ hw' (by rw [List.length_drop]; omega), List.append_assoc, List.take_append_drop]
    · rw [List.countP_cons_of_neg (by simp)] at hc
      simp only [ne_eq, not_true_eq_false, if_false]
      exact ih sa file hw' hc

/-- If the system only moves bytes, few or many at a time, and interrupts, then
`read_file_contents(fd)` returns the whole file, after at most one call that is not interrupted for
each byte and one more. -/
theorem read_completes (as : List Answer) (file : Bytes) (hw : Willing as)
    (hc : file.length < as.countP (· ≠ .fail EINTR)) : readContents as [] file = some (file, 0) :=
  readContents_finishes as [] file hw hc

/-- An empty text can be an empty file or a failed call, and only `errno` tells: a reader that does
not look at it takes a file that cannot be read for an empty one. -/
theorem error_looks_empty (file : Bytes) (e : Nat) (he : e ≠ EINTR) :
    readContents [.fail e] [] file = some ([], e) ∧ readContents [.zero] [] [] = some ([], 0) := by
  refine ⟨?_, rfl⟩
  unfold readContents
  rw [if_pos he]

/-- `read_file_contents(filename)`: the descriptor is closed exactly if it was opened, and the text
is the whole file or, with the error of the call that failed in `errno`, empty. -/
theorem read_file (sys : Sys) (as : List Answer) (fs : Files) (f : Name) (s : Bytes)
    (e o c : Nat) (hz : .zero ∉ as) (h0 : .fail 0 ∉ as)
    (h : readFile sys as fs f = some (s, e, o, c)) :
    o = c ∧
    ((fs f = some s ∧ sys.opened = none ∧ o = 1 ∧ e = sys.closed.getD 0) ∨
     (s = [] ∧ (sys.opened = some e ∨ (sys.opened = none ∧ fs f = none ∧ e = 2) ∨
       (e ≠ EINTR ∧ .fail e ∈ as ∧ o = 1)))) := by
  unfold readFile at h
  cases h1 : sys.opened with
  | some e' => rw [h1] at h; cases h; exact ⟨rfl, .inr ⟨rfl, .inl rfl⟩⟩
  | none =>
    rw [h1] at h
    simp only at h
    cases h2 : fs f with
    | none => rw [h2] at h; cases h; exact ⟨rfl, .inr ⟨rfl, .inr (.inl ⟨rfl, rfl, rfl⟩)⟩⟩
    | some c =>
      rw [h2] at h
      simp only at h
      cases h3 : readContents as [] c with
      | none => rw [h3] at h; cases h
      | some p =>
        obtain ⟨s', e'⟩ := p
        rw [h3] at h
        simp only at h
        rcases read_contents as c s' e' hz h3 with ⟨h4, h5⟩ | ⟨h4, h5, h6⟩
        · rw [if_neg (by rintro ⟨_, h⟩; exact h h4)] at h
          cases h
          subst h4 h5
          exact ⟨rfl, .inl ⟨rfl, rfl, rfl, rfl⟩⟩
        · have he : e' ≠ 0 := by rintro rfl; exact h0 h6
          rw [if_pos ⟨h4, he⟩] at h
          cases h
          exact ⟨rfl, .inr ⟨h4, .inr (.inr ⟨h5, h6, rfl⟩)⟩⟩

example : readFile {} [.took 2, .took 2, .took 1] (fun _ => some [1, 2, 3]) [97] =
    some ([1, 2, 3], 0, 1, 1) ∧
    readFile {closed := some 9} [.took 2, .fail 5] (fun _ => some [1, 2, 3]) [97] =
    some ([], 5, 1, 1) := by decide +kernel

/-- `sync_write_file_contents`: no other file changes, and the descriptor is closed exactly once if
it was opened.  The result is 0 exactly if nothing failed, and then the file has the contents and was
synced; else it is -1. -/
theorem sync_write (sys : Sys) (fs : Files) (f : Name) (contents : Bytes) (errno : Nat) (o : Outcome)
    (h : syncWrite sys fs f contents errno = some o) :
    o.opens = o.closes ∧ o.opens = (if sys.opened = none then 1 else 0) ∧
    (∀ g, g ≠ f → o.files g = fs g) ∧
    (o.ret = 0 ∨ o.ret = -1) ∧
    (o.ret = 0 → o.files f = some contents ∧ o.synced = true) ∧
    (o.ret = 0 ↔ sys.opened = none ∧ o.files f = some contents ∧ sys.fsync = none ∧
      sys.closed = none ∧ o.synced = true) ∧
    (∃ k, sys.opened = none → o.files f = some (contents.take k)) ∧
    (sys.opened ≠ none → o.files = fs) := by
  unfold syncWrite at h
  have hset : ∀ c g, g ≠ f → Files.set fs f c g = fs g := by
    intro c g hg; unfold Files.set; rw [if_neg hg]
  have hat : ∀ c, Files.set fs f c f = c := by
    intro c; unfold Files.set; rw [if_pos rfl]
  cases h1 : sys.opened with
  | some e =>
    rw [h1] at h; cases h
    refine ⟨rfl, by simp, fun _ _ => rfl, .inr rfl, by simp, by simp, ⟨0, by simp⟩, fun _ => rfl⟩
  | none =>
    rw [h1] at h
    simp only at h
    cases h2 : safeWrite sys.writes contents contents.length errno with
    | none => rw [h2] at h; cases h
    | some w =>
      rw [h2] at h
      simp only at h
      have hw := safe_write _ _ _ _ _ (Nat.le_refl _) h2
      have hk : ∃ k, w.out = contents.take k := by
        rcases hw with ⟨_, h, _⟩ | ⟨k, _, _, h, _⟩
        · exact ⟨0, by rw [h, List.take_zero]⟩
        · exact ⟨k, h⟩
      obtain ⟨k, hk⟩ := hk
      by_cases hr : w.ret = (contents.length : Int)
      · have hall : w.out = contents := by
          rcases hw with ⟨h, _⟩ | ⟨k, k1, _, k3, _⟩
          · rw [h] at hr; omega
          · have : k = contents.length := by omega
            rw [k3, this, List.take_length]
        rw [if_neg (by simpa using hr)] at h
        cases h3 : sys.fsync with
        | some e =>
          rw [h3] at h; cases h
          exact ⟨rfl, by simp, hset _, .inr rfl, by simp, by simp, ⟨k, fun _ => (hat _).trans (by rw [hk])⟩, by simp⟩
        | none =>
          rw [h3] at h
          simp only at h
          cases h4 : sys.closed with
          | some e =>
            rw [h4] at h; cases h
            exact ⟨rfl, by simp, hset _, .inr rfl, by simp, by simp, ⟨k, fun _ => (hat _).trans (by rw [hk])⟩, by simp⟩
          | none =>
            rw [h4] at h; cases h
            refine ⟨rfl, by simp, hset _, .inl rfl, fun _ => ⟨(hat _).trans (by rw [hall]), rfl⟩, ?_,
              ⟨k, fun _ => (hat _).trans (by rw [hk])⟩, by simp⟩
            simp [hat, hall]
      · rw [if_pos (by simpa using hr)] at h
        cases h
        exact ⟨rfl, by simp, hset _, .inr rfl, by simp, by simp, ⟨k, fun _ => (hat _).trans (by rw [hk])⟩, by simp⟩

theorem tmp_ne (f : Name) : tmpName f ≠ f := by
  intro h
  have := congrArg List.length h
  unfold tmpName at this
  rw [List.length_append] at this
  simp at this

/-- `atomic_write_file_contents`: if the result is 0, the file has the contents, and the temporary
file is gone; otherwise the result is -1 and the file is as it was.  Files other than it and the
temporary one are not touched, and no descriptor stays open. -/
theorem atomic_write (sys : Sys) (fs : Files) (f : Name) (contents : Bytes) (errno : Nat)
    (o : Outcome) (h : atomicWrite sys fs f contents errno = some o) :
    o.opens = o.closes ∧
    (∀ g, g ≠ f → g ≠ tmpName f → o.files g = fs g) ∧
    ((o.ret = 0 ∧ o.files f = some contents ∧ o.files (tmpName f) = none ∧ o.synced = true) ∨
     (o.ret = -1 ∧ o.files f = fs f)) := by
  unfold atomicWrite at h
  cases h1 : syncWrite sys fs (tmpName f) contents errno with
  | none => rw [h1] at h; cases h
  | some o' =>
    rw [h1] at h
    simp only at h
    obtain ⟨a1, _, a3, _, a5, _, _, _⟩ := sync_write _ _ _ _ _ _ h1
    by_cases hr : o'.ret = 0
    · rw [if_neg (by simpa using hr)] at h
      obtain ⟨b1, b2⟩ := a5 hr
      cases h2 : sys.rename with
      | some e =>
        rw [h2] at h; cases h
        exact ⟨a1, fun g _ hg => a3 g hg, .inr ⟨rfl, a3 f (tmp_ne f).symm⟩⟩
      | none =>
        rw [h2] at h; cases h
        refine ⟨a1, fun g hg hg' => ?_, .inl ⟨rfl, ?_, ?_, b2⟩⟩
        · simp only [Files.set]
          rw [if_neg hg', if_neg hg]; exact a3 g hg'
        · simp only [Files.set]
          rw [if_neg (tmp_ne f).symm]; simpa using b1
        · simp only [Files.set, if_true]
    · rw [if_pos (by simpa using hr)] at h
      cases h
      exact ⟨a1, fun g _ hg => a3 g hg, .inr ⟨rfl, a3 f (tmp_ne f).symm⟩⟩

/-- What `atomic_write_file_contents` reported as written is what `read_file_contents` then reads, in
whatever pieces either moves. -/
theorem write_read (sys sys' : Sys) (as : List Answer) (fs : Files) (f : Name) (contents : Bytes)
    (errno : Nat) (o : Outcome) (h : atomicWrite sys fs f contents errno = some o) (hr : o.ret = 0)
    (ho : sys'.opened = none) (hc : sys'.closed = none) (hw : Willing as)
    (hn : contents.length < as.countP (· ≠ .fail EINTR)) :
    readFile sys' as o.files f = some (contents, 0, 1, 1) := by
  obtain ⟨_, _, ⟨_, h2, _⟩ | ⟨h1, _⟩⟩ := atomic_write _ _ _ _ _ _ h
  · unfold readFile
    rw [ho, h2]
    simp only
    rw [read_completes as contents hw hn, hc]
    simp
  · rw [hr] at h1; omega

example : ∃ o, atomicWrite {writes := [.took 1, .fail EINTR, .took 2]} (fun _ => some [9]) [97]
    [1, 2, 3] 0 = some o ∧ o.ret = 0 ∧ o.files [97] = some [1, 2, 3] ∧ o.files [98] = some [9] :=
  ⟨_, rfl, by decide +kernel⟩

/-- `sync_write_file_contents` alone loses the old contents when the disk is full. -/
theorem sync_write_loses : ∃ o, syncWrite {writes := [.took 1, .fail 28]} (fun _ => some [9, 9]) [97]
    [1, 2, 3] 0 = some o ∧ o.ret = -1 ∧ o.errno = 28 ∧ o.files [97] = some [1] :=
  ⟨_, rfl, by decide +kernel⟩

/-- When `atomic_write_file_contents` fails after opening the temporary file, that file stays, and
what a file of that name had before is lost. -/
theorem tmp_stays (sys : Sys) (fs : Files) (f : Name) (contents : Bytes) (errno : Nat) (o : Outcome)
    (h : atomicWrite sys fs f contents errno = some o) (ho : sys.opened = none) (hr : o.ret = -1) :
    ∃ k, o.files (tmpName f) = some (contents.take k) := by
  unfold atomicWrite at h
  cases h1 : syncWrite sys fs (tmpName f) contents errno with
  | none => rw [h1] at h; cases h
  | some o' =>
    rw [h1] at h
    simp only at h
    obtain ⟨_, _, _, _, _, _, ⟨k, hk⟩, _⟩ := sync_write _ _ _ _ _ _ h1
    refine ⟨k, ?_⟩
    split at h
    · cases h; exact hk ho
    · cases h2 : sys.rename with
      | some e => rw [h2] at h; cases h; exact hk ho
      | none => rw [h2] at h; cases h; simp at hr

example : ∃ o, atomicWrite {writes := [.took 9], rename := some 13} (fun _ => some [9]) [97]
    [1, 2, 3] 0 = some o ∧ o.ret = -1 ∧ o.errno = 13 ∧ o.files [97] = some [9] ∧
    o.files [97, 46, 116, 109, 112] = some [1, 2, 3] :=
  ⟨_, rfl, by decide +kernel⟩

/-- When the result is -1, `errno` is the error of a call that failed, and not that of `close` on
the way out, unless a call of `write` returned 0. -/
theorem write_errno (sys : Sys) (fs : Files) (f : Name) (contents : Bytes) (errno : Nat)
    (o : Outcome) (h : atomicWrite sys fs f contents errno = some o) (hr : o.ret = -1)
    (hz : .zero ∉ sys.writes) :
    sys.opened = some o.errno ∨ (o.errno ≠ EINTR ∧ .fail o.errno ∈ sys.writes) ∨
    sys.fsync = some o.errno ∨ (sys.fsync = none ∧ sys.closed = some o.errno) ∨
    (sys.fsync = none ∧ sys.closed = none ∧ sys.rename = some o.errno) := by
  unfold atomicWrite syncWrite at h
  cases h1 : sys.opened with
  | some e => rw [h1] at h; simp at h; subst h; exact .inl rfl
  | none =>
    right
    rw [h1] at h
    simp only at h
    cases h2 : safeWrite sys.writes contents contents.length errno with
    | none => rw [h2] at h; cases h
    | some w =>
      rw [h2] at h
      simp only at h
      by_cases hw : w.ret = (contents.length : Int)
      · right
        rw [if_neg (by simpa using hw)] at h
        cases h3 : sys.fsync with
        | some e => rw [h3] at h; simp at h; subst h; exact .inl rfl
        | none =>
          right
          cases h4 : sys.closed with
          | some e => rw [h3, h4] at h; simp at h; subst h; exact .inl ⟨rfl, rfl⟩
          | none =>
            right
            rw [h3, h4] at h
            cases h5 : sys.rename with
            | some e => rw [h5] at h; simp at h; subst h; exact ⟨rfl, rfl, rfl⟩
            | none => rw [h5] at h; simp at h; subst h; simp at hr
      · left
        rw [if_pos (by simpa using hw)] at h
        simp at h
        subst h
        rcases safe_write _ _ _ _ _ (Nat.le_refl _) h2 with ⟨_, _, _, h4, h5⟩ | ⟨k, k1, k2, _, k4⟩
        · exact ⟨h4, h5⟩
        · rcases k4 (by omega) with h | ⟨_, h1, h2⟩
          · exact absurd h hz
          · exact ⟨h1, h2⟩

/-- When a call of `write` returns 0, the result is -1 with whatever `errno` was before, possibly
"success". -/
theorem write_zero_errno (fs : Files) (f : Name) (c : Nat) (contents : Bytes) (errno : Nat) :
    ∃ o, atomicWrite {writes := [.zero]} fs f (c :: contents) errno = some o ∧ o.ret = -1 ∧
      o.errno = errno := by
  have hw : safeWrite [.zero] (c :: contents) (c :: contents).length errno =
      some ⟨0, [], errno⟩ := by
    unfold safeWrite writeLoop
    rw [if_neg (by simp)]
    rfl
  have hs : syncWrite {writes := [.zero]} fs (tmpName f) (c :: contents) errno =
      some { ret := -1, errno := errno, files := fs.set (tmpName f) (some []), opens := 1,
             closes := 1 } := by
    unfold syncWrite
    simp only
    rw [hw]
    simp only
    rw [if_pos (by rw [List.length_cons]; omega)]
  unfold atomicWrite
  rw [hs]
  exact ⟨_, rfl, rfl, rfl⟩

/-- If the system only moves bytes and interrupts, and no other call fails, then
`atomic_write_file_contents` succeeds. -/
theorem write_succeeds (sys : Sys) (fs : Files) (f : Name) (contents : Bytes) (errno : Nat)
    (h1 : sys.opened = none) (h2 : sys.fsync = none) (h3 : sys.closed = none)
    (h4 : sys.rename = none) (hw : Willing sys.writes)
    (hc : contents.length ≤ sys.writes.countP (· ≠ .fail EINTR)) :
    ∃ o, atomicWrite sys fs f contents errno = some o ∧ o.ret = 0 := by
  obtain ⟨w, w1, w2, _⟩ := write_completes sys.writes contents contents.length errno
    (Nat.le_refl _) hw hc
  unfold atomicWrite syncWrite
  rw [h1]
  simp only
  rw [w1]
  simp only
  rw [if_neg (by simpa using w2), h2, h3, h4]
  exact ⟨_, rfl, rfl⟩

/-- A `close` that fails after everything was written and synced makes the whole fail: the result is
-1 and the file keeps its old contents. -/
theorem close_fails : ∃ o, atomicWrite {writes := [.took 9], closed := some 5} (fun _ => some [9])
    [97] [1, 2, 3] 0 = some o ∧ o.ret = -1 ∧ o.errno = 5 ∧ o.synced = true ∧
    o.files [97] = some [9] :=
  ⟨_, rfl, by decide +kernel⟩

end Verif.Props.C74
