import Verif.Key.Model

/-!
# Output buffers

Model of `kvout` (/repo/kvio.hh:24-65, /repo/kvio.cc:34-112).  The buffer is the list of the `n` bytes written to it;
sizes are 32-bit as in the code.  `write(2)` is an external list of results.  An outcome is `ub` for a store outside the
buffer and `hang` for a loop that does not end.  `realloc` is taken to succeed.
-/
namespace Verif.IO
open Verif.Key (Bytes)

/-- A result of `write(2)`: some bytes taken (at least one, at most what was offered), `EWOULDBLOCK`, or another failure. -/
inductive Wr where
  | took (n : Nat)
  | again
  | fail
deriving DecidableEq, Repr

/-- The outcome of a call.  `wait`: it is still in `kvflush` when the given results of `write` are used up. -/
inductive Res (α : Type) where
  | ok (a : α)
  | wait
  | hang
  | ub
deriving DecidableEq, Repr

def Res.bind {α β : Type} : Res α → (α → Res β) → Res β
  | .ok a, f => f a
  | .wait, _ => .wait
  | .hang, _ => .hang
  | .ub, _ => .ub

/-- `struct kvout`, /repo/kvio.hh:24-35: `fd` tells whether there is a file, `buf` holds the `n` bytes written so far.
`sent` is what the file has received and `env` are the results of the next calls of `write`. -/
structure Kv where
  fd : Bool
  cap : Nat
  buf : Bytes
  sent : Bytes
  env : List Wr
deriving DecidableEq, Repr

/-- `new_kvout`, /repo/kvio.cc:35-44. -/
def newKvout (fd : Bool) (buflen : Nat) (env : List Wr) : Kv := ⟨fd, buflen, [], [], env⟩

/-- `new_bufkvout`, /repo/kvio.cc:47-57. -/
def newBufkvout : Kv := ⟨false, 256, [], [], []⟩

/-- The loop of `kvflush`, /repo/kvio.cc:77-88: what is left to send, what the file has received, the results of `write`.
Gives whether all was sent. -/
def flushLoop : List Wr → Bytes → Bytes → Res (Bool × Bytes × List Wr)
  | env, [], sent => .ok (true, sent, env)
  | [], _ :: _, _ => .wait
  | .took n :: env, b :: rest, sent =>
    flushLoop env ((b :: rest).drop (max n 1)) (sent ++ (b :: rest).take (max n 1))
  | .again :: env, b :: rest, sent => flushLoop env (b :: rest) sent
  | .fail :: env, _ :: _, sent => .ok (false, sent, env)

/-- `kvflush`, /repo/kvio.cc:74-90. -/
def flush (s : Kv) : Res Kv :=
  (flushLoop s.env s.buf s.sent).bind fun r =>
    .ok { s with buf := if r.1 then [] else s.buf, sent := r.2.1, env := r.2.2 }

/-- `capacity` after `k` rounds of the loop of `grow`. -/
def doubled (cap : Nat) : Nat → Nat
  | 0 => cap
  | k + 1 => doubled cap k * 2 % 2 ^ 32

/-- The loop of `grow`, /repo/kvio.cc:98-99.  After 32 rounds the capacity is 0 and stays so (`growLoop_hang`). -/
def growLoop (want cap : Nat) : Nat → Res Nat
  | 0 => if want > cap then .hang else .ok cap
  | k + 1 => if want > cap then growLoop want (cap * 2 % 2 ^ 32) k else .ok cap

/-- `grow`, /repo/kvio.cc:93-102. -/
def grow (s : Kv) (want : Nat) : Res Kv :=
  (if s.fd then flush s else .ok s).bind fun s =>
    (growLoop (if want = 0 then (s.cap + 1) % 2 ^ 32 else want) s.cap 32).bind fun c => .ok { s with cap := c }

/-- A store of `bs` at `buf + n`. -/
def store (s : Kv) (bs : Bytes) : Res Kv :=
  if s.buf.length + bs.length ≤ s.cap then .ok { s with buf := s.buf ++ bs } else .ub

/-- `append`, /repo/kvio.hh:44-49. -/
def append (s : Kv) (c : UInt8) : Res Kv :=
  (if s.buf.length = s.cap then grow s 0 else .ok s).bind fun s => store s [c]

/-- `reserve(nchars)`, /repo/kvio.hh:51-55, after which the caller stores `bs` and calls `set_end` or `adjust_length`,
/repo/kvio.hh:57-65. -/
def reserve (s : Kv) (nchars : Nat) (bs : Bytes) : Res Kv :=
  (if (s.buf.length + nchars) % 2 ^ 32 > s.cap then grow s ((s.buf.length + nchars) % 2 ^ 32) else .ok s).bind fun s =>
    store s bs

/-- `kvwrite`, /repo/kvio.cc:104-112. -/
def kvwrite (s : Kv) (bs : Bytes) : Res Kv :=
  (if (s.buf.length + bs.length) % 2 ^ 32 > s.cap && s.fd then flush s else .ok s).bind fun s =>
    (if (s.buf.length + bs.length) % 2 ^ 32 > s.cap then grow s ((s.buf.length + bs.length) % 2 ^ 32) else .ok s).bind fun s =>
      store s bs

inductive Op where
  | append (c : UInt8)
  | reserve (nchars : Nat) (bs : Bytes)
  | write (bs : Bytes)
  | flush
deriving DecidableEq, Repr

/-- A caller stores no more than it reserved, and asks for a nonnegative `int`; it flushes only with a file
(/repo/kvio.cc:75). -/
def Op.Valid (fd : Bool) : Op → Prop
  | .reserve n bs => bs.length ≤ n ∧ n < 2 ^ 31
  | .flush => fd = true
  | _ => True

/-- The room an operation asks for. -/
def Op.room : Op → Nat
  | .append _ => 1
  | .reserve n _ => n
  | .write bs => bs.length
  | .flush => 0

/-- The bytes an operation writes. -/
def Op.data : Op → Bytes
  | .append c => [c]
  | .reserve _ bs => bs
  | .write bs => bs
  | .flush => []

def step (s : Kv) : Op → Res Kv
  | .append c => append s c
  | .reserve n bs => reserve s n bs
  | .write bs => kvwrite s bs
  | .flush => flush s

def run : List Op → Kv → Res Kv
  | [], s => .ok s
  | o :: os, s => (step s o).bind (run os)

/-! ### The loop of `grow` -/

theorem growLoop_ok {want : Nat} (hw : want ≤ 2 ^ 31) : ∀ k cap, 0 < cap → cap < 2 ^ 32 → want ≤ cap * 2 ^ k →
    ∃ c, growLoop want cap k = .ok c ∧ want ≤ c ∧ cap ≤ c ∧ c < 2 ^ 32 := by
  intro k
  induction k with
  | zero =>
    intro cap h0 h1 h2
    refine ⟨cap, ?_, by omega, Nat.le_refl _, h1⟩
    simp only [growLoop]
    rw [if_neg (by omega)]
  | succ k ih =>
    intro cap h0 h1 h2
    simp only [growLoop]
    split
    · have : cap * 2 % 2 ^ 32 = cap * 2 := Nat.mod_eq_of_lt (by omega)
      rw [this]
      obtain ⟨c, g1, g2, g3, g4⟩ := ih (cap * 2) (by omega) (by omega) (by rw [Nat.pow_succ, Nat.mul_comm (2 ^ k) 2, ← Nat.mul_assoc] at h2; exact h2)
      exact ⟨c, g1, g2, by omega, g4⟩
    · exact ⟨cap, rfl, by omega, Nat.le_refl _, h1⟩

theorem growLoop_small {want cap : Nat} (hw : want ≤ 2 ^ 31) (h0 : 0 < cap) (h1 : cap < 2 ^ 32) :
    ∃ c, growLoop want cap 32 = .ok c ∧ want ≤ c ∧ cap ≤ c ∧ c < 2 ^ 32 := by
  refine growLoop_ok hw 32 cap h0 h1 ?_
  have : 1 * 2 ^ 32 ≤ cap * 2 ^ 32 := Nat.mul_le_mul_right _ h0
  omega

theorem doubled_eq (cap : Nat) (h : cap < 2 ^ 32) : ∀ k, doubled cap k = cap * 2 ^ k % 2 ^ 32
  | 0 => by simp [doubled, Nat.mod_eq_of_lt h]
  | k + 1 => by
    rw [doubled, doubled_eq cap h k, Nat.mod_mul_mod, Nat.mul_assoc, ← Nat.pow_succ]

theorem doubled_zero {cap : Nat} (h : cap < 2 ^ 32) {k : Nat} (hk : 32 ≤ k) : doubled cap k = 0 := by
  rw [doubled_eq cap h]
  have : k = (k - 32) + 32 := by omega
  rw [this, Nat.pow_add, ← Nat.mul_assoc]
  exact Nat.mul_mod_left _ _

theorem doubled_succ (cap k : Nat) : doubled (cap * 2 % 2 ^ 32) k = doubled cap (k + 1) := by
  induction k with
  | zero => rfl
  | succ k ih => rw [doubled, ih]; rfl

theorem growLoop_result {want : Nat} : ∀ k cap,
    (∃ j, j ≤ k ∧ growLoop want cap k = .ok (doubled cap j) ∧ want ≤ doubled cap j ∧ ∀ i, i < j → doubled cap i < want) ∨
    (growLoop want cap k = .hang ∧ ∀ i, i ≤ k → doubled cap i < want) := by
  intro k
  induction k with
  | zero =>
    intro cap
    simp only [growLoop]
    split
    · next h =>
      refine .inr ⟨rfl, fun i hi => ?_⟩
      obtain rfl : i = 0 := by omega
      exact h
    · next h => exact .inl ⟨0, Nat.le_refl _, rfl, by show want ≤ cap; omega, fun i hi => by omega⟩
  | succ k ih =>
    intro cap
    simp only [growLoop]
    split
    · next h =>
      rcases ih (cap * 2 % 2 ^ 32) with ⟨j, h1, h2, h3, h4⟩ | ⟨h1, h2⟩
      · left
        rw [doubled_succ] at h2 h3
        refine ⟨j + 1, by omega, h2, h3, ?_⟩
        intro i hi
        cases i with
        | zero => exact h
        | succ i => rw [← doubled_succ]; exact h4 i (by omega)
      · right
        refine ⟨h1, ?_⟩
        intro i hi
        cases i with
        | zero => exact h
        | succ i => rw [← doubled_succ]; exact h2 i (by omega)
    · next h => exact .inl ⟨0, by omega, rfl, by show want ≤ cap; omega, fun i hi => by omega⟩

/-- The model says `hang` exactly when the loop never ends. -/
theorem growLoop_hang {want cap : Nat} (h : cap < 2 ^ 32) : growLoop want cap 32 = .hang ↔ ∀ i, doubled cap i < want := by
  constructor
  · intro hh i
    rcases growLoop_result (want := want) 32 cap with ⟨j, _, h2, _⟩ | ⟨_, h2⟩
    · rw [hh] at h2; cases h2
    · by_cases c : i ≤ 32
      · exact h2 i c
      · rw [doubled_zero h (by omega)]
        have := h2 32 (Nat.le_refl _)
        omega
  · intro hh
    rcases growLoop_result (want := want) 32 cap with ⟨j, _, _, h3, _⟩ | ⟨h1, _⟩
    · have := hh j; omega
    · exact h1

/-! ### Flushing -/

theorem flushLoop_spec : ∀ (env : List Wr) (rest sent : Bytes),
    flushLoop env rest sent = .wait ∨
    ∃ ok k env', flushLoop env rest sent = .ok (ok, sent ++ rest.take k, env') ∧ (∃ used, env = used ++ env') ∧
      (ok = true → rest.length ≤ k) ∧ (ok = false → Wr.fail ∈ env) := by
  intro env
  induction env with
  | nil =>
    intro rest sent
    cases rest with
    | nil => exact .inr ⟨true, 0, [], by simp [flushLoop], ⟨[], rfl⟩, by simp, by simp⟩
    | cons b rest => exact .inl rfl
  | cons w env ih =>
    intro rest sent
    cases rest with
    | nil => exact .inr ⟨true, 0, w :: env, by simp [flushLoop], ⟨[], rfl⟩, by simp, by simp⟩
    | cons b rest =>
      cases w with
      | took n =>
        simp only [flushLoop]
        rcases ih ((b :: rest).drop (max n 1)) (sent ++ (b :: rest).take (max n 1)) with h | ⟨ok, k, env', h, ⟨u, hu⟩, h1, h2⟩
        · exact .inl h
        · refine .inr ⟨ok, max n 1 + k, env', ?_, ⟨.took n :: u, by rw [hu]; rfl⟩, ?_, ?_⟩
          · rw [h, List.take_add, List.append_assoc]
          · intro e; have := h1 e; rw [List.length_drop] at this; omega
          · intro e; exact List.mem_cons_of_mem _ (h2 e)
      | again =>
        simp only [flushLoop]
        rcases ih (b :: rest) sent with h | ⟨ok, k, env', h, ⟨u, hu⟩, h1, h2⟩
        · exact .inl h
        · exact .inr ⟨ok, k, env', h, ⟨.again :: u, by rw [hu]; rfl⟩, h1, fun e => List.mem_cons_of_mem _ (h2 e)⟩
      | fail =>
        simp only [flushLoop]
        exact .inr ⟨false, 0, env, by simp, ⟨[.fail], rfl⟩, by simp, by simp⟩

/-- A flush waits, or sends everything, or meets a failure and keeps the buffer. -/
theorem flush_spec (s : Kv) : flush s = .wait ∨
    ∃ s', flush s = .ok s' ∧ s'.fd = s.fd ∧ s'.cap = s.cap ∧ s'.buf.length ≤ s.buf.length ∧ (∃ used, s.env = used ++ s'.env) ∧
      ((s'.buf = [] ∧ s'.sent = s.sent ++ s.buf) ∨
       (s'.buf = s.buf ∧ Wr.fail ∈ s.env ∧ ∃ k, s'.sent = s.sent ++ s.buf.take k)) := by
  unfold flush
  rcases flushLoop_spec s.env s.buf s.sent with h | ⟨ok, k, env', h, hu, h1, h2⟩
  · rw [h]; exact .inl rfl
  · rw [h]
    refine .inr ⟨_, rfl, rfl, rfl, ?_, hu, ?_⟩
    · dsimp only; split <;> simp
    · cases ok with
      | true => left; exact ⟨by simp, by simp [List.take_of_length_le (h1 rfl)]⟩
      | false => right; exact ⟨by simp, h2 rfl, k, rfl⟩

/-- What has been written, in the order of the writes: sent or still in the buffer. -/
def all (s : Kv) : Bytes := s.sent ++ s.buf

/-- A buffer within its bounds. -/
structure Ok (s : Kv) : Prop where
  pos : 0 < s.cap
  cap : s.cap < 2 ^ 32
  len : s.buf.length ≤ s.cap

/-- What a call leaves when it does not end in `hang` or `ub`. -/
def Good (s : Kv) (data : Bytes) (r : Res Kv) : Prop :=
  (s.fd = true ∧ r = .wait) ∨
  ∃ s', r = .ok s' ∧ Ok s' ∧ s'.fd = s.fd ∧ s.cap ≤ s'.cap ∧ s'.buf.length ≤ s.buf.length + data.length ∧
    (∃ used, s.env = used ++ s'.env) ∧ (Wr.fail ∉ s.env → all s' = all s ++ data) ∧
    (s.fd = false → s'.sent = s.sent ∧ s'.buf = s.buf ++ data)

theorem Good.bind {s : Kv} {d1 d2 : Bytes} {r : Res Kv} {f : Kv → Res Kv} (h : Good s d1 r)
    (hf : ∀ s', r = .ok s' → Ok s' → s'.fd = s.fd → s.cap ≤ s'.cap → s'.buf.length ≤ s.buf.length + d1.length → Good s' d2 (f s')) :
    Good s (d1 ++ d2) (r.bind f) := by
  rcases h with ⟨h1, h2⟩ | ⟨s1, h1, h2, h3, h4, h5, ⟨u, hu⟩, h6, h7⟩
  · rw [h2]; exact .inl ⟨h1, rfl⟩
  · have := hf s1 h1 h2 h3 h4 h5
    rw [h1]
    simp only [Res.bind]
    rcases this with ⟨g1, g2⟩ | ⟨s2, g1, g2, g3, g4, g5, ⟨u', hu'⟩, g6, g7⟩
    · exact .inl ⟨by rw [← h3]; exact g1, g2⟩
    · refine .inr ⟨s2, g1, g2, g3.trans h3, by omega, by rw [List.length_append]; omega, ⟨u ++ u', by rw [hu, hu', List.append_assoc]⟩, ?_, ?_⟩
      · intro hn
        rw [g6 (by intro hm; exact hn (by rw [hu]; simp [hm])), h6 hn, List.append_assoc]
      · intro hd
        obtain ⟨a, b⟩ := h7 hd
        obtain ⟨c, d⟩ := g7 (by rw [h3]; exact hd)
        exact ⟨c.trans a, by rw [d, b, List.append_assoc]⟩

theorem good_self {s : Kv} (h : Ok s) : Good s [] (.ok s) :=
  .inr ⟨s, rfl, h, rfl, Nat.le_refl _, by simp, ⟨[], rfl⟩, fun _ => by simp, fun _ => by simp⟩

theorem flush_good {s : Kv} (h : Ok s) (hfd : s.fd = true) : Good s [] (flush s) := by
  rcases flush_spec s with h1 | ⟨s', h1, h2, h3, h4, h5, h6⟩
  · exact .inl ⟨hfd, h1⟩
  · refine .inr ⟨s', h1, ⟨by rw [h3]; exact h.pos, by rw [h3]; exact h.cap, by rw [h3]; have := h.len; omega⟩, h2, by omega, by simpa using h4, h5, ?_, by rw [hfd]; simp⟩
    intro hn
    rcases h6 with ⟨a, b⟩ | ⟨_, b, _⟩
    · simp [all, a, b]
    · exact absurd b hn

theorem grow_good {s : Kv} (h : Ok s) (want : Nat) (hw : want ≤ 2 ^ 31) (hc : want = 0 → s.cap < 2 ^ 31) :
    Good s [] (grow s want) ∧ ∀ s', grow s want = .ok s' → (want ≤ s'.cap ∧ (want = 0 → s.cap < s'.cap)) := by
  unfold grow
  have h1 : Good s [] (if s.fd then flush s else .ok s) := by
    split
    · next hfd => exact flush_good h hfd
    · exact good_self h
  have h2 : ∀ s', (if s.fd then flush s else .ok s) = .ok s' → s'.cap = s.cap := by
    intro s' hs
    split at hs
    · rcases flush_spec s with g | ⟨s1, g1, g2, g3, _⟩
      · rw [g] at hs; cases hs
      · rw [g1] at hs; cases hs; exact g3
    · cases hs; rfl
  have hgrow : ∃ c, growLoop (if want = 0 then (s.cap + 1) % 2 ^ 32 else want) s.cap 32 = .ok c ∧
      (if want = 0 then (s.cap + 1) % 2 ^ 32 else want) ≤ c ∧ s.cap ≤ c ∧ c < 2 ^ 32 := by
    refine growLoop_small ?_ h.pos h.cap
    split
    · next e => have := hc e; omega
    · exact hw
  obtain ⟨c, c1, c2, c3, c4⟩ := hgrow
  constructor
  · have : Good s ([] ++ []) _ := Good.bind h1 (f := fun s => (growLoop (if want = 0 then (s.cap + 1) % 2 ^ 32 else want) s.cap 32).bind fun c => .ok { s with cap := c }) (d2 := []) ?_
    · exact this
    · intro s' hs hok hfd hcap hlen
      rw [h2 s' hs, c1]
      refine .inr ⟨_, rfl, ⟨by have := h.pos; show 0 < c; omega, c4, ?_⟩, rfl, ?_, by simp, ⟨[], rfl⟩, fun _ => by simp [all], fun _ => by simp⟩
      · have := hok.len; rw [h2 s' hs] at this; show s'.buf.length ≤ c; omega
      · show s'.cap ≤ c; rw [h2 s' hs]; exact c3
  · intro s' hs
    rcases h1 with ⟨_, g⟩ | ⟨s1, g, _⟩
    · rw [g] at hs; cases hs
    · have e := h2 s1 g
      rw [g] at hs
      simp only [Res.bind] at hs
      rw [e, c1] at hs
      simp only [Res.ok.injEq] at hs
      subst hs
      show want ≤ c ∧ (want = 0 → s.cap < c)
      split at c2
      · next e => have := hc e; exact ⟨by omega, fun _ => by omega⟩
      · next e => exact ⟨c2, fun e' => absurd e' e⟩

theorem store_good {s : Kv} (h : Ok s) {bs : Bytes} (hl : s.buf.length + bs.length ≤ s.cap) : Good s bs (store s bs) := by
  unfold store
  rw [if_pos hl]
  refine .inr ⟨_, rfl, ⟨h.pos, h.cap, by simpa using hl⟩, rfl, Nat.le_refl _, by simp, ⟨[], rfl⟩, fun _ => by simp [all], fun _ => by simp⟩

theorem reserve_good {s : Kv} (h : Ok s) {n : Nat} {bs : Bytes} (hb : bs.length ≤ n) (hn : s.buf.length + n ≤ 2 ^ 31) :
    Good s bs (reserve s n bs) := by
  unfold reserve
  rw [Nat.mod_eq_of_lt (by omega : s.buf.length + n < 2 ^ 32)]
  show Good s ([] ++ bs) _
  split
  · next hgt =>
    obtain ⟨g1, g2⟩ := grow_good h (s.buf.length + n) hn (fun e => by have := h.pos; omega)
    refine g1.bind (fun s' hs hok _ _ hlen => store_good hok ?_)
    have := (g2 s' hs).1
    simp only [List.length_nil, Nat.add_zero] at hlen
    omega
  · refine (good_self h).bind (fun s' hs hok _ _ hlen => store_good hok ?_)
    cases hs
    omega

theorem append_good {s : Kv} (h : Ok s) {c : UInt8} (hn : s.buf.length + 1 ≤ 2 ^ 31) : Good s [c] (append s c) := by
  unfold append
  show Good s ([] ++ [c]) _
  split
  · next heq =>
    obtain ⟨g1, g2⟩ := grow_good h 0 (by omega) (fun _ => by omega)
    refine g1.bind (fun s' hs hok _ _ hlen => store_good hok ?_)
    have := (g2 s' hs).2 rfl
    simp only [List.length_nil, Nat.add_zero] at hlen
    simp only [List.length_singleton]
    omega
  · next hne =>
    refine (good_self h).bind (fun s' hs hok _ _ hlen => store_good hok ?_)
    cases hs
    have := hok.len
    simp only [List.length_singleton]
    omega

theorem kvwrite_good {s : Kv} (h : Ok s) {bs : Bytes} (hn : s.buf.length + bs.length ≤ 2 ^ 31) : Good s bs (kvwrite s bs) := by
  unfold kvwrite
  rw [Nat.mod_eq_of_lt (by omega : s.buf.length + bs.length < 2 ^ 32)]
  show Good s ([] ++ ([] ++ bs)) _
  have h1 : Good s [] (if s.buf.length + bs.length > s.cap && s.fd then flush s else .ok s) := by
    split
    · next hc => simp only [Bool.and_eq_true] at hc; exact flush_good h hc.2
    · exact good_self h
  refine h1.bind (fun s' hs hok _ _ hlen => ?_)
  simp only [List.length_nil, Nat.add_zero] at hlen
  rw [Nat.mod_eq_of_lt (by omega : s'.buf.length + bs.length < 2 ^ 32)]
  split
  · next hgt =>
    obtain ⟨g1, g2⟩ := grow_good hok (s'.buf.length + bs.length) (by omega) (fun e => by have := hok.pos; omega)
    refine g1.bind (fun s2 hs2 hok2 _ _ hlen2 => store_good hok2 ?_)
    have := (g2 s2 hs2).1
    simp only [List.length_nil, Nat.add_zero] at hlen2
    omega
  · refine (good_self hok).bind (fun s2 hs2 hok2 _ _ hlen2 => store_good hok2 ?_)
    cases hs2
    omega

theorem step_good {s : Kv} (h : Ok s) {o : Op} (hv : o.Valid s.fd) (hn : s.buf.length + o.room ≤ 2 ^ 31) : Good s o.data (step s o) := by
  cases o with
  | append c => exact append_good h hn
  | reserve n bs => exact reserve_good h hv.1 hn
  | write bs => exact kvwrite_good h hn
  | flush => exact flush_good h hv

theorem data_le_room {fd : Bool} {o : Op} (h : o.Valid fd) : o.data.length ≤ o.room := by
  cases o with
  | append c => exact Nat.le_refl _
  | reserve n bs => exact h.1
  | write bs => exact Nat.le_refl _
  | flush => exact Nat.le_refl _

theorem run_good : ∀ (ops : List Op) (s : Kv), Ok s → (∀ o ∈ ops, o.Valid s.fd) →
    s.buf.length + (ops.map Op.room).sum ≤ 2 ^ 31 → Good s (ops.map Op.data).flatten (run ops s)
  | [], s, h, _, _ => good_self h
  | o :: os, s, h, hv, hn => by
    simp only [List.map_cons, List.sum_cons] at hn
    simp only [List.map_cons, List.flatten_cons, run]
    refine (step_good h (hv o (by simp)) (by omega)).bind (fun s' _ hok hfd _ hlen => ?_)
    refine run_good os s' hok (fun o' ho' => by rw [hfd]; exact hv o' (by simp [ho'])) ?_
    have := data_le_room (hv o (by simp))
    omega

end Verif.IO
