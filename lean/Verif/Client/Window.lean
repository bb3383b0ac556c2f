import Mathlib.Data.Nat.ModEq
import Mathlib.Logic.Function.Basic
import Mathlib.Tactic.ByContra

/-!
# The window of requests of a client

Model of `struct child` and its functions, /repo/mtclient.cc:56-95 and 883-1110: up to `window` requests are under way, each with
an entry in an array; a reply is matched with its request by the sequence number, which has 32 bits.  Over UDP replies may come in
any order.

Simplifications:
* What an entry remembers of its request (command, key, callback) is a value of any type.
* The entry for a request is written right after it is sent, no reply comes in between.
* A callback may send further requests; this is as if they were sent after `checkasync` has returned, which has done with the
  window before it calls one.
-/
namespace Verif.Client

variable {α : Type}

/-- `struct async`, /repo/mtclient.cc:56-68. -/
structure Slot (α : Type) where
  seq : BitVec 32
  acked : Bool
  req : α

/-- `struct child`, /repo/mtclient.cc:72-85. -/
structure Win (α : Type) where
  seq0 : BitVec 32
  seq1 : BitVec 32
  slots : Nat → Slot α

/-- `seq & (window - 1)`. -/
def idx (w s : BitVec 32) : Nat := (s &&& (w - 1)).toNat

/-- The client waits for a reply before it sends, /repo/mtclient.cc:92-93. -/
def Win.Full (w : BitVec 32) (s : Win α) : Prop := w ≤ s.seq1 - s.seq0

/-- A request is sent and its entry written, /repo/mtclient.cc:943-959; `aput` and the others likewise. -/
def Win.send (w : BitVec 32) (s : Win α) (a : α) : Win α :=
  { s with slots := Function.update s.slots (idx w s.seq1) ⟨s.seq1, false, a⟩, seq1 := s.seq1 + 1 }

/-- The loop that advances the window, /repo/mtclient.cc:902-903.  It ends at `seq1` at the latest, so that there are at most
`seq1 - seq0` rounds. -/
def Win.advance (w : BitVec 32) : Nat → Win α → Win α
  | 0, s => s
  | k + 1, s => if s.seq0 ≠ s.seq1 ∧ (s.slots (idx w s.seq0)).acked = true then Win.advance w k { s with seq0 := s.seq0 + 1 } else s

/-- A reply with sequence number `r` comes, /repo/mtclient.cc:892-907: the new window and the request that is taken to be answered;
`none` if an assertion fails. -/
def Win.reply (w : BitVec 32) (s : Win α) (r : BitVec 32) : Option (Win α × α) :=
  if r - s.seq0 < s.seq1 - s.seq0 ∧ (s.slots (idx w r)).seq = r ∧ (s.slots (idx w r)).acked = false then
    some (Win.advance w (s.seq1 - s.seq0).toNat
      { s with slots := Function.update s.slots (idx w r) { s.slots (idx w r) with acked := true } }, (s.slots (idx w r)).req)
  else none

/-- A request whose reply is waited for at once, /repo/mtclient.cc:792-803; `put` and `remove` likewise.  It has no entry. -/
def Win.sync (s : Win α) : Win α := { s with seq0 := s.seq0 + 1, seq1 := s.seq1 + 1 }

/-- The check of the option `-w`, /repo/mtclient.cc:519-523. -/
def Allowed (w : BitVec 32) : Prop := w ≤ 512 ∧ w &&& (w - 1) = 0

/-! ### Arithmetic -/

theorem allowed_pow {w : BitVec 32} (h : Allowed w) (h0 : w ≠ 0) : ∃ e, e ≤ 9 ∧ w = BitVec.ofNat 32 (2 ^ e) := by
  have key : ∀ n, n < 513 → BitVec.ofNat 32 n ≠ 0 → BitVec.ofNat 32 n &&& (BitVec.ofNat 32 n - 1) = 0 →
      ∃ e, e < 10 ∧ n = 2 ^ e := by decide +kernel
  have hw : w = BitVec.ofNat 32 w.toNat := by simp
  have h1 : w.toNat ≤ 512 := h.1
  have h2 := h.2
  rw [hw] at h2 h0
  obtain ⟨e, e1, e2⟩ := key w.toNat (by omega) h0 h2
  exact ⟨e, by omega, by rw [← e2]; exact hw⟩

theorem sub_toNat {a b : Nat} (h : a ≤ b) (hb : b - a < 2 ^ 32) : (BitVec.ofNat 32 b - BitVec.ofNat 32 a).toNat = b - a := by
  rw [BitVec.toNat_sub, BitVec.toNat_ofNat, BitVec.toNat_ofNat]
  omega

theorem pow_le {e : Nat} (he : e ≤ 9) : 2 ^ e ≤ 512 := Nat.pow_le_pow_right (by omega) he (n := 2)

theorem idx_ofNat {e : Nat} (he : e ≤ 9) (n : Nat) : idx (BitVec.ofNat 32 (2 ^ e)) (BitVec.ofNat 32 n) = n % 2 ^ e := by
  unfold idx
  have h1 : (BitVec.ofNat 32 (2 ^ e) - 1).toNat = 2 ^ e - 1 := by
    have := pow_le he
    have : 0 < 2 ^ e := Nat.two_pow_pos e
    rw [BitVec.toNat_sub, BitVec.toNat_ofNat]
    show (2 ^ 32 - 1 + 2 ^ e % 2 ^ 32) % 2 ^ 32 = 2 ^ e - 1
    omega
  rw [BitVec.toNat_and, h1, BitVec.toNat_ofNat, Nat.and_two_pow_sub_one_eq_mod]
  exact Nat.mod_mod_of_dvd n (Nat.pow_dvd_pow 2 (by omega))

theorem eq_of_mod {w n m : Nat} (h : n % w = m % w) (h1 : n ≤ m) (h2 : m < n + w) : n = m := by
  have h3 : w ∣ m - n := (Nat.modEq_iff_dvd' h1).1 h
  have := Nat.eq_zero_of_dvd_of_lt h3 (by omega)
  omega

theorem ofNat_succ (n : Nat) : BitVec.ofNat 32 n + 1 = BitVec.ofNat 32 (n + 1) := by
  apply BitVec.eq_of_toNat_eq
  simp [BitVec.toNat_add]

/-! ### Executions -/

/-- The window after the requests `A` have been sent and the requests with the numbers `D` answered, each at most once, in any
order.  The client waits for a reply at once only if all others have come. -/
inductive Run (w : BitVec 32) (s0 : Nat → Slot α) : Win α → List α → List Nat → Prop where
  | init : Run w s0 ⟨0, 0, s0⟩ [] []
  | send {s : Win α} {A : List α} {D : List Nat} (h : Run w s0 s A D) (hf : ¬ s.Full w) (a : α) :
      Run w s0 (s.send w a) (A ++ [a]) D
  | reply {s s' : Win α} {A : List α} {D : List Nat} {n : Nat} {a : α} (h : Run w s0 s A D) (hn : n < A.length) (hd : n ∉ D)
      (hr : s.reply w (BitVec.ofNat 32 n) = some (s', a)) : Run w s0 s' A (D ++ [n])
  | sync {s : Win α} {A : List α} {D : List Nat} (h : Run w s0 s A D) (he : s.seq0 = s.seq1) (a : α) :
      Run w s0 s.sync (A ++ [a]) (D ++ [A.length])

/-- The window begins at request `n0`. -/
structure Pre (e : Nat) (s : Win α) (A : List α) (D : List Nat) (n0 : Nat) : Prop where
  lo : n0 ≤ A.length
  hi : A.length ≤ n0 + 2 ^ e
  s0 : s.seq0 = BitVec.ofNat 32 n0
  s1 : s.seq1 = BitVec.ofNat 32 A.length
  slot : ∀ n a, n0 ≤ n → A[n]? = some a → s.slots (n % 2 ^ e) = ⟨BitVec.ofNat 32 n, decide (n ∈ D), a⟩
  old : ∀ n, n < n0 → n ∈ D
  sent : ∀ n, n ∈ D → n < A.length

theorem Pre.size {e : Nat} (he : e ≤ 9) {s : Win α} {A : List α} {D : List Nat} {n0 : Nat} (h : Pre e s A D n0) :
    (s.seq1 - s.seq0).toNat = A.length - n0 := by
  have := pow_le he
  have := h.hi
  rw [h.s0, h.s1]
  exact sub_toNat h.lo (by omega)

theorem Pre.empty {e : Nat} (he : e ≤ 9) {s : Win α} {A : List α} {D : List Nat} {n0 : Nat} (h : Pre e s A D n0) :
    s.seq0 = s.seq1 ↔ n0 = A.length := by
  have h1 := h.size he
  have h2 := h.lo
  constructor
  · intro h3
    rw [h3] at h1
    simp at h1
    omega
  · rintro rfl
    rw [h.s0, h.s1]

/-- The loop stops at the first request that is not answered. -/
theorem Pre.advance {e : Nat} (he : e ≤ 9) : ∀ (k : Nat) {s : Win α} {A : List α} {D : List Nat} {n0 : Nat}, Pre e s A D n0 →
    A.length - n0 = k → ∃ n, Pre e (s.advance (BitVec.ofNat 32 (2 ^ e)) k) A D n ∧ (n < A.length → n ∉ D)
  | 0, s, A, D, n0, h, hk => ⟨n0, h, fun h1 => by omega⟩
  | k + 1, s, A, D, n0, h, hk => by
    have hlt : n0 < A.length := by omega
    have hs := h.slot n0 A[n0] (Nat.le_refl _) (List.getElem?_eq_getElem hlt)
    have hi : idx (BitVec.ofNat 32 (2 ^ e)) s.seq0 = n0 % 2 ^ e := by rw [h.s0]; exact idx_ofNat he n0
    unfold Win.advance
    by_cases hd : n0 ∈ D
    · rw [if_pos ⟨fun h1 => by have := (h.empty he).1 h1; omega, by rw [hi, hs]; simpa using hd⟩]
      refine Pre.advance he k (n0 := n0 + 1) ⟨hlt, by have := h.hi; omega, ?_, h.s1, fun n a h1 h2 => ?_, fun n h1 => ?_, h.sent⟩
        (by omega)
      · show s.seq0 + 1 = _
        rw [h.s0, ofNat_succ]
      · exact h.slot n a (by omega) h2
      · by_cases hn : n = n0
        · subst hn; exact hd
        · exact h.old n (by omega)
    · rw [if_neg (by rintro ⟨_, h1⟩; rw [hi, hs] at h1; exact hd (by simpa using h1))]
      exact ⟨n0, h, fun _ => hd⟩

theorem Pre.accept {e : Nat} (he : e ≤ 9) {s : Win α} {A : List α} {D : List Nat} {n0 n : Nat} (h : Pre e s A D n0)
    {a : α} (ha : A[n]? = some a) (hd : n ∉ D) :
    ∃ s', s.reply (BitVec.ofNat 32 (2 ^ e)) (BitVec.ofNat 32 n) = some (s', a) ∧
      ∃ m, Pre e s' A (D ++ [n]) m ∧ (m < A.length → m ∉ D ++ [n]) := by
  have hn : n < A.length := (List.getElem?_eq_some_iff.1 ha).1
  have hge : n0 ≤ n := by
    by_contra h1
    exact hd (h.old n (by omega))
  have h9 := pow_le he
  have hhi := h.hi
  have hs := h.slot n a hge ha
  have hi := idx_ofNat he n
  have h1 : (BitVec.ofNat 32 n - s.seq0).toNat = n - n0 := by rw [h.s0]; exact sub_toNat hge (by omega)
  have h2 := h.size he
  unfold Win.reply
  rw [if_pos ⟨by rw [BitVec.lt_def, h1, h2]; omega, by rw [hi, hs], by rw [hi, hs]; simpa using hd⟩, hi, hs]
  refine ⟨_, rfl, ?_⟩
  rw [h2]
  refine Pre.advance he _ ⟨h.lo, h.hi, h.s0, h.s1, fun m b m1 m2 => ?_, fun m hm => List.mem_append_left _ (h.old m hm),
    fun m hm => ?_⟩ rfl
  · have hm : m < A.length := (List.getElem?_eq_some_iff.1 m2).1
    show Function.update s.slots (n % 2 ^ e) _ (m % 2 ^ e) = _
    by_cases hmn : m = n
    · subst hmn
      rw [Function.update_self]
      rw [ha] at m2
      cases m2
      simp
    · have : m % 2 ^ e ≠ n % 2 ^ e := by
        intro h3
        rcases Nat.le_total m n with h4 | h4
        · exact hmn (eq_of_mod h3 h4 (by omega))
        · exact hmn (eq_of_mod h3.symm h4 (by omega)).symm
      rw [Function.update_of_ne this, h.slot m b m1 m2]
      simp [hmn]
  · rcases List.mem_append.1 hm with h3 | h3
    · exact h.sent m h3
    · simp at h3; omega

theorem Pre.send {e : Nat} (he : e ≤ 9) {s : Win α} {A : List α} {D : List Nat} {n0 : Nat} (h : Pre e s A D n0)
    (hf : ¬ s.Full (BitVec.ofNat 32 (2 ^ e))) (a : α) : Pre e (s.send (BitVec.ofNat 32 (2 ^ e)) a) (A ++ [a]) D n0 := by
  have h9 := pow_le he
  have hroom : A.length - n0 < 2 ^ e := by
    by_contra h1
    apply hf
    unfold Win.Full
    rw [BitVec.le_def, h.size he, BitVec.toNat_ofNat]
    exact Nat.le_trans (Nat.mod_le _ _) (by omega)
  have hlo := h.lo
  refine ⟨by simp; omega, by simp; omega, h.s0, ?_, fun n b n1 n2 => ?_, h.old, fun n hn => ?_⟩
  · show s.seq1 + 1 = _
    rw [h.s1, ofNat_succ]
    simp
  · show Function.update s.slots (idx _ s.seq1) _ (n % 2 ^ e) = _
    rw [h.s1, idx_ofNat he]
    by_cases hn : n = A.length
    · subst hn
      rw [Function.update_self]
      have hd : A.length ∉ D := fun h1 => by have := h.sent _ h1; omega
      rw [List.getElem?_append_right (Nat.le_refl _)] at n2
      simp at n2
      simp [hd, n2]
    · have hlt : n < A.length := by
        have := (List.getElem?_eq_some_iff.1 n2).1
        simp at this
        omega
      have : n % 2 ^ e ≠ A.length % 2 ^ e := fun h1 => hn (eq_of_mod h1 (by omega) (by omega))
      rw [Function.update_of_ne this]
      rw [List.getElem?_append_left hlt] at n2
      exact h.slot n b n1 n2
  · have := h.sent n hn
    simp
    omega

/-- The window begins at the first request that is not answered. -/
theorem Run.pre {e : Nat} (he : e ≤ 9) {s0 : Nat → Slot α} {s : Win α} {A : List α} {D : List Nat}
    (h : Run (BitVec.ofNat 32 (2 ^ e)) s0 s A D) : ∃ n, Pre e s A D n ∧ (n < A.length → n ∉ D) := by
  induction h with
  | init => exact ⟨0, ⟨Nat.le_refl _, by simp, rfl, rfl, fun n a _ h => by simp at h, fun n h => by omega, fun n h => by simp at h⟩,
      fun h => by simp at h⟩
  | @send s A D h hf a ih =>
    obtain ⟨n, h1, h2⟩ := ih
    refine ⟨n, h1.send he hf a, fun h3 h4 => ?_⟩
    exact h2 (h1.sent n h4) h4
  | @reply s s' A D n a h hn hd hr ih =>
    obtain ⟨m, h1, h2⟩ := ih
    obtain ⟨t, t1, t2⟩ := h1.accept he (List.getElem?_eq_getElem hn) hd
    rw [t1] at hr
    cases hr
    exact t2
  | @sync s A D h hs a ih =>
    obtain ⟨n, h1, h2⟩ := ih
    have hn := (h1.empty he).1 hs
    subst hn
    refine ⟨A.length + 1, ⟨by simp, by simp, ?_, ?_, fun m b m1 m2 => ?_, fun m hm => ?_, fun m hm => ?_⟩, fun h3 => by simp at h3⟩
    · show s.seq0 + 1 = _
      rw [h1.s0, ofNat_succ]
    · show s.seq1 + 1 = _
      rw [h1.s1, ofNat_succ]
      simp
    · have := (List.getElem?_eq_some_iff.1 m2).1
      simp at this
      omega
    · by_cases h3 : m = A.length
      · simp [h3]
      · exact List.mem_append_left _ (h1.old m (by omega))
    · rcases List.mem_append.1 hm with h3 | h3
      · have := h1.sent m h3
        simp
        omega
      · simp at h3
        simp [h3]

end Verif.Client
