import Verif.Window.Model

/-!
# C83: The window of a client: every reply meets its request
-/
namespace Verif.Props.C83
open Verif.Window

variable {T : Type}

/-- What has happened: the number of requests so far, what each left for its reply, and which have been answered. -/
structure H (T : Type) where
  n : Nat
  tag : Nat → Option T
  done : Nat → Bool

/-- The requests are numbered from 0; request `m` carries the number `m` modulo 2^32.  The server answers a request at
most once, in any order. -/
inductive Reach (w : Nat) : H T → C T → Prop
  | init : Reach w ⟨0, fun _ => none, fun _ => false⟩ C.init
  | send {h : H T} {c c' : C T} (t : T) : Reach w h c → c.send w t = .ok c' →
      Reach w ⟨h.n + 1, fun j => if j = h.n then some t else h.tag j, h.done⟩ c'
  | sync {h : H T} {c c' : C T} : Reach w h c → c.sync = .ok c' →
      Reach w ⟨h.n + 1, h.tag, fun j => if j = h.n then true else h.done j⟩ c'
  | reply {h : H T} {c c' : C T} {t : Option T} (m : Nat) : Reach w h c → m < h.n → h.done m = false →
      c.reply w (m % 2 ^ 32) = .ok (c', t) → Reach w ⟨h.n, h.tag, fun j => if j = m then true else h.done j⟩ c'

structure Inv (w : Nat) (h : H T) (c : C T) (base : Nat) : Prop where
  le : base ≤ h.n
  win : h.n ≤ base + w
  s0 : c.seq0 = base % 2 ^ 32
  s1 : c.seq1 = h.n % 2 ^ 32
  slots : ∀ m, base ≤ m → m < h.n → c.slots (m % w) = ⟨m % 2 ^ 32, h.done m, h.tag m⟩
  below : ∀ m, m < base → h.done m = true
  first : base < h.n → h.done base = false
  above : ∀ m, h.n ≤ m → h.done m = false

theorem idx_eq {k : Nat} (hk : k ≤ 9) (m : Nat) : idx (2 ^ k) (m % 2 ^ 32) = m % 2 ^ k := by
  have h1 : 2 ^ k ≤ 2 ^ 9 := Nat.pow_le_pow_right (by omega) hk
  have h2 : 0 < 2 ^ k := Nat.two_pow_pos k
  have hs : sub32 (2 ^ k) 1 = 2 ^ k - 1 := by unfold sub32; omega
  unfold idx
  rw [hs, Nat.and_two_pow_sub_one_eq_mod]
  exact Nat.mod_mod_of_dvd m (Nat.pow_dvd_pow 2 (by omega))

/-- No access is outside the array of 512 slots. -/
theorem idx_lt {w : Nat} (h0 : 0 < w) (hw : w ≤ 512) (r : Nat) : idx w r < 512 := by
  unfold idx
  have hs : sub32 w 1 = w - 1 := by unfold sub32; omega
  rw [hs]
  have := Nat.and_le_right (n := r) (m := w - 1)
  omega

theorem sub_eq {a b : Nat} (h : b ≤ a) (h' : a - b < 2 ^ 32) : sub32 (a % 2 ^ 32) (b % 2 ^ 32) = a - b := by
  unfold sub32; omega

theorem succ_eq (a : Nat) : succ32 (a % 2 ^ 32) = (a + 1) % 2 ^ 32 := by unfold succ32; omega

theorem mod_inj {w a b : Nat} (h : a % w = b % w) (h1 : a < b + w) (h2 : b < a + w) : a = b := by
  rcases Nat.le_total a b with hab | hab
  · have := Nat.sub_mod_eq_zero_of_mod_eq h.symm
    rw [Nat.mod_eq_of_lt (by omega)] at this
    omega
  · have := Nat.sub_mod_eq_zero_of_mod_eq h
    rw [Nat.mod_eq_of_lt (by omega)] at this
    omega

theorem advance_spec {k : Nat} (hk : k ≤ 9) (n : Nat) (done : Nat → Bool) : ∀ (d base : Nat) (c : C T), base + d = n →
    c.seq0 = base % 2 ^ 32 → (∀ m, base ≤ m → m < n → (c.slots (m % 2 ^ k)).acked = done m) →
    ∃ b, base ≤ b ∧ b ≤ n ∧ c.advance (2 ^ k) d = { c with seq0 := b % 2 ^ 32 } ∧
      (∀ m, base ≤ m → m < b → done m = true) ∧ (b < n → done b = false) := by
  intro d
  induction d with
  | zero =>
    intro base c hd h0 _
    exact ⟨base, Nat.le_refl _, by omega, by rw [← h0]; rfl, fun m h1 h2 => by omega, fun h => by omega⟩
  | succ d ih =>
    intro base c hd h0 hs
    unfold C.advance
    rw [h0, idx_eq hk, hs base (Nat.le_refl _) (by omega)]
    by_cases hb : done base = true
    · rw [if_pos hb, succ_eq]
      obtain ⟨b, h1, h2, h3, h4, h5⟩ := ih (base + 1) { c with seq0 := (base + 1) % 2 ^ 32 } (by omega) rfl
        (fun m hm hm' => hs m (by omega) hm')
      refine ⟨b, by omega, h2, h3, fun m hm hm' => ?_, h5⟩
      by_cases e : m = base
      · exact e ▸ hb
      · exact h4 m (by omega) hm'
    · rw [if_neg hb]
      exact ⟨base, Nat.le_refl _, by omega, by rw [← h0], fun m h1 h2 => by omega, fun _ => by simpa using hb⟩

theorem two_pow_le {k : Nat} (hk : k ≤ 9) : 2 ^ k ≤ 512 := (Nat.pow_le_pow_right (by omega) hk : 2 ^ k ≤ 2 ^ 9)

theorem send_inv {k : Nat} (hk : k ≤ 9) {h : H T} {c c' : C T} {base : Nat} (hi : Inv (2 ^ k) h c base) {t : T}
    (hs : c.send (2 ^ k) t = .ok c') :
    Inv (2 ^ k) ⟨h.n + 1, fun j => if j = h.n then some t else h.tag j, h.done⟩ c' base := by
  have hw := two_pow_le hk
  have hle := hi.le
  have hwin := hi.win
  unfold C.send at hs
  rw [hi.s0, hi.s1, sub_eq hi.le (by omega)] at hs
  by_cases hg : h.n - base ≥ 2 ^ k
  · rw [if_pos hg] at hs; cases hs
  · rw [if_neg hg] at hs
    cases hs
    refine ⟨by show base ≤ h.n + 1; omega, by show h.n + 1 ≤ base + 2 ^ k; omega, hi.s0, succ_eq _, ?_, hi.below, ?_, ?_⟩
    · intro m hm hm'
      have hm' : m < h.n + 1 := hm'
      show (if m % 2 ^ k = idx (2 ^ k) (h.n % 2 ^ 32) then _ else c.slots (m % 2 ^ k)) =
        (⟨m % 2 ^ 32, h.done m, if m = h.n then some t else h.tag m⟩ : Slot T)
      rw [idx_eq hk]
      by_cases e : m = h.n
      · subst e
        rw [if_pos rfl, if_pos rfl, hi.above _ (Nat.le_refl _)]
      · rw [if_neg (fun e' => e (mod_inj e' (by omega) (by omega))), if_neg e]
        exact hi.slots m hm (by omega)
    · intro hb
      by_cases e : base < h.n
      · exact hi.first e
      · exact hi.above base (by omega)
    · intro m hm
      exact hi.above m (by have : h.n + 1 ≤ m := hm; omega)

theorem sync_inv {k : Nat} (hk : k ≤ 9) {h : H T} {c c' : C T} {base : Nat} (hi : Inv (2 ^ k) h c base)
    (hs : c.sync = .ok c') :
    Inv (2 ^ k) ⟨h.n + 1, h.tag, fun j => if j = h.n then true else h.done j⟩ c' (h.n + 1) := by
  have hw := two_pow_le hk
  have hle := hi.le
  have hwin := hi.win
  unfold C.sync at hs
  by_cases he : c.seq0 = c.seq1
  · rw [if_pos he] at hs
    cases hs
    have hb : base = h.n := by
      have := he
      rw [hi.s0, hi.s1] at this
      omega
    refine ⟨Nat.le_refl _, by show h.n + 1 ≤ h.n + 1 + 2 ^ k; omega, ?_, ?_, ?_, ?_, ?_, ?_⟩
    · show succ32 c.seq0 = _
      rw [hi.s0, hb, succ_eq]
    · show succ32 c.seq1 = _
      rw [hi.s1, succ_eq]
    · intro m h1 h2
      have : m < h.n + 1 := h2
      omega
    · intro m hm
      show (if m = h.n then true else h.done m) = true
      by_cases e : m = h.n
      · rw [if_pos e]
      · rw [if_neg e]
        exact hi.below m (by omega)
    · intro h1
      exact absurd h1 (Nat.lt_irrefl _)
    · intro m hm
      have hm : h.n + 1 ≤ m := hm
      show (if m = h.n then true else h.done m) = false
      rw [if_neg (by omega)]
      exact hi.above m (by omega)
  · rw [if_neg he] at hs; cases hs

theorem base_le {w : Nat} {h : H T} {c : C T} {base m : Nat} (hi : Inv w h c base) (hd : h.done m = false) : base ≤ m := by
  rcases Nat.lt_or_ge m base with hlt | hge
  · have := hi.below m hlt
    rw [hd] at this
    cases this
  · exact hge

/-- A reply to a request that is not answered. -/
theorem reply_good {k : Nat} (hk : k ≤ 9) {h : H T} {c : C T} {base : Nat} (hi : Inv (2 ^ k) h c base) {m : Nat}
    (hm : m < h.n) (hd : h.done m = false) :
    ∃ c' b, c.reply (2 ^ k) (m % 2 ^ 32) = .ok (c', h.tag m) ∧
      Inv (2 ^ k) ⟨h.n, h.tag, fun j => if j = m then true else h.done j⟩ c' b := by
  have hw := two_pow_le hk
  have hle := hi.le
  have hwin := hi.win
  have hb := base_le hi hd
  have hne : c.seq0 ≠ c.seq1 := by rw [hi.s0, hi.s1]; omega
  have h1 : sub32 (m % 2 ^ 32) c.seq0 < sub32 c.seq1 c.seq0 := by
    rw [hi.s0, hi.s1, sub_eq hb (by omega), sub_eq hi.le (by omega)]
    omega
  have hslot := hi.slots m hb hm
  have hidx := idx_eq hk m
  have hsl : ∀ j, base ≤ j → j < h.n →
      (c.put (m % 2 ^ k) ⟨m % 2 ^ 32, true, h.tag m⟩).slots (j % 2 ^ k) =
        ⟨j % 2 ^ 32, if j = m then true else h.done j, h.tag j⟩ := by
    intro j hj hj'
    show (if j % 2 ^ k = m % 2 ^ k then _ else c.slots (j % 2 ^ k)) = _
    by_cases e : j = m
    · subst e; rw [if_pos rfl, if_pos rfl]
    · rw [if_neg (fun e' => e (mod_inj e' (by omega) (by omega))), if_neg e]
      exact hi.slots j hj hj'
  obtain ⟨b, h2, h3, h4, h5, h6⟩ := advance_spec hk h.n (fun j => if j = m then true else h.done j) (h.n - base) base
    (c.put (m % 2 ^ k) ⟨m % 2 ^ 32, true, h.tag m⟩) (by omega) hi.s0
    (fun j hj hj' => by rw [hsl j hj hj'])
  refine ⟨{ c.put (m % 2 ^ k) ⟨m % 2 ^ 32, true, h.tag m⟩ with seq0 := b % 2 ^ 32 }, b, ?_, ?_⟩
  · unfold C.reply
    rw [if_neg hne, if_neg (by simpa using h1), hidx, hslot, hd]
    have hsub : sub32 (c.put (m % 2 ^ k) ⟨m % 2 ^ 32, true, h.tag m⟩).seq1
        (c.put (m % 2 ^ k) ⟨m % 2 ^ 32, true, h.tag m⟩).seq0 = h.n - base := by
      show sub32 c.seq1 c.seq0 = _
      rw [hi.s0, hi.s1, sub_eq hi.le (by omega)]
    simp only [ne_eq, not_true_eq_false, if_false, hsub, h4]
    rfl
  · refine ⟨h3, by show h.n ≤ b + 2 ^ k; omega, rfl, hi.s1, ?_, ?_, h6, ?_⟩
    · intro j hj hj'
      exact hsl j (by omega) hj'
    · intro j hj
      by_cases e : j < base
      · show (if j = m then true else h.done j) = true
        split
        · rfl
        · exact hi.below j e
      · exact h5 j (by omega) hj
    · intro j hj
      have hj : h.n ≤ j := hj
      show (if j = m then true else h.done j) = false
      rw [if_neg (by omega)]
      exact hi.above j hj

/-- A reply that is accepted belongs to a request that is not answered. -/
theorem reply_back {k : Nat} (hk : k ≤ 9) {h : H T} {c c' : C T} {base : Nat} (hi : Inv (2 ^ k) h c base) {r : Nat}
    (hr : r < 2 ^ 32) {t : Option T} (he : c.reply (2 ^ k) r = .ok (c', t)) :
    ∃ m, m < h.n ∧ h.done m = false ∧ m % 2 ^ 32 = r := by
  have hw := two_pow_le hk
  have hle := hi.le
  have hwin := hi.win
  unfold C.reply at he
  by_cases h1 : c.seq0 = c.seq1
  · rw [if_pos h1] at he; cases he
  · rw [if_neg h1] at he
    by_cases h2 : sub32 r c.seq0 < sub32 c.seq1 c.seq0
    · rw [if_neg (by simpa using h2)] at he
      rw [hi.s0, hi.s1, sub_eq hi.le (by omega)] at h2
      have hm : (base + sub32 r (base % 2 ^ 32)) % 2 ^ 32 = r := by unfold sub32; omega
      refine ⟨base + sub32 r (base % 2 ^ 32), by omega, ?_, hm⟩
      have hs := hi.slots (base + sub32 r (base % 2 ^ 32)) (by omega) (by omega)
      have hx := idx_eq hk (base + sub32 r (base % 2 ^ 32))
      rw [hm] at hx hs
      rw [hx, hs] at he
      cases hdone : h.done (base + sub32 r (base % 2 ^ 32)) with
      | false => rfl
      | true => simp [hdone] at he
    · rw [if_pos (by simpa using h2)] at he; cases he

theorem reach_inv {k : Nat} (hk : k ≤ 9) {h : H T} {c : C T} (hr : Reach (2 ^ k) h c) : ∃ base, Inv (2 ^ k) h c base := by
  induction hr with
  | init =>
    exact ⟨0, Nat.le_refl _, Nat.zero_le _, rfl, rfl, fun m _ h => absurd h (Nat.not_lt_zero m),
      fun m h => absurd h (Nat.not_lt_zero m), fun h => absurd h (Nat.lt_irrefl 0), fun _ _ => rfl⟩
  | send t _ hs ih => exact ih.imp fun base hi => send_inv hk hi hs
  | @sync h _ _ _ hs ih => exact ih.elim fun base hi => ⟨h.n + 1, sync_inv hk hi hs⟩
  | reply m _ hm hd he ih =>
    obtain ⟨base, hi⟩ := ih
    obtain ⟨c', b, h1, h2⟩ := reply_good hk hi hm hd
    rw [he] at h1
    cases h1
    exact ⟨b, h2⟩

/-- A reply to a request that is not answered is accepted, and the callback gets what that request left. -/
theorem reply_right {k : Nat} (hk : k ≤ 9) {h : H T} {c : C T} (hr : Reach (2 ^ k) h c) {m : Nat} (hm : m < h.n)
    (hd : h.done m = false) : ∃ c', c.reply (2 ^ k) (m % 2 ^ 32) = .ok (c', h.tag m) := by
  obtain ⟨base, hi⟩ := reach_inv hk hr
  obtain ⟨c', b, h1, -⟩ := reply_good hk hi hm hd
  exact ⟨c', h1⟩

/-- No other reply is accepted: not a second one, and none with a number that was not sent. -/
theorem reply_wrong {k : Nat} (hk : k ≤ 9) {h : H T} {c : C T} (hr : Reach (2 ^ k) h c) {r : Nat} (h32 : r < 2 ^ 32)
    (hn : ∀ m, m < h.n → h.done m = false → m % 2 ^ 32 ≠ r) : ∀ x, c.reply (2 ^ k) r ≠ .ok x := by
  obtain ⟨base, hi⟩ := reach_inv hk hr
  rintro ⟨c', t⟩ he
  obtain ⟨m, h1, h2, h3⟩ := reply_back hk hi h32 he
  exact hn m h1 h2 h3

/-- The window begins with the oldest request that is not answered, and ends with the last one sent. -/
theorem window_eq {k : Nat} (hk : k ≤ 9) {h : H T} {c : C T} (hr : Reach (2 ^ k) h c) :
    c.seq1 = h.n % 2 ^ 32 ∧ ∃ base, c.seq0 = base % 2 ^ 32 ∧ (∀ m < base, h.done m = true) ∧
      (base = h.n ∨ base < h.n ∧ h.done base = false) ∧ h.n ≤ base + 2 ^ k := by
  obtain ⟨base, hi⟩ := reach_inv hk hr
  refine ⟨hi.s1, base, hi.s0, hi.below, ?_, hi.win⟩
  rcases Nat.eq_or_lt_of_le hi.le with e | e
  · exact .inl e
  · exact .inr ⟨e, hi.first e⟩

/-- `checkasync` with `force` 2 ends exactly when all requests are answered. -/
theorem idle_iff {k : Nat} (hk : k ≤ 9) {h : H T} {c : C T} (hr : Reach (2 ^ k) h c) :
    c.seq0 = c.seq1 ↔ ∀ m < h.n, h.done m = true := by
  obtain ⟨base, hi⟩ := reach_inv hk hr
  have hw := two_pow_le hk
  have hle := hi.le
  have hwin := hi.win
  rw [hi.s0, hi.s1]
  constructor
  · intro e m hm
    exact hi.below m (by omega)
  · intro ha
    rcases Nat.eq_or_lt_of_le hi.le with e | e
    · rw [e]
    · have := ha base e
      rw [hi.first e] at this
      cases this

/-- A request must wait exactly if the one `window` requests before it is the oldest that is not answered. -/
theorem send_waits_iff {k : Nat} (hk : k ≤ 9) {h : H T} {c : C T} (hr : Reach (2 ^ k) h c) (t : T) :
    c.send (2 ^ k) t = .no ↔ ∃ m, m + 2 ^ k = h.n ∧ h.done m = false := by
  obtain ⟨base, hi⟩ := reach_inv hk hr
  have hw := two_pow_le hk
  have hp := Nat.two_pow_pos k
  have hle := hi.le
  have hwin := hi.win
  unfold C.send
  rw [hi.s0, hi.s1, sub_eq hi.le (by omega)]
  constructor
  · intro e
    by_cases hg : h.n - base ≥ 2 ^ k
    · exact ⟨base, by omega, hi.first (by omega)⟩
    · rw [if_neg hg] at e; cases e
  · rintro ⟨m, h1, h2⟩
    have := base_le hi h2
    rw [if_pos (by omega)]

/-- The option accepts the powers of two up to 512, and 0. -/
theorem accepts_iff (w : Nat) : accepts w = true ↔ w = 0 ∨ ∃ k ≤ 9, w = 2 ^ k := by
  constructor
  · intro h
    have hw : w ≤ 512 := by
      unfold accepts at h
      simp at h
      exact h.1
    have key : ∀ v < 513, accepts v = true → v = 0 ∨ ∃ k < 10, v = 2 ^ k := by decide +kernel
    rcases key w (by omega) h with e | ⟨k, hk, e⟩
    · exact .inl e
    · exact .inr ⟨k, by omega, e⟩
  · rintro (rfl | ⟨k, hk, rfl⟩)
    · decide
    · have key : ∀ k < 10, accepts (2 ^ k) = true := by decide
      exact key k (by omega)

/-- With a window of 0 no request is ever sent: the loop of `check_flush` does not end. -/
theorem window_zero (c : C T) (t : T) : c.send 0 t = .no := by
  unfold C.send
  rw [if_pos (Nat.zero_le _)]

/-! ## Cases -/

/-- Window 2: two requests, the second is answered first; then two more. -/
def story : Option (C Nat × List (Option Nat)) :=
  match (C.init : C Nat).send 2 10 with
  | .ok c => match c.send 2 20 with
    | .ok c => match c.reply 2 1 with
      | .ok (c, a) => match c.reply 2 0 with
        | .ok (c, b) => match c.send 2 30 with
          | .ok c => match c.reply 2 2 with
            | .ok (c, d) => some (c, [a, b, d])
            | _ => none
          | _ => none
        | _ => none
      | _ => none
    | _ => none
  | _ => none

example : story.map (fun x => (x.1.seq0, x.1.seq1, x.2)) = some (3, 3, [some 20, some 10, some 30]) := by decide

/-- A state with requests that are not answered can be reached. -/
example : ∃ (h : H Nat) (c : C Nat), Reach (2 ^ 1) h c ∧ h.n = 2 ∧ h.done 0 = false ∧ h.tag 1 = some 20 :=
  have h1 : (C.init : C Nat).send (2 ^ 1) 10 = .ok _ := if_neg (by decide)
  ⟨_, _, .send 20 (.send 10 .init h1) (if_neg (by decide)), rfl, rfl, rfl⟩

end Verif.Props.C83
