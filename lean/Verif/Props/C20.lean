import Verif.Msgpack.Stream

/-!
# C20: incremental decoding is independent of how the bytes are split into packets
-/
namespace Verif.Props.C20
open Verif.Msgpack Verif.Key

/-- Packets arrive one after the other; each is handed to the decoder by the loop of `conn::receive`
until it is used up or the decoder is done.  The final decoder and the number of bytes
consumed. -/
def receive : SP → List Bytes → SP × Nat
  | sp, [] => (sp, 0)
  | sp, c :: cs =>
    if (sp.feed c).1.mode.done then ((sp.feed c).1, c.length - (sp.feed c).2.length)
    else ((receive (sp.feed c).1 cs).1, c.length + (receive (sp.feed c).1 cs).2)

theorem feed_length {sp : SP} (hok : sp.Ok) (bs : Bytes) : (sp.feed bs).2.length ≤ bs.length := by
  have hdrop : ∀ (n : Nat) (sp : SP) (bs : Bytes), sp.Ok → (drive n sp bs).2.length ≤ bs.length := by
    intro n
    induction n with
    | zero => intro sp bs _; exact Nat.le_refl _
    | succ n ih =>
      intro sp bs hok
      unfold drive
      by_cases h : sp.mode.done = true ∨ bs = []
      · rw [if_pos h]; exact Nat.le_refl _
      · rw [if_neg h]
        have hnd : sp.mode.done = false := by simpa using fun hd => h (.inl hd)
        have hf := consume_facts hok hnd bs (fun hb => h (.inr hb))
        refine Nat.le_trans (ih _ _ hf.1) ?_
        -- what `consume` leaves is never longer than its input
        have hrun : ∀ (m : Nat) (st : List Frame) (r : Bytes), r.length ≤ m → (run st r).2.length ≤ r.length := by
          intro m
          induction m with
          | zero =>
            intro st r hr
            have : r = [] := List.length_eq_zero_iff.1 (by omega)
            subst this; rw [run_nil]; exact Nat.le_refl _
          | succ m ihm =>
            intro st r hr
            cases r with
            | nil => rw [run_nil]; exact Nat.le_refl _
            | cons b r =>
              have hr' : r.length ≤ m := by simpa using hr
              have hc : ∀ (sp : SP) (x : Bytes), x.length ≤ r.length → (cont sp x).2.length ≤ (b :: r).length := by
                intro sp x hx
                unfold cont
                split
                · have := ihm sp.stack x (by omega)
                  simp; omega
                · simp; omega
              rw [run_cons]
              split
              · exact Nat.le_refl _
              · simp
              · split
                · exact hc _ _ (by simp)
                · split
                  · simp
                  · exact hc _ _ (by simp only [List.length_drop]; omega)
        have hcont : ∀ (sp' : SP) (k : Nat), (cont sp' (bs.drop k)).2.length ≤ bs.length := by
          intro sp' k
          unfold cont
          split
          · have := hrun _ sp'.stack (bs.drop k) (Nat.le_refl _)
            simp only [List.length_drop] at this
            omega
          · simp
        obtain ⟨m, st⟩ := sp
        cases m with
        | final j => cases hnd
        | error => cases hnd
        | ub => cases hnd
        | normal => exact hrun _ st bs (Nat.le_refl _)
        | part buf =>
          unfold SP.consume
          simp only
          split
          · simp
          · exact hcont _ _
        | string k buf =>
          unfold SP.consume
          simp only
          split
          · simp
          · exact hcont _ _
  exact hdrop _ sp bs hok

theorem receive_flatten : ∀ (cs : List Bytes) (sp : SP), sp.Ok →
    receive sp cs = ((sp.feed cs.flatten).1, cs.flatten.length - (sp.feed cs.flatten).2.length)
  | [], sp, _ => by simp [receive, feed_nil]
  | c :: cs, sp, hok => by
    obtain ⟨h1, h2⟩ := feed_facts hok c
    have hl := feed_length hok c
    rw [List.flatten_cons, feed_append hok]
    unfold receive
    by_cases hd : (sp.feed c).1.mode.done = true
    · rw [if_pos hd, if_pos hd]
      simp only [List.length_append]
      congr 1; omega
    · rw [if_neg hd, if_neg hd, receive_flatten cs _ h1]
      have hl2 := feed_length h1 cs.flatten
      simp only [List.length_append]
      congr 1; omega

/-- Two ways of cutting the same bytes into packets (one byte at a time, with empty packets, all at
once) lead to the same decoder — the same verdict, the same value, the same unfinished state —
after consuming the same number of bytes. -/
theorem chunk_independent (cs cs' : List Bytes) (h : cs.flatten = cs'.flatten) :
    receive SP.init cs = receive SP.init cs' := by
  rw [receive_flatten cs SP.init trivial, receive_flatten cs' SP.init trivial, h]

/-- In particular, any cutting gives what a single call of `consume` on all the bytes gives. -/
theorem as_one_call (cs : List Bytes) :
    receive SP.init cs = ((SP.init.consume cs.flatten).1, cs.flatten.length - (SP.init.consume cs.flatten).2.length) := by
  have : SP.init.feed cs.flatten = SP.init.consume cs.flatten := feed_normal [] _
  rw [receive_flatten cs SP.init trivial, this]

/-- A decoder in the middle of its input may be handed the rest in any packets. -/
theorem resume (before after : List Bytes) (cs : List Bytes) (h : cs.flatten = before.flatten ++ after.flatten)
    (hnd : (receive SP.init before).1.mode.done = false) :
    (receive SP.init cs).1 = (receive (receive SP.init before).1 after).1 := by
  have h1 := receive_flatten before SP.init trivial
  have h2 : (receive SP.init before).1 = (SP.init.feed before.flatten).1 := by rw [h1]
  have hok : (SP.init.feed before.flatten).1.Ok := (feed_facts (sp := SP.init) trivial _).1
  rw [receive_flatten cs SP.init trivial, h2, receive_flatten after _ hok, h, feed_append (sp := SP.init) trivial]
  rw [h2] at hnd
  rw [if_neg (by rw [hnd]; decide)]

/-- Reading makes progress: while it is not done, the loop of `conn::receive` uses up what it is given. -/
theorem feed_uses_all (cs : List Bytes) (hnd : (receive SP.init cs).1.mode.done = false) :
    (receive SP.init cs).2 = cs.flatten.length := by
  rw [receive_flatten cs SP.init trivial] at hnd ⊢
  rcases (feed_facts (sp := SP.init) trivial cs.flatten).2 with h | h
  · rw [h] at hnd; cases hnd
  · rw [h]; simp

/-! ### Cases -/

/-- `[1, "ab", {"k": null}]`, one byte at a time and with an empty packet. -/
def demo : Bytes := [0x93, 0x01, 0xD9, 0x02, 0x61, 0x62, 0x81, 0xA1, 0x6B, 0xC0]

example : (demo.map fun b => [b]).flatten = ([[0x93], [], demo.drop 1] : List Bytes).flatten := by decide

example : (SP.init.consume demo).1.mode.done = true ∧ (SP.init.consume demo).2 = [] := by decide +kernel
example : (receive SP.init (demo.map fun b => [b])).2 = 10 := by decide +kernel

/-- A single call may return before the end of its input although it is not done: here the length
byte of a string completes the header, and the string's own byte is left for the next call.
The loop around `consume` makes up for it. -/
theorem consume_returns_early :
    (SP.consume ⟨.part [0xD9], []⟩ [0x01, 0x61]).2 = [0x61] ∧
    (SP.consume ⟨.part [0xD9], []⟩ [0x01, 0x61]).1.mode.done = false := by decide +kernel

/-- A four-byte length of 2^31 or more is read into an `int` and becomes negative. -/
theorem huge_length_undefined :
    (match (SP.init.consume [0xDB, 0x80, 0x00, 0x00, 0x00]).1.mode with | .ub => true | _ => false) = true := by
  decide +kernel

end Verif.Props.C20
