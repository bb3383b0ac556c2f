import Verif.Msgpack.Wire
import Verif.Props.C19
import Mathlib.Algebra.Order.Field.Power
import Mathlib.Algebra.Field.Rat
import Mathlib.Tactic.Ring
import Mathlib.Tactic.NormNum

/-!
# C43: the decoder accepts exactly the message format
-/
namespace Verif.Props.C43
open Verif.Msgpack Verif.Key

/-- A new parser that is given `bs` in one piece ends with the value `j` and leaves `rest` exactly when `bs` is a
message for `j` followed by `rest`. -/
theorem accepts_exactly (bs : Bytes) (j : Json) (rest : Bytes) :
    Ends (SP.init.consume bs) j rest ↔ ∃ pre, bs = pre ++ rest ∧ Wire j pre := accepts_iff bs j rest

/-- The same for input that comes in pieces. -/
theorem accepts_pieces (as bs : Bytes) (j : Json) (rest : Bytes) (h : (SP.init.feed as).1.mode.done = false) :
    Ends ((SP.init.feed as).1.feed bs) j rest ↔ ∃ pre, as ++ bs = pre ++ rest ∧ Wire j pre := by
  rw [← accepts_iff]
  have e : SP.init.consume (as ++ bs) = SP.init.feed (as ++ bs) := (feed_normal [] (as ++ bs)).symm
  rw [e, feed_append (sp := SP.init) trivial as bs, h, if_neg Bool.false_ne_true]

/-- No message is the beginning of another one, and no bytes are a message for two values. -/
theorem unambiguous {j j' : Json} {p p' r r' : Bytes} (h : Wire j p) (h' : Wire j' p') (e : p ++ r = p' ++ r') :
    j = j' ∧ p = p' := by
  obtain ⟨a, b⟩ := (accepts_iff (p ++ r) j r).2 ⟨p, rfl, h⟩
  obtain ⟨c, d⟩ := (accepts_iff (p ++ r) j' r').2 ⟨p', e, h'⟩
  have : r = r' := b.symm.trans d
  subst this
  rw [a] at c
  exact ⟨Mode.final.inj c, List.append_cancel_right e⟩

/-- After an error no further bytes make a message. -/
theorem error_final {bs : Bytes} (h : (SP.init.consume bs).1.mode = .error) (more : Bytes) :
    ¬ ∃ j pre rest, bs ++ more = pre ++ rest ∧ Wire j pre := by
  rintro ⟨j, pre, rest, e, hw⟩
  have h1 := (accepts_iff (bs ++ more) j rest).2 ⟨pre, e, hw⟩
  have e1 : SP.init.consume bs = SP.init.feed bs := (feed_normal [] bs).symm
  have e2 : SP.init.consume (bs ++ more) = SP.init.feed (bs ++ more) := (feed_normal [] (bs ++ more)).symm
  rw [e2, feed_append (sp := SP.init) trivial bs more, ← e1, if_pos (by rw [h]; rfl)] at h1
  have := h1.1
  rw [h] at this
  cases this

/-! ### Floats -/

/-- The number that the IEEE 754 format with `eb` exponent bits and `mb` fraction bits gives to the bits `x`; `none` for
infinities and NaNs. -/
def ieee (eb mb x : Nat) : Option ℚ :=
  let s := x / 2 ^ (eb + mb) % 2
  let e := x / 2 ^ mb % 2 ^ eb
  let m := x % 2 ^ mb
  let bias : ℤ := 2 ^ (eb - 1) - 1
  if e = 2 ^ eb - 1 then none
  else if e = 0 then some ((-1) ^ s * (m * 2 ^ (1 - bias - mb)))
  else some ((-1) ^ s * ((2 ^ mb + m) * 2 ^ (e - bias - mb)))

theorem fields (s e m : Nat) (hs : s < 2) (he : e < 2048) (hm : m < 2 ^ 52) :
    (s * 2 ^ 63 + (e * 2 ^ 52 + m)) / 2 ^ 63 % 2 = s ∧ (s * 2 ^ 63 + (e * 2 ^ 52 + m)) / 2 ^ 52 % 2 ^ 11 = e ∧
      (s * 2 ^ 63 + (e * 2 ^ 52 + m)) % 2 ^ 52 = m := by
  omega

theorem ieee_fields (s e m : Nat) (hs : s < 2) (he : e < 2048) (hm : m < 2 ^ 52) :
    ieee 11 52 (s * 2 ^ 63 + (e * 2 ^ 52 + m)) =
      if e = 2047 then none
      else if e = 0 then some ((-1 : ℚ) ^ s * (m * 2 ^ (-1074 : ℤ)))
      else some ((-1 : ℚ) ^ s * ((2 ^ 52 + m) * 2 ^ ((e : ℤ) - 1075))) := by
  obtain ⟨h1, h2, h3⟩ := fields s e m hs he hm
  have k1 : (1 : ℤ) - (2 ^ (11 - 1) - 1) - (52 : Nat) = -1074 := by norm_num
  have k2 : (e : ℤ) - (2 ^ (11 - 1) - 1) - (52 : Nat) = e - 1075 := by push_cast; ring
  unfold ieee
  dsimp only
  rw [show 11 + 52 = 63 from rfl, h1, h2, h3, k1, k2]
  rfl

/-- The value of a float does not change when it is widened. -/
theorem widen_value (f : Nat) : ieee 11 52 (widen f) = ieee 8 23 f := by
  have e8 : ieee 8 23 f = if f / 2 ^ 23 % 256 = 255 then none
      else if f / 2 ^ 23 % 256 = 0 then some ((-1 : ℚ) ^ (f / 2 ^ 31 % 2) * ((f % 2 ^ 23 : Nat) * 2 ^ (-149 : ℤ)))
      else some ((-1 : ℚ) ^ (f / 2 ^ 31 % 2) *
        ((2 ^ 23 + (f % 2 ^ 23 : Nat)) * 2 ^ (((f / 2 ^ 23 % 256 : Nat) : ℤ) - 150))) := by
    have k1 : (1 : ℤ) - (2 ^ (8 - 1) - 1) - (23 : Nat) = -149 := by norm_num
    have k2 : ((f / 2 ^ 23 % 2 ^ 8 : Nat) : ℤ) - (2 ^ (8 - 1) - 1) - (23 : Nat) = (f / 2 ^ 23 % 2 ^ 8 : Nat) - 150 := by
      generalize f / 2 ^ 23 % 2 ^ 8 = e
      push_cast
      ring
    unfold ieee
    dsimp only
    rw [k1, k2]
    rfl
  rw [e8]
  unfold widen
  dsimp only
  have hs : f / 2 ^ 31 % 2 < 2 := Nat.mod_lt _ (by decide)
  have he : f / 2 ^ 23 % 256 < 256 := Nat.mod_lt _ (by decide)
  have hm : f % 2 ^ 23 < 2 ^ 23 := Nat.mod_lt _ (by decide)
  generalize f / 2 ^ 31 % 2 = s at *
  generalize f / 2 ^ 23 % 256 = e at *
  generalize f % 2 ^ 23 = m at *
  by_cases h255 : e = 255
  · subst h255
    rw [if_pos rfl, if_pos rfl, ieee_fields s 2047 _ hs (by decide), if_pos rfl]
    split
    · decide
    · have : m ||| 2 ^ 22 < 2 ^ 23 := Nat.or_lt_two_pow hm (by decide)
      omega
  rw [if_neg h255, if_neg h255]
  by_cases h0 : e = 0
  · subst h0
    rw [if_neg (by decide), if_pos rfl]
    by_cases hm0 : m = 0
    · subst hm0
      have := ieee_fields s 0 0 hs (by decide) (by decide)
      simpa using this
    · rw [if_neg hm0]
      have hk : m.log2 < 23 := (Nat.log2_lt hm0).mpr hm
      have hlo := Nat.log2_self_le hm0
      have hhi : m < 2 ^ (m.log2 + 1) := Nat.lt_log2_self
      generalize m.log2 = k at *
      have hM : (m - 2 ^ k) * 2 ^ (52 - k) < 2 ^ 52 := by
        have : 2 ^ k * 2 ^ (52 - k) = 2 ^ 52 := by rw [← Nat.pow_add]; congr 1; omega
        rw [← this]
        exact Nat.mul_lt_mul_of_pos_right (by rw [Nat.pow_succ] at hhi; omega) (Nat.two_pow_pos _)
      rw [ieee_fields s (k + 874) _ hs (by omega) hM, if_neg (by omega), if_neg (by omega)]
      congr 2
      rw [Nat.cast_mul, Nat.cast_sub hlo]
      have h52 : (2 : ℚ) ^ 52 = 2 ^ k * 2 ^ (52 - k) := by rw [← pow_add]; congr 1; omega
      have hz : (2 : ℚ) ^ (((k + 874 : Nat) : ℤ) - 1075) * 2 ^ (52 - k) = 2 ^ (-149 : ℤ) := by
        have : ((k + 874 : Nat) : ℤ) - 1075 + ((52 - k : Nat) : ℤ) = -149 := by omega
        rw [← zpow_natCast, ← zpow_add₀ (by norm_num), this]
      push_cast at *
      rw [h52, ← hz]
      ring
  · rw [if_pos h0, if_neg h0, ieee_fields s (e + 896) _ hs (by omega) (by omega), if_neg (by omega), if_neg (by omega)]
    congr 2
    have hz : (2 : ℚ) ^ ((e : ℤ) - 150) = 2 ^ (((e + 896 : Nat) : ℤ) - 1075) * 2 ^ 29 := by
      have : ((e + 896 : Nat) : ℤ) - 1075 + ((29 : Nat) : ℤ) = e - 150 := by omega
      rw [← zpow_natCast, ← zpow_add₀ (by norm_num), this]
    rw [hz]
    push_cast
    ring

/-- Infinities stay infinities, and a NaN stays a NaN with the same fraction bits, but for the first, which is set. -/
theorem widen_special (f : Nat) (he : f / 2 ^ 23 % 256 = 255) :
    widen f / 2 ^ 52 % 2 ^ 11 = 2047 ∧ (f % 2 ^ 23 = 0 → widen f % 2 ^ 52 = 0) ∧
      (f % 2 ^ 23 ≠ 0 → widen f % 2 ^ 52 = (f % 2 ^ 22 + 2 ^ 22) * 2 ^ 29) := by
  have hs : f / 2 ^ 31 % 2 < 2 := Nat.mod_lt _ (by decide)
  have hor : f % 2 ^ 23 ||| 2 ^ 22 = f % 2 ^ 22 + 2 ^ 22 := by
    have e : f % 2 ^ 23 = 2 ^ 22 * (f / 2 ^ 22 % 2) + f % 2 ^ 22 := by omega
    have hlt : f % 2 ^ 22 < 2 ^ 22 := Nat.mod_lt _ (by decide)
    have h1 := Nat.two_pow_add_eq_or_of_lt hlt 1
    have hx : f / 2 ^ 22 % 2 < 2 := Nat.mod_lt _ (by decide)
    rw [Nat.mul_one] at h1
    rw [e, Nat.add_comm (f % 2 ^ 22), h1]
    generalize f / 2 ^ 22 % 2 = x at *
    match x, hx with
    | 0, _ => rw [Nat.mul_zero, Nat.zero_add, Nat.or_comm]
    | 1, _ => rw [Nat.mul_one, h1, Nat.or_comm, ← Nat.or_assoc, Nat.or_self]
  unfold widen
  dsimp only
  rw [if_pos he, hor]
  by_cases h0 : f % 2 ^ 23 = 0
  · rw [if_pos h0]; omega
  · rw [if_neg h0]; omega

/-- The sign is kept, also that of zero. -/
theorem widen_sign (f : Nat) (hf : f < 2 ^ 32) : widen f / 2 ^ 63 = f / 2 ^ 31 := by
  have hs : f / 2 ^ 31 % 2 = f / 2 ^ 31 := Nat.mod_eq_of_lt (by omega)
  have he : f / 2 ^ 23 % 256 < 256 := Nat.mod_lt _ (by decide)
  have hm : f % 2 ^ 23 < 2 ^ 23 := Nat.mod_lt _ (by decide)
  unfold widen
  dsimp only
  rw [hs]
  generalize f / 2 ^ 31 = s at *
  generalize f / 2 ^ 23 % 256 = e at *
  generalize f % 2 ^ 23 = m at *
  suffices h : ∀ r, r < 2 ^ 63 → (s * 2 ^ 63 + r) / 2 ^ 63 = s by
    apply h
    split
    · split
      · decide
      · have : m ||| 2 ^ 22 < 2 ^ 23 := Nat.or_lt_two_pow hm (by decide)
        omega
    · split
      · omega
      · split
        · decide
        · rename_i hm0
          have hk : m.log2 < 23 := (Nat.log2_lt hm0).mpr hm
          have hhi : m < 2 ^ (m.log2 + 1) := Nat.lt_log2_self
          generalize m.log2 = k at *
          have hM : (m - 2 ^ k) * 2 ^ (52 - k) < 2 ^ 52 := by
            have : 2 ^ k * 2 ^ (52 - k) = 2 ^ 52 := by rw [← Nat.pow_add]; congr 1; omega
            rw [← this]
            refine Nat.mul_lt_mul_of_pos_right ?_ (Nat.two_pow_pos _)
            have := Nat.two_pow_pos k
            rw [Nat.pow_succ] at hhi
            omega
          omega
  intro r hr
  omega

/-- A float of 4 bytes is read as a double with the same value and sign. -/
theorem float_read (b rest : Bytes) (h : b.length = 4) : ∃ d, Ends (SP.init.consume (0xCA :: b ++ rest)) (.dbl d) rest ∧
    ieee 11 52 d = ieee 8 23 (unbe b) ∧ d / 2 ^ 63 = unbe b / 2 ^ 31 := by
  have hf : unbe b < 2 ^ 32 := by
    have := unbe_lt b
    rw [h] at this
    exact this
  exact ⟨widen (unbe b), (accepts_exactly _ _ _).2 ⟨0xCA :: b, rfl, .prim _ _ (.f32 b h)⟩, widen_value _, widen_sign _ hf⟩

/-- 1.5, the smallest float above 0, and the second largest denormal float. -/
example : unbe [0x3F, 0xC0, 0, 0] = 0x3FC00000 ∧ ieee 8 23 0x3FC00000 = some (3 / 2) ∧ widen 0x3FC00000 = 0x3FF8000000000000 ∧
    widen 1 = 0x36A0000000000000 ∧ widen 0x807FFFFE = 0xB80FFFFF80000000 := by
  refine ⟨by decide, ?_, by decide, by decide +kernel, by decide +kernel⟩
  unfold ieee
  norm_num

/-- Bytes that are still needed, at most, to finish everything on the stack. -/
def debt : List Frame → Nat
  | [] => 1
  | .arr _ n :: st => n + 1 + debt st
  | .key _ n :: st => 2 * n + 2 + debt st
  | .val _ _ n :: st => 2 * n + 1 + debt st

/-- No object on the stack is waiting for a key, except on top. -/
def Under : List Frame → Prop
  | [] => True
  | .key _ _ :: _ => False
  | _ :: st => Under st

theorem place_debt : ∀ (st : List Frame) (v : Json), Under st →
    (∃ j, place st v = ⟨.final j, []⟩) ∨ ∃ f st', place st v = ⟨.normal, f :: st'⟩ ∧ Under st' ∧ debt (f :: st') < debt st
  | [], v, _ => .inl ⟨v, rfl⟩
  | .arr done 0 :: st, v, h => by
    rcases place_debt st (.arr (done ++ [v])) h with c | ⟨f, st', a, b, c⟩
    · exact .inl c
    · exact .inr ⟨f, st', a, b, by simp only [debt] at c ⊢; omega⟩
  | .arr done (l + 1) :: st, v, h => .inr ⟨_, st, rfl, h, by simp only [debt]; omega⟩
  | .val done k 0 :: st, v, h => by
    rcases place_debt st (.obj (setKey done k v)) h with c | ⟨f, st', a, b, c⟩
    · exact .inl c
    · exact .inr ⟨f, st', a, b, by simp only [debt] at c ⊢; omega⟩
  | .val done k (l + 1) :: st, v, h => .inr ⟨_, st, rfl, h, by simp only [debt]; omega⟩

theorem finish_stack : ∀ (n : Nat) (st : List Frame), debt st ≤ n → Under st.tail → ∃ more j, Ends (run st more) j []
  | 0, st, h, _ => by
    exfalso
    cases st with
    | nil => simp [debt] at h
    | cons f st => cases f <;> simp [debt] at h
  | n + 1, st, h, hu => by
    by_cases hk : NotKey st
    · have hus : Under st := by
        cases st with
        | nil => trivial
        | cons f st => cases f <;> first | exact hu | exact hk.elim
      have e : ∀ more, run st (0xC0 :: more) = cont (place st .null) more := fun more => run_wire (.prim .null _ .null) st hk more
      rcases place_debt st .null hus with ⟨j, c⟩ | ⟨f, st', a, b, c⟩
      · refine ⟨[0xC0], j, ?_⟩
        rw [e, c]
        exact ⟨rfl, rfl⟩
      · obtain ⟨more, j, hm⟩ := finish_stack n (f :: st') (by omega) b
        refine ⟨0xC0 :: more, j, ?_⟩
        rw [e, a]
        exact hm
    · cases st with
      | nil => exact absurd trivial hk
      | cons f st =>
        cases f with
        | arr => exact absurd trivial hk
        | val => exact absurd trivial hk
        | key done l =>
          obtain ⟨more, j, hm⟩ := finish_stack n (.val done [] l :: st) (by simp only [debt] at h ⊢; omega) hu
          refine ⟨0xA0 :: more, j, ?_⟩
          have := run_key (.str [0xA0] [] (.fixstr 0 (by decide)) (by decide)) done l st more
          rw [show (0xA0 :: more : Bytes) = [0xA0] ++ [] ++ more from rfl, this]
          exact hm

theorem place_under (st : List Frame) (v : Json) (hu : Under st) : Under (place st v).stack.tail := by
  rcases place_debt st v hu with ⟨j, c⟩ | ⟨f, st', a, b, c⟩
  · rw [c]; trivial
  · rw [a]; exact b

theorem deliver_under (st : List Frame) (v : Json) (hu : Under st.tail) : Under (deliver st v).stack.tail := by
  cases st with
  | nil => exact place_under _ _ trivial
  | cons f st =>
    cases f with
    | arr => exact place_under _ _ hu
    | val => exact place_under _ _ hu
    | key d l => cases v <;> exact hu

theorem act_under (st : List Frame) (t : Tok) (hu : Under st.tail) {sp : SP} (h : act st t = some sp) : Under sp.stack.tail := by
  have un : NotKey st → Under st := by
    intro hk
    cases st with
    | nil => trivial
    | cons f st => cases f <;> first | exact hu | exact hk.elim
  have ha : ∀ n, Under (openArr st n).stack.tail := by
    intro n
    by_cases hk : NotKey st
    · rw [openArr_notKey hk]
      cases n with
      | zero => exact place_under _ _ (un hk)
      | succ n => exact un hk
    · cases st with
      | nil => exact absurd trivial hk
      | cons f st => cases f <;> first | exact absurd trivial hk | exact hu
  have hm : ∀ n, Under (openMap st n).stack.tail := by
    intro n
    by_cases hk : NotKey st
    · rw [openMap_notKey hk]
      cases n with
      | zero => exact place_under _ _ (un hk)
      | succ n => exact un hk
    · cases st with
      | nil => exact absurd trivial hk
      | cons f st => cases f <;> first | exact absurd trivial hk | exact hu
  cases t with
  | prim j => cases h; exact deliver_under st j hu
  | arr n =>
    simp only [act, Option.some.injEq] at h
    subst h
    split
    · exact ha n
    · exact hu
  | map n =>
    simp only [act, Option.some.injEq] at h
    subst h
    split
    · exact hm n
    · exact hu
  | raw n =>
    unfold act at h
    dsimp only at h
    split at h
    · cases h
    · cases h; exact hu

theorem run_under : ∀ (n : Nat) (st : List Frame) (bs : Bytes), bs.length ≤ n → Under st.tail → Under (run st bs).1.stack.tail
  | _, st, [], _, hu => by rw [run_nil]; exact hu
  | 0, st, b :: bs, h, _ => by simp at h
  | n + 1, st, b :: bs, h, hu => by
    have hbs : bs.length ≤ n := by simpa using h
    have hc : ∀ (sp : SP) (r : Bytes), r.length ≤ n → Under sp.stack.tail → Under (cont sp r).1.stack.tail := by
      intro sp r hr hs
      unfold cont
      split
      · exact run_under n sp.stack r hr hs
      · exact hs
    cases hh : head b bs with
    | bad => rw [run_cons, hh]; exact hu
    | need => rw [run_cons, hh]; exact hu
    | tok t k =>
      rw [run_tok hh]
      cases ha : act st t with
      | some sp => exact hc sp _ (by rw [List.length_drop]; omega) (act_under st t hu ha)
      | none =>
        show Under (rawStep st (rawLen t) (bs.drop k)).1.stack.tail
        unfold rawStep
        split
        · exact hu
        · exact hc _ _ (by rw [List.length_drop, List.length_drop]; omega) (deliver_under _ _ hu)

/-- Between two items, or within a string, the bytes read so far are always the beginning of a message. -/
theorem can_finish {bs : Bytes} (h : (SP.init.consume bs).1.mode = .normal ∨ ∃ n buf, (SP.init.consume bs).1.mode = .string n buf) :
    ∃ more j, Wire j (bs ++ more) := by
  have hu : Under (SP.init.consume bs).1.stack.tail := run_under _ [] bs (Nat.le_refl _) trivial
  have hok : (SP.init.consume bs).1.Ok := (run_facts _ [] bs (Nat.le_refl _)).1
  have he : (SP.init.consume bs).1.mode.done = false := by
    rcases h with h | ⟨n, buf, h⟩ <;> rw [h] <;> rfl
  have e1 : SP.init.consume bs = SP.init.feed bs := (feed_normal [] bs).symm
  have fin : ∀ more j, Ends ((SP.init.consume bs).1.feed more) j [] → Wire j (bs ++ more) := by
    intro more j hm
    have e2 : SP.init.consume (bs ++ more) = SP.init.feed (bs ++ more) := (feed_normal [] (bs ++ more)).symm
    have : Ends (SP.init.consume (bs ++ more)) j [] := by
      rw [e2, feed_append (sp := SP.init) trivial bs more, ← e1, he, if_neg Bool.false_ne_true]
      exact hm
    obtain ⟨pre, e, hw⟩ := (accepts_iff _ _ _).1 this
    rw [List.append_nil] at e
    rw [e]; exact hw
  generalize SP.init.consume bs = r at h hu hok he fin
  obtain ⟨⟨m, st⟩, r2⟩ := r
  rcases h with h | ⟨n, buf, h⟩
  · change m = .normal at h
    subst h
    obtain ⟨more, j, hm⟩ := finish_stack _ st (Nat.le_refl _) hu
    exact ⟨more, j, fin more j (by rw [feed_normal]; exact hm)⟩
  · change m = .string n buf at h
    subst h
    have hlt : buf.length < n := hok
    -- fill the string with zeros
    let z : Bytes := List.replicate (n - buf.length) 0
    have hz : (buf ++ z).length = n := by simp [z]; omega
    have hd := deliver_under st (.str (buf ++ z)) hu
    have hf : ∀ more, SP.feed ⟨.string n buf, st⟩ (z ++ more) = cont (deliver st (.str (buf ++ z))) more := by
      intro more
      have h1 : buf.length + z.length = n := by simpa using hz
      rw [feed_string st n buf hlt, if_neg (by rw [List.length_append]; omega), ← List.append_assoc, ← hz, List.take_left, List.drop_left]
    have hdel : (deliver st (.str (buf ++ z))).mode = .normal ∨ ∃ j, (deliver st (.str (buf ++ z))).mode = .final j := by
      by_cases hk : NotKey st
      · rw [deliver_notKey hk]
        have hus : Under st := by
          cases st with
          | nil => trivial
          | cons f st => cases f <;> first | exact hu | exact hk.elim
        rcases place_debt st (.str (buf ++ z)) hus with ⟨j, c⟩ | ⟨f, st', a, b, c⟩
        · rw [c]; exact .inr ⟨j, rfl⟩
        · rw [a]; exact .inl rfl
      · cases st with
        | nil => exact absurd trivial hk
        | cons f st => cases f <;> first | exact absurd trivial hk | exact .inl rfl
    generalize deliver st (.str (buf ++ z)) = sp at hd hf hdel
    obtain ⟨m, st2⟩ := sp
    rcases hdel with hdel | ⟨j, hdel⟩
    · change m = .normal at hdel
      subst hdel
      obtain ⟨more, j, hm⟩ := finish_stack _ st2 (Nat.le_refl _) hd
      refine ⟨z ++ more, j, fin _ j ?_⟩
      rw [hf]
      exact hm
    · change m = .final j at hdel
      subst hdel
      refine ⟨z ++ [], j, fin _ j ?_⟩
      rw [hf]
      exact ⟨rfl, rfl⟩

/-- The encoder's output is a message. -/
theorem encoder_in_format (j : Json) (h : j.Fits) : ∃ j', Wire j' (enc j) ∧ C19.value j' = C19.value j := by
  have h1 := consume_enc h []
  rw [List.append_nil] at h1
  obtain ⟨pre, e, hw⟩ := (accepts_iff (enc j) j.back []).1 (by rw [h1]; exact ⟨rfl, rfl⟩)
  rw [List.append_nil] at e
  exact ⟨j.back, e ▸ hw, C19.value_back j⟩

/-- The items of an object, in the order they are sent. -/
inductive Pairs : List (Bytes × Json) → Bytes → Prop where
  | nil : Pairs [] []
  | cons (k kb : Bytes) (v : Json) (vb : Bytes) (l : List (Bytes × Json)) (bs : Bytes) (hk : KeyWire k kb) (hv : Wire v vb)
      (hl : Pairs l bs) : Pairs ((k, v) :: l) (kb ++ vb ++ bs)

theorem setKey_lookup (k : Bytes) (v : Json) (x : Bytes) : ∀ l : List (Bytes × Json),
    (setKey l k v).lookup x = if x = k then some v else l.lookup x
  | [] => by
    show List.lookup x [(k, v)] = _
    by_cases h : x = k
    · subst h; simp
    · simp [List.lookup, h, beq_eq_false_iff_ne.2 h]
  | (k', v') :: l => by
    unfold setKey
    by_cases hk : k' = k
    · subst hk
      rw [if_pos rfl, List.lookup_cons, List.lookup_cons]
      by_cases h : x = k'
      · subst h; simp
      · simp [h, beq_eq_false_iff_ne.2 h]
    · rw [if_neg hk, List.lookup_cons, List.lookup_cons, setKey_lookup k v x l]
      by_cases h : x = k'
      · subst h; simp [hk]
      · simp [beq_eq_false_iff_ne.2 h]

theorem setKey_keys (k : Bytes) (v : Json) : ∀ l : List (Bytes × Json),
    (setKey l k v).map Prod.fst = if k ∈ l.map Prod.fst then l.map Prod.fst else l.map Prod.fst ++ [k]
  | [] => by simp [setKey]
  | (k', v') :: l => by
    unfold setKey
    by_cases hk : k' = k
    · subst hk; simp
    · rw [if_neg hk, List.map_cons, setKey_keys k v l]
      have : ¬ k = k' := fun h => hk h.symm
      by_cases hm : k ∈ l.map Prod.fst
      · rw [if_pos hm, if_pos (by simp only [List.map_cons, List.mem_cons]; exact .inr hm)]; rfl
      · rw [if_neg hm, if_neg (by simp only [List.map_cons, List.mem_cons]; rintro (h | h); exact this h; exact hm h)]; rfl

theorem items_pairs : ∀ {done l : List (Bytes × Json)} {n : Nat} {bs : Bytes}, WireItems done n l bs → (done.map Prod.fst).Nodup →
    ∃ kvs, kvs.length = n ∧ Pairs kvs bs ∧ (l.map Prod.fst).Nodup ∧
      ∀ x, l.lookup x = (kvs.reverse.lookup x).or (done.lookup x)
  | _, _, _, _, .nil l, hd => ⟨[], rfl, .nil, hd, fun x => by simp⟩
  | _, _, _, _, .cons done l n k kb v vb bs hk hv hr, hd => by
    have hn : ((setKey done k v).map Prod.fst).Nodup := by
      rw [setKey_keys]
      split
      · exact hd
      · rename_i h
        rw [List.nodup_append]
        refine ⟨hd, by simp, ?_⟩
        intro a ha b hb e
        rw [List.mem_singleton] at hb
        subst hb e
        exact h ha
    obtain ⟨kvs, a, b, c, d⟩ := items_pairs hr hn
    refine ⟨(k, v) :: kvs, by rw [List.length_cons, a], .cons k kb v vb kvs bs hk hv b, c, fun x => ?_⟩
    rw [d x, setKey_lookup, List.reverse_cons, List.lookup_append]
    cases hl : kvs.reverse.lookup x with
    | some y => rfl
    | none =>
      simp only [Option.none_or, List.lookup]
      by_cases hx : x = k
      · subst hx; simp
      · simp [hx, beq_eq_false_iff_ne.2 hx]

/-- A decoded object has each key once, with the value of the last item that was sent with this key. -/
theorem object_items {l : List (Bytes × Json)} {bs : Bytes} (h : Wire (.obj l) bs) :
    ∃ hd body kvs, bs = hd ++ body ∧ Header (.map kvs.length) hd ∧ Pairs kvs body ∧ (l.map Prod.fst).Nodup ∧
      ∀ x, l.lookup x = kvs.reverse.lookup x := by
  cases h with
  | prim _ _ h => cases h
  | obj n l hd bs h hl hb =>
    obtain ⟨kvs, a, b, c, d⟩ := items_pairs hb List.nodup_nil
    exact ⟨hd, bs, kvs, rfl, a ▸ h, b, c, fun x => by rw [d x]; simp⟩

/-- The other reader of these bytes, for log records, reads any message for an integer. -/
theorem integer_read {j : Json} {pre : Bytes} (h : Wire j pre) {x : Int} (hx : j.num? = some x) (rest : Bytes) :
    readInt (pre ++ rest) = some (x, rest) := readInt_wire h hx rest

/-- And any message for a string. -/
theorem string_read {s pre : Bytes} (h : Wire (.str s) pre) (rest : Bytes) : readStr (pre ++ rest) = some (s, rest) :=
  readStr_wire h rest

/-- It skips any primitive in at most 32 bits, and any string. -/
theorem narrow_skipped {j : Json} {pre : Bytes} (h : Wire j pre) (hn : Narrow pre) (rest : Bytes) :
    skipPrimitive (pre ++ rest) = some rest := skip_wire h hn rest

/-- A message that uses long forms where short ones would do, a number as a key, and one key twice. -/
theorem sample : Wire (.obj [([45, 49, 50], .null), ([97], .bool true)])
    [0xDE, 0, 3, 0xD0, 0xF4, 0xC0, 0xD9, 1, 97, 0xCE, 0, 0, 0, 5, 0xA1, 97, 0xC3] := by
  have h1 : Header (.map 3) [0xDE, 0, 3] := by
    have := Header.map16 [0, 3] rfl
    rwa [show unbe [0, 3] = 3 by decide] at this
  have h2 : KeyWire [45, 49, 50] [0xD0, 0xF4] := by
    have := KeyWire.int _ _ (Header.i8 [0xF4] rfl)
    rwa [show intString (sunbe [0xF4]) = [45, 49, 50] by decide +kernel] at this
  have h3 : KeyWire [97] [0xD9, 1, 97] := by
    refine KeyWire.str [0xD9, 1] [97] ?_ (by decide)
    have := Header.str8 [1] rfl
    rwa [show unbe [1] = ([97] : Bytes).length by decide] at this
  have h4 : Wire (.uint 5) [0xCE, 0, 0, 0, 5] := by
    have := Wire.prim _ _ (Header.u32 [0, 0, 0, 5] rfl)
    rwa [show unbe [0, 0, 0, 5] = 5 by decide] at this
  have h5 : KeyWire [97] [0xA1, 97] := by
    have := KeyWire.str _ [97] (Header.fixstr 1 (by decide)) (by decide)
    rwa [show UInt8.ofNat (0xA0 + 1) = 0xA1 by decide] at this
  exact .obj 3 _ [0xDE, 0, 3] _ h1 (by decide)
    (.cons [] _ 2 _ _ .null [0xC0] _ h2 (.prim _ _ .null) (.cons _ _ 1 _ _ _ _ _ h3 h4
      (.cons _ _ 0 _ _ (.bool true) [0xC3] [] h5 (.prim _ _ .yes) (.nil _))))

example : Ends (SP.init.consume ([0xDE, 0, 3, 0xD0, 0xF4, 0xC0, 0xD9, 1, 97, 0xCE, 0, 0, 0, 5, 0xA1, 97, 0xC3] ++ [1, 2]))
    (.obj [([45, 49, 50], .null), ([97], .bool true)]) [1, 2] := (accepts_exactly _ _ _).2 ⟨_, rfl, sample⟩

example : ∃ hd body kvs, ([0xDE, 0, 3, 0xD0, 0xF4, 0xC0, 0xD9, 1, 97, 0xCE, 0, 0, 0, 5, 0xA1, 97, 0xC3] : Bytes) = hd ++ body ∧
    Header (.map kvs.length) hd ∧ Pairs kvs body ∧
    (([([45, 49, 50], .null), ([97], .bool true)] : List (Bytes × Json)).map Prod.fst).Nodup ∧
    ∀ x : Bytes, ([([45, 49, 50], .null), ([97], .bool true)] : List (Bytes × Json)).lookup x = kvs.reverse.lookup x := object_items sample

/-- Within the string of an array the beginning of a message has been read. -/
example : ∃ more j, Wire j ([0x92, 0xA3, 97] ++ more) :=
  can_finish (bs := [0x92, 0xA3, 97]) (.inr ⟨3, [97], by
    show (run [] [0x92, 0xA3, 97]).1.mode = _
    simp [run, head, short, act, openArr, Mode.isNormal, rawLen]⟩)

/-- A reserved byte is an error. -/
example : (SP.init.consume [0x91, 0xC1]).1.mode = .error := by
  show (run [] [0x91, 0xC1]).1.mode = _
  have h : head 0xC1 [] = .bad := by
    unfold head
    rw [if_pos (by decide)]
    rfl
  rw [run_cons, show head 0x91 [0xC1] = .tok (.arr 1) 0 from rfl]
  show (run [.arr [] 0] [0xC1]).1.mode = _
  rw [run_cons, h]

example : readInt ([0xD3, 0, 0, 0, 0, 0, 0, 0, 7] ++ [9]) = some (7, [9]) :=
  integer_read (.prim _ _ (.i64 [0, 0, 0, 0, 0, 0, 0, 7] rfl)) (by decide) [9]

example : skipPrimitive ([0xDB, 0, 0, 0, 1, 97] ++ [9]) = some [9] :=
  narrow_skipped (.str [0xDB, 0, 0, 0, 1] [97] (by
    have := Header.str32 [0, 0, 0, 1] rfl
    rwa [show unbe [0, 0, 0, 1] = ([97] : Bytes).length by decide] at this) (by decide))
    (show _ ∧ _ ∧ _ ∧ _ by decide) [9]

end Verif.Props.C43
