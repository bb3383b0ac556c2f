import Verif.Msgpack.Model

/-!
# The streaming parser does not depend on how its input is cut
-/
namespace Verif.Msgpack
open Verif.Key (Byte Bytes)

theorem run_nil (st : List Frame) : run st [] = (⟨.normal, st⟩, []) := by rw [run]

/-- Continue with the rest of the input if the parser is ready for a new item. -/
def cont (sp : SP) (bs : Bytes) : SP × Bytes := if sp.mode.isNormal then run sp.stack bs else (sp, bs)

theorem run_cons (st : List Frame) (b : Byte) (bs : Bytes) : run st (b :: bs) =
    match head b bs with
    | .bad => (⟨.error, st⟩, b :: bs)
    | .need => (⟨.part (b :: bs), st⟩, [])
    | .tok t k =>
      match act st t with
      | some sp => cont sp (bs.drop k)
      | none =>
        if (bs.drop k).length < rawLen t then (⟨.string (rawLen t) (bs.drop k), st⟩, [])
        else cont (deliver st (.str ((bs.drop k).take (rawLen t)))) ((bs.drop k).drop (rawLen t)) := by
  rw [run]; rfl

theorem place_mode (st : List Frame) (v : Json) : (place st v).mode.isNormal = true ∨ (place st v).mode.done = true := by
  fun_induction place st v
  case case1 => exact .inr rfl
  case case2 ih => exact ih
  case case3 => exact .inl rfl
  case case4 ih => exact ih
  case case5 => exact .inl rfl
  case case6 => exact .inr rfl

theorem deliver_mode (st : List Frame) (v : Json) : (deliver st v).mode.isNormal = true ∨ (deliver st v).mode.done = true := by
  fun_cases deliver st v
  · exact .inl rfl
  · exact .inl rfl
  · exact .inl rfl
  · exact .inr rfl
  · exact place_mode _ _

theorem act_mode {st : List Frame} {t : Tok} {sp : SP} (h : act st t = some sp) :
    sp.mode.isNormal = true ∨ sp.mode.done = true := by
  have hArr : ∀ n, (openArr st n).mode.isNormal = true ∨ (openArr st n).mode.done = true := by
    intro n
    fun_cases openArr st n
    · exact .inr rfl
    · exact place_mode _ _
    · exact .inl rfl
  have hMap : ∀ n, (openMap st n).mode.isNormal = true ∨ (openMap st n).mode.done = true := by
    intro n
    fun_cases openMap st n
    · exact .inr rfl
    · exact place_mode _ _
    · exact .inl rfl
  cases t with
  | prim j => cases h; exact deliver_mode _ _
  | arr n =>
    unfold act at h
    cases h
    by_cases hn : n < 2147483648
    · rw [if_pos hn]; exact hArr n
    · rw [if_neg hn]; exact .inr rfl
  | map n =>
    unfold act at h
    cases h
    by_cases hn : n < 2147483648
    · rw [if_pos hn]; exact hMap n
    · rw [if_neg hn]; exact .inr rfl
  | raw n =>
    have h : (if n < 2147483648 then none else some (⟨.ub, st⟩ : SP)) = some sp := h
    by_cases hn : n < 2147483648
    · rw [if_pos hn] at h; cases h
    · rw [if_neg hn] at h; cases h; exact .inr rfl

theorem not_normal_of_done {m : Mode} (h : m.done = true) : m.isNormal = false := by
  cases m <;> first | rfl | cases h

/-- The parser holds exactly what it says: a header that is not complete, or a string that is not. -/
def SP.Ok (sp : SP) : Prop :=
  match sp.mode with
  | .part buf => ∃ b p, buf = b :: p ∧ short b = none ∧ nbytes b ≠ 0 ∧ buf.length < nbytes b
  | .string n buf => buf.length < n
  | _ => True

theorem ok_of_mode {sp : SP} (h : sp.mode.isNormal = true ∨ sp.mode.done = true) : sp.Ok := by
  unfold SP.Ok
  obtain ⟨m, st⟩ := sp
  cases m <;> first | trivial | (rcases h with h | h <;> cases h)

theorem head_need {b : Byte} {bs : Bytes} (h : head b bs = .need) : short b = none ∧ nbytes b ≠ 0 ∧ bs.length + 1 < nbytes b := by
  unfold head at h
  split at h
  · cases h
  · rename_i hs
    split at h
    · cases h
    · rename_i hn
      split at h
      · rename_i hl; exact ⟨hs, hn, hl⟩
      · cases h

/-- The main loop leaves input only when it is done, and leaves the parser consistent. -/
theorem run_facts : ∀ (n : Nat) (st : List Frame) (bs : Bytes), bs.length ≤ n →
    (run st bs).1.Ok ∧ ((run st bs).1.mode.done = true ∨ (run st bs).2 = []) ∧
    ((run st bs).2.length < bs.length ∨ bs = [] ∨ (run st bs).1.mode.done = true)
  | n, st, [], _ => by rw [run_nil]; exact ⟨trivial, .inr rfl, .inr (.inl rfl)⟩
  | 0, st, b :: bs, h => by simp at h
  | n + 1, st, b :: bs, h => by
    have hbs : bs.length ≤ n := by simpa using h
    have hcont : ∀ (sp : SP) (r : Bytes), r.length ≤ bs.length → (sp.mode.isNormal = true ∨ sp.mode.done = true) →
        (cont sp r).1.Ok ∧ ((cont sp r).1.mode.done = true ∨ (cont sp r).2 = []) ∧
        ((cont sp r).2.length < (b :: bs).length ∨ b :: bs = [] ∨ (cont sp r).1.mode.done = true) := by
      intro sp r hr hm
      unfold cont
      by_cases hn : sp.mode.isNormal = true
      · rw [if_pos hn]
        obtain ⟨a, c, d⟩ := run_facts n sp.stack r (by omega)
        refine ⟨a, c, ?_⟩
        rcases d with d | d | d
        · left; simp; omega
        · subst d; rw [run_nil]; left; simp
        · exact .inr (.inr d)
      · rw [if_neg hn]
        have hd : sp.mode.done = true := by rcases hm with hm | hm; exact absurd hm hn; exact hm
        exact ⟨ok_of_mode (.inr hd), .inl hd, .inr (.inr hd)⟩
    rw [run_cons]
    cases hh : head b bs with
    | bad => exact ⟨trivial, .inl rfl, .inr (.inr rfl)⟩
    | need =>
      obtain ⟨h1, h2, h3⟩ := head_need hh
      refine ⟨⟨b, bs, rfl, h1, h2, by simpa using h3⟩, .inr rfl, .inl (by simp)⟩
    | tok t k =>
      simp only
      cases ha : act st t with
      | some sp => exact hcont sp _ (by simp) (act_mode ha)
      | none =>
        simp only
        by_cases hl : (bs.drop k).length < rawLen t
        · rw [if_pos hl]
          exact ⟨hl, .inr rfl, .inl (by simp)⟩
        · rw [if_neg hl]
          exact hcont _ _ (by simp only [List.length_drop]; omega) (deliver_mode _ _)

/-- A call of `consume` on a consistent parser that is not done uses some of a non-empty input (or
finishes), and leaves the parser consistent. -/
theorem consume_facts {sp : SP} (hok : sp.Ok) (hnd : sp.mode.done = false) (bs : Bytes) (hne : bs ≠ []) :
    (sp.consume bs).1.Ok ∧ ((sp.consume bs).2.length < bs.length ∨ (sp.consume bs).1.mode.done = true) := by
  have hpos : 0 < bs.length := List.length_pos_iff.2 hne
  have hc : ∀ (sp' : SP) (r : Bytes), r.length < bs.length → sp'.Ok →
      (cont sp' r).1.Ok ∧ ((cont sp' r).2.length < bs.length ∨ (cont sp' r).1.mode.done = true) := by
    intro sp' r hr ho
    unfold cont
    by_cases hn : sp'.mode.isNormal = true
    · rw [if_pos hn]
      obtain ⟨a, c, d⟩ := run_facts _ sp'.stack r (Nat.le_refl _)
      refine ⟨a, ?_⟩
      rcases d with d | d | d
      · left; omega
      · subst d; rw [run_nil]; left; exact hpos
      · exact .inr d
    · rw [if_neg hn]; exact ⟨ho, .inl hr⟩
  obtain ⟨m, st⟩ := sp
  cases m with
  | final j => cases hnd
  | error => cases hnd
  | ub => cases hnd
  | normal =>
    obtain ⟨a, c, d⟩ := run_facts _ st bs (Nat.le_refl _)
    refine ⟨a, ?_⟩
    rcases d with d | d | d
    · exact .inl d
    · exact absurd d hne
    · exact .inr d
  | part buf =>
    obtain ⟨b, p, hb, h1, h2, h3⟩ := hok
    have hhd : nbytes (buf.headD 0) - buf.length = nbytes b - buf.length := by rw [hb]; rfl
    unfold SP.consume
    simp only [hhd]
    by_cases hl : bs.length < nbytes b - buf.length
    · rw [if_pos hl]
      refine ⟨⟨b, p ++ bs, by simp [hb], h1, h2, ?_⟩, .inl hpos⟩
      rw [List.length_append]; omega
    · rw [if_neg hl]
      exact hc _ _ (by rw [List.length_drop]; omega) (run_facts _ st (buf ++ bs.take (nbytes b - buf.length)) (Nat.le_refl _)).1
  | string n buf =>
    have h1 : buf.length < n := hok
    unfold SP.consume
    simp only
    by_cases hl : bs.length < n - buf.length
    · rw [if_pos hl]
      refine ⟨?_, .inl hpos⟩
      show (buf ++ bs).length < n
      rw [List.length_append]; omega
    · rw [if_neg hl]
      exact hc _ _ (by rw [List.length_drop]; omega) (ok_of_mode (deliver_mode _ _))

/-- The loop of `conn::receive`, /repo/mtd.cc:483-486, over the bytes at hand: call `consume` until
it is done or the bytes are used up. -/
def drive (fuel : Nat) (sp : SP) (bs : Bytes) : SP × Bytes :=
  match fuel with
  | 0 => (sp, bs)
  | fuel + 1 => if sp.mode.done ∨ bs = [] then (sp, bs) else drive fuel (sp.consume bs).1 (sp.consume bs).2

/-- `drive` with enough fuel. -/
def SP.feed (sp : SP) (bs : Bytes) : SP × Bytes := drive (bs.length + 1) sp bs

theorem drive_done {sp : SP} (h : sp.mode.done = true) (n : Nat) (bs : Bytes) : drive n sp bs = (sp, bs) := by
  cases n with
  | zero => rfl
  | succ n => unfold drive; rw [if_pos (.inl h)]

theorem drive_nil (sp : SP) (n : Nat) : drive n sp [] = (sp, []) := by
  cases n with
  | zero => rfl
  | succ n => unfold drive; rw [if_pos (.inr rfl)]

theorem drive_fuel : ∀ (n m : Nat) (sp : SP) (bs : Bytes), sp.Ok → bs.length < n → bs.length < m → drive n sp bs = drive m sp bs
  | 0, _, _, _, _, h, _ => absurd h (Nat.not_lt_zero _)
  | _ + 1, 0, _, _, _, _, h => absurd h (Nat.not_lt_zero _)
  | n + 1, m + 1, sp, bs, hok, hn, hm => by
    unfold drive
    by_cases h : sp.mode.done = true ∨ bs = []
    · rw [if_pos h, if_pos h]
    · rw [if_neg h, if_neg h]
      have hnd : sp.mode.done = false := by simpa using fun hd => h (.inl hd)
      obtain ⟨a, c⟩ := consume_facts hok hnd bs (fun hb => h (.inr hb))
      rcases c with c | c
      · exact drive_fuel n m _ _ a (by omega) (by omega)
      · rw [drive_done c, drive_done c]

theorem feed_done {sp : SP} (h : sp.mode.done = true) (bs : Bytes) : sp.feed bs = (sp, bs) := drive_done h _ _

theorem feed_nil (sp : SP) : sp.feed [] = (sp, []) := drive_nil sp _

theorem feed_step {sp : SP} (hok : sp.Ok) (hnd : sp.mode.done = false) {bs : Bytes} (hne : bs ≠ []) :
    sp.feed bs = (sp.consume bs).1.feed (sp.consume bs).2 := by
  unfold SP.feed
  rw [drive, if_neg (by rintro (h | h); rw [hnd] at h; cases h; exact hne h)]
  obtain ⟨a, c⟩ := consume_facts hok hnd bs hne
  rcases c with c | c
  · exact drive_fuel _ _ _ _ a (by omega) (by omega)
  · rw [drive_done c, drive_done c]

theorem feed_normal (st : List Frame) (bs : Bytes) : SP.feed ⟨.normal, st⟩ bs = run st bs := by
  by_cases hne : bs = []
  · subst hne; rw [feed_nil, run_nil]
  · rw [feed_step (sp := ⟨.normal, st⟩) trivial rfl hne]
    show (run st bs).1.feed (run st bs).2 = _
    obtain ⟨a, c, d⟩ := run_facts _ st bs (Nat.le_refl _)
    rcases c with c | c
    · rw [feed_done c]
    · rw [c, feed_nil, ← c]

theorem feed_cont {sp : SP} (h : sp.mode.isNormal = true ∨ sp.mode.done = true) (bs : Bytes) :
    sp.feed bs = cont sp bs := by
  unfold cont
  rcases h with h | h
  · rw [if_pos h]
    obtain ⟨m, st⟩ := sp
    cases m <;> first | cases h | skip
    exact feed_normal st bs
  · rw [if_neg (by rw [not_normal_of_done h]; decide), feed_done h]

/-- What is left by the main loop can be fed on. -/
theorem cont_feed {sp : SP} (h : sp.mode.isNormal = true ∨ sp.mode.done = true) (bs : Bytes) :
    (cont sp bs).1.feed (cont sp bs).2 = cont sp bs := by
  unfold cont
  rcases h with h | h
  · rw [if_pos h]
    obtain ⟨a, c, d⟩ := run_facts _ sp.stack bs (Nat.le_refl _)
    rcases c with c | c
    · rw [feed_done c]
    · rw [c, feed_nil, ← c]
  · rw [if_neg (by rw [not_normal_of_done h]; decide), feed_done h]

/-- An unfinished string, fed. -/
theorem feed_string (st : List Frame) (n : Nat) (p : Bytes) (hp : p.length < n) (bs : Bytes) :
    SP.feed ⟨.string n p, st⟩ bs =
      if p.length + bs.length < n then (⟨.string n (p ++ bs), st⟩, [])
      else cont (deliver st (.str ((p ++ bs).take n))) ((p ++ bs).drop n) := by
  by_cases hne : bs = []
  · subst hne
    rw [feed_nil, if_pos (by simpa using hp)]; simp
  · rw [feed_step (sp := ⟨.string n p, st⟩) hp rfl hne]
    unfold SP.consume
    simp only
    by_cases hl : p.length + bs.length < n
    · rw [if_pos (by omega), if_pos hl, feed_nil]
    · rw [if_neg (by omega), if_neg hl]
      have e1 : (p ++ bs).take n = p ++ bs.take (n - p.length) := by
        rw [List.take_append, List.take_of_length_le (by omega)]
      have e2 : (p ++ bs).drop n = bs.drop (n - p.length) := by
        rw [List.drop_append, List.drop_of_length_le (by omega)]; rfl
      rw [e1, e2]
      exact cont_feed (deliver_mode _ _) _

/-- The header once complete. -/
theorem head_complete {b : Byte} (h1 : short b = none) (h2 : nbytes b ≠ 0) (bs : Bytes) (h3 : nbytes b ≤ bs.length + 1) :
    head b bs = .tok (long b (bs.take (nbytes b - 1))) (nbytes b - 1) := by
  unfold head
  rw [h1]
  simp only
  rw [if_neg h2, if_neg (by omega)]

theorem act_none_raw {st : List Frame} {t : Tok} (h : act st t = none) : ∃ n, t = .raw n := by
  cases t with
  | prim j => cases h
  | arr n => cases h
  | map n => cases h
  | raw n => exact ⟨n, rfl⟩

/-- An unfinished header, fed: as if the main loop saw it whole. -/
theorem feed_part (st : List Frame) (b : Byte) (p : Bytes) (h1 : short b = none) (h2 : nbytes b ≠ 0)
    (h3 : p.length + 1 < nbytes b) (bs : Bytes) :
    SP.feed ⟨.part (b :: p), st⟩ bs = run st (b :: p ++ bs) := by
  have hok : SP.Ok ⟨.part (b :: p), st⟩ := ⟨b, p, rfl, h1, h2, by simpa using h3⟩
  have hneed : ∀ q : Bytes, q.length + 1 < nbytes b → run st (b :: q) = (⟨.part (b :: q), st⟩, []) := by
    intro q hq
    rw [run_cons]
    have : head b q = .need := by
      unfold head; rw [h1]; simp only; rw [if_neg h2, if_pos hq]
    rw [this]
  by_cases hne : bs = []
  · subst hne
    rw [feed_nil, List.append_nil, hneed p h3]
  · rw [feed_step hok rfl hne]
    unfold SP.consume
    have hhd : nbytes ((b :: p).headD 0) - (b :: p).length = nbytes b - 1 - p.length := by
      show nbytes b - (p.length + 1) = _
      omega
    simp only [hhd]
    by_cases hl : bs.length < nbytes b - 1 - p.length
    · rw [if_pos hl, feed_nil]
      show _ = run st (b :: (p ++ bs))
      rw [hneed (p ++ bs) (by rw [List.length_append]; omega)]
      rfl
    · rw [if_neg hl]
      let k := nbytes b - 1
      have hk : k = nbytes b - 1 := rfl
      have htl : (p ++ bs.take (k - p.length)).length = k := by
        rw [List.length_append, List.length_take]; omega
      have hh1 := head_complete h1 h2 (p ++ bs.take (k - p.length)) (by omega)
      have hh2 := head_complete h1 h2 (p ++ bs) (by rw [List.length_append]; omega)
      have et : (p ++ bs).take k = p ++ bs.take (k - p.length) := by
        rw [List.take_append, List.take_of_length_le (by omega)]
      have ed : (p ++ bs).drop k = bs.drop (k - p.length) := by
        rw [List.drop_append, List.drop_of_length_le (by omega)]; rfl
      have e1 : (p ++ bs.take (k - p.length)).take k = p ++ bs.take (k - p.length) := List.take_of_length_le (by omega)
      have e2 : (p ++ bs.take (k - p.length)).drop k = [] := List.drop_of_length_le (by omega)
      rw [← hk] at hh1 hh2
      rw [e1] at hh1
      rw [et] at hh2
      have r1 : run st (b :: p ++ bs.take (k - p.length)) = run st (b :: (p ++ bs.take (k - p.length))) := rfl
      have r2 : run st (b :: p ++ bs) = run st (b :: (p ++ bs)) := rfl
      rw [← hk, r1, r2, run_cons, run_cons, hh1, hh2]
      simp only [e2, ed]
      cases ha : act st (long b (p ++ bs.take (k - p.length))) with
      | some sp =>
        simp only
        have hm := act_mode ha
        unfold cont
        rcases hm with hm | hm
        · rw [if_pos hm, if_pos hm, run_nil]
          show (run sp.stack (bs.drop (k - p.length))).1.feed (run sp.stack (bs.drop (k - p.length))).2 = _
          have := cont_feed (sp := sp) (.inl hm) (bs.drop (k - p.length))
          unfold cont at this
          rw [if_pos hm] at this
          exact this
        · have hn := not_normal_of_done hm
          simp only [hn, Bool.false_eq_true, if_false]
          rw [feed_done hm]
      | none =>
        obtain ⟨n, hn⟩ := act_none_raw ha
        simp only [hn, rawLen]
        cases n with
        | zero =>
          simp only [Nat.not_lt_zero, if_false, List.take_zero, List.drop_zero]
          have hm := deliver_mode st (.str [])
          unfold cont
          rcases hm with hm | hm
          · have hnn : Mode.normal.isNormal = true := rfl
            simp only [hm, if_true, run_nil, hnn]
            show (run _ (bs.drop (k - p.length))).1.feed (run _ (bs.drop (k - p.length))).2 = _
            have := cont_feed (sp := deliver st (.str [])) (.inl hm) (bs.drop (k - p.length))
            unfold cont at this
            simp only [hm, if_true] at this
            exact this
          · have hn := not_normal_of_done hm
            simp only [hn, Bool.false_eq_true, if_false]
            rw [feed_done hm]
        | succ n =>
          rw [if_pos (show ([] : Bytes).length < n + 1 by simp)]
          simp only [Mode.isNormal, Bool.false_eq_true, if_false]
          rw [feed_string st (n + 1) [] (by simp)]
          simp only [List.length_nil, Nat.zero_add, List.nil_append]

/-- The main loop on a longer input: run on the first part, then feed the rest. -/
theorem run_append : ∀ (n : Nat) (st : List Frame) (xs ys : Bytes), xs.length ≤ n →
    run st (xs ++ ys) = if (run st xs).1.mode.done then ((run st xs).1, (run st xs).2 ++ ys) else (run st xs).1.feed ys
  | n, st, [], ys, _ => by
    rw [run_nil, List.nil_append, if_neg (by simp [Mode.done]), feed_normal]
  | 0, st, b :: xs, ys, h => by simp at h
  | n + 1, st, b :: xs, ys, h => by
    have hxs : xs.length ≤ n := by simpa using h
    have hcont : ∀ (sp : SP) (r : Bytes), r.length ≤ xs.length → (sp.mode.isNormal = true ∨ sp.mode.done = true) →
        cont sp (r ++ ys) = if (cont sp r).1.mode.done then ((cont sp r).1, (cont sp r).2 ++ ys) else (cont sp r).1.feed ys := by
      intro sp r hr hm
      unfold cont
      rcases hm with hm | hm
      · rw [if_pos hm, if_pos hm]
        exact run_append n sp.stack r ys (by omega)
      · have hn := not_normal_of_done hm
        simp only [hn, Bool.false_eq_true, if_false]
        rw [if_pos hm]
    show run st (b :: (xs ++ ys)) = _
    rw [run_cons st b xs]
    cases hh : head b xs with
    | bad =>
      have : head b (xs ++ ys) = .bad := by
        unfold head at hh ⊢
        split at hh
        · cases hh
        · split at hh
          · rename_i h1 h2; rw [if_pos h2]
          · split at hh <;> cases hh
      rw [run_cons, this]
      rfl
    | need =>
      obtain ⟨h1, h2, h3⟩ := head_need hh
      simp only
      rw [if_neg (by simp [Mode.done]), feed_part st b xs h1 h2 h3]
      rfl
    | tok t k =>
      have : head b (xs ++ ys) = .tok t k ∧ k ≤ xs.length := by
        unfold head at hh ⊢
        split at hh
        · rename_i t' ht
          cases hh
          exact ⟨rfl, Nat.zero_le _⟩
        · split at hh
          · cases hh
          · split at hh
            · cases hh
            · rename_i h1 h2 h3
              cases hh
              rw [if_neg h2, if_neg (by rw [List.length_append]; omega)]
              refine ⟨?_, by omega⟩
              have et : (xs ++ ys).take (nbytes b - 1) = xs.take (nbytes b - 1) := List.take_append_of_le_length (by omega)
              rw [et]
      obtain ⟨hh2, hk⟩ := this
      rw [run_cons, hh2]
      simp only
      have ed : (xs ++ ys).drop k = xs.drop k ++ ys := List.drop_append_of_le_length hk
      rw [ed]
      cases ha : act st t with
      | some sp => exact hcont sp _ (by simp) (act_mode ha)
      | none =>
        simp only
        by_cases hl : (xs.drop k).length < rawLen t
        · rw [if_pos hl]
          simp only [Mode.done, Bool.false_eq_true, if_false]
          rw [feed_string st _ _ hl]
          simp only [List.length_append]
        · rw [if_neg hl, if_neg (by rw [List.length_append]; omega)]
          rw [List.take_append_of_le_length (by omega), List.drop_append_of_le_length (by omega)]
          exact hcont _ _ (by simp only [List.length_drop]; omega) (deliver_mode _ _)

/-- Feeding is a fold: feeding two pieces is feeding their concatenation. -/
theorem feed_append {sp : SP} (hok : sp.Ok) (xs ys : Bytes) :
    sp.feed (xs ++ ys) = if (sp.feed xs).1.mode.done then ((sp.feed xs).1, (sp.feed xs).2 ++ ys) else (sp.feed xs).1.feed ys := by
  obtain ⟨m, st⟩ := sp
  cases m with
  | final j => rw [feed_done rfl, feed_done rfl]; rfl
  | error => rw [feed_done rfl, feed_done rfl]; rfl
  | ub => rw [feed_done rfl, feed_done rfl]; rfl
  | normal => rw [feed_normal, feed_normal]; exact run_append _ st xs ys (Nat.le_refl _)
  | part buf =>
    obtain ⟨b, p, hb, h1, h2, h3⟩ := hok
    subst hb
    have h3' : p.length + 1 < nbytes b := by simpa using h3
    rw [feed_part st b p h1 h2 h3', feed_part st b p h1 h2 h3', ← List.append_assoc]
    exact run_append _ st (b :: p ++ xs) ys (Nat.le_refl _)
  | string n p =>
    have hp : p.length < n := hok
    rw [feed_string st n p hp, feed_string st n p hp]
    by_cases hl : p.length + xs.length < n
    · rw [if_pos hl]
      simp only [Mode.done, Bool.false_eq_true, if_false]
      rw [feed_string st n (p ++ xs) (by rw [List.length_append]; exact hl)]
      simp only [List.length_append, List.append_assoc, Nat.add_assoc]
    · rw [if_neg hl, if_neg (by rw [List.length_append]; omega)]
      rw [← List.append_assoc, List.take_append_of_le_length (by rw [List.length_append]; omega),
        List.drop_append_of_le_length (by rw [List.length_append]; omega)]
      have hm := deliver_mode st (.str ((p ++ xs).take n))
      unfold cont
      rcases hm with hm | hm
      · rw [if_pos hm, if_pos hm]
        exact run_append _ _ _ ys (Nat.le_refl _)
      · have hn := not_normal_of_done hm
        simp only [hn, Bool.false_eq_true, if_false]
        rw [if_pos hm]

/-- Feeding keeps the parser consistent and uses up the input unless it is done. -/
theorem feed_facts {sp : SP} (hok : sp.Ok) (bs : Bytes) :
    (sp.feed bs).1.Ok ∧ ((sp.feed bs).1.mode.done = true ∨ (sp.feed bs).2 = []) := by
  unfold SP.feed
  have : ∀ (n : Nat) (sp : SP) (bs : Bytes), sp.Ok → bs.length < n →
      (drive n sp bs).1.Ok ∧ ((drive n sp bs).1.mode.done = true ∨ (drive n sp bs).2 = []) := by
    intro n
    induction n with
    | zero => intro sp bs _ h; exact absurd h (Nat.not_lt_zero _)
    | succ n ih =>
      intro sp bs hok hn
      unfold drive
      by_cases h : sp.mode.done = true ∨ bs = []
      · rw [if_pos h]; exact ⟨hok, h⟩
      · rw [if_neg h]
        have hnd : sp.mode.done = false := by simpa using fun hd => h (.inl hd)
        obtain ⟨a, c⟩ := consume_facts hok hnd bs (fun hb => h (.inr hb))
        rcases c with c | c
        · exact ih _ _ a (by omega)
        · rw [drive_done c]; exact ⟨a, .inl c⟩
  exact this _ sp bs hok (Nat.lt_succ_self _)

end Verif.Msgpack
