import Verif.Server.Conn
import Verif.Msgpack.Wire

/-!
# The input buffer of a connection

Model of `conn::receive`, `check`, `hard_check`, `xposition` and `recent_string`, /repo/mtd.cc:482-509 and 527-552.
The connection remembers the bytes of the request it has just parsed, if they are all in one buffer; the server logs
part of them.

Simplifications:
* `inbuf_` is the list of the bytes received into it.  Older buffers and the strings pointing into them are not modelled.
* Blocks are the results of `read`; an empty block is the end of the input or an error.
-/
namespace Verif.Server
open Verif.Key (Bytes)
open Verif.Msgpack

/-- `inbufsz`, /repo/mtd.cc:467. -/
def inbufsz : Nat := 20480

/-- `inbuftotal_`, `inbufpos_`, `inbuf_[0, inbuflen_)` and `parser_`. -/
structure In where
  total : Nat
  pos : Nat
  data : Bytes
  sp : SP

/-- A new connection. -/
def In.new : In := ⟨0, 0, [], SP.init⟩

/-- `streaming_parser::empty`, /repo/msgpack.hh:627-629. -/
def empty (sp : SP) : Bool := sp.mode.isNormal && sp.stack.isEmpty

/-- The calls of `consume` until the buffer is used up or the parser is done, /repo/mtd.cc:483-486. -/
def In.parse (s : In) : In :=
  { s with sp := (s.sp.feed (s.data.drop s.pos)).1, pos := s.data.length - (s.sp.feed (s.data.drop s.pos)).2.length }

/-- The first half of `hard_check`, /repo/mtd.cc:527-538: a buffer whose bytes are not needed any more is used
again; a full one is put aside. -/
def In.hardCheck (s : In) : In :=
  if empty s.sp then { s with total := s.total + s.pos, pos := 0, data := [] }
  else if s.pos = inbufsz then { s with total := s.total + s.pos, pos := 0, data := [] }
  else s

/-- The second half, /repo/mtd.cc:549-551; `none` if `read` cannot return so much. -/
def In.read (s : In) (c : Bytes) : Option In :=
  if s.data.length + c.length ≤ inbufsz then some { s with data := s.data ++ c } else none

/-- The loop of `receive`, /repo/mtd.cc:483-486, with the blocks not yet read. -/
def In.receive (s : In) : List Bytes → Option (In × List Bytes)
  | [] => some (if s.parse.sp.mode.done then s.parse else s.parse.hardCheck, [])
  | c :: cs =>
    if s.parse.sp.mode.done then some (s.parse, c :: cs)
    else if c = [] then some (s.parse.hardCheck, cs)
    else (s.parse.hardCheck.read c).bind fun s' => s'.receive cs

/-- `xposition`, /repo/mtd.cc:500-502. -/
def In.xposition (s : In) : Nat := s.total + s.pos

/-- `recent_string`, /repo/mtd.cc:503-509, with its 64-bit subtraction. -/
def In.recent (s : In) (xp : Nat) : Bytes :=
  if (xp + 2 ^ 64 - s.total) % 2 ^ 64 ≤ s.pos then (s.data.take s.pos).drop ((xp + 2 ^ 64 - s.total) % 2 ^ 64) else []

/-- After a request, /repo/mtd.cc:487-488. -/
def In.reset (s : In) : In := { s with sp := SP.init }

/-! ### The parser is empty only before the first byte -/

theorem place_stack (st : List Frame) (v : Json) (h : (place st v).mode.isNormal = true) : (place st v).stack ≠ [] := by
  fun_induction place st v
  case case1 => cases h
  case case2 ih => exact ih h
  case case3 => simp
  case case4 ih => exact ih h
  case case5 => simp
  case case6 => cases h

theorem deliver_stack (st : List Frame) (v : Json) (h : (deliver st v).mode.isNormal = true) : (deliver st v).stack ≠ [] := by
  fun_cases deliver st v
  · simp
  · simp
  · simp
  · simp
  · rename_i hx
    have e : deliver st v = place st v := by
      unfold deliver
      split <;> first | rfl | skip
      all_goals simp_all
    rw [e] at h
    exact place_stack _ _ h

theorem act_stack (st : List Frame) (t : Tok) {sp : SP} (ha : act st t = some sp) (h : sp.mode.isNormal = true) : sp.stack ≠ [] := by
  have h1 : ∀ n, (openArr st n).mode.isNormal = true → (openArr st n).stack ≠ [] := by
    intro n
    fun_cases openArr st n
    · intro h; cases h
    · exact place_stack _ _
    · intro _; simp
  have h2 : ∀ n, (openMap st n).mode.isNormal = true → (openMap st n).stack ≠ [] := by
    intro n
    fun_cases openMap st n
    · intro h; cases h
    · exact place_stack _ _
    · intro _; simp
  cases t with
  | prim j => cases ha; exact deliver_stack _ _ h
  | arr n =>
    simp only [act, Option.some.injEq] at ha
    subst ha
    by_cases hn : n < 2147483648
    · rw [if_pos hn] at h ⊢; exact h1 n h
    · rw [if_neg hn] at h; cases h
  | map n =>
    simp only [act, Option.some.injEq] at ha
    subst ha
    by_cases hn : n < 2147483648
    · rw [if_pos hn] at h ⊢; exact h2 n h
    · rw [if_neg hn] at h; cases h
  | raw n =>
    unfold act at ha
    dsimp only at ha
    split at ha
    · cases ha
    · cases ha; cases h

theorem run_stack : ∀ (n : Nat) (st : List Frame) (bs : Bytes), bs.length ≤ n → (bs ≠ [] ∨ st ≠ []) → (run st bs).1.mode.isNormal = true →
    (run st bs).1.stack ≠ []
  | _, st, [], _, hne, _ => by rw [run_nil]; exact hne.resolve_left (fun h => h rfl)
  | 0, st, b :: bs, h, _, _ => by simp at h
  | n + 1, st, b :: bs, hl, _, h => by
    have hbs : bs.length ≤ n := by simpa using hl
    have hc : ∀ (sp : SP) (r : Bytes), r.length ≤ n → (sp.mode.isNormal = true → sp.stack ≠ []) → (cont sp r).1.mode.isNormal = true →
        (cont sp r).1.stack ≠ [] := by
      intro sp r hr hs hm
      unfold cont at hm ⊢
      split at hm
      · rename_i hn
        rw [if_pos hn]
        exact run_stack n sp.stack r hr (.inr (hs hn)) hm
      · rename_i hn
        exact absurd hm hn
    cases hh : head b bs with
    | bad => rw [run_cons, hh] at h; cases h
    | need => rw [run_cons, hh] at h; cases h
    | tok t k =>
      rw [run_tok hh] at h ⊢
      cases ha : act st t with
      | some sp =>
        rw [ha] at h
        exact hc sp _ (by rw [List.length_drop]; omega) (act_stack st t ha) h
      | none =>
        rw [ha] at h
        change (rawStep st (rawLen t) (bs.drop k)).1.mode.isNormal = true at h
        show (rawStep st (rawLen t) (bs.drop k)).1.stack ≠ []
        unfold rawStep at h ⊢
        split at h
        · cases h
        · rename_i hx
          rw [if_neg hx]
          exact hc _ _ (by rw [List.length_drop, List.length_drop]; omega) (deliver_stack _ _) h

theorem not_empty {bs : Bytes} (h : bs ≠ []) : empty (SP.init.feed bs).1 = false := by
  have e : SP.init.feed bs = run [] bs := feed_normal [] bs
  unfold empty
  rw [Bool.and_eq_false_iff]
  by_cases hm : (SP.init.feed bs).1.mode.isNormal = true
  · right
    rw [e] at hm ⊢
    have := run_stack _ [] bs (Nat.le_refl _) (.inl h) hm
    cases hs : (run [] bs).1.stack with
    | nil => exact absurd hs this
    | cons => rfl
  · left
    simpa using hm

/-! ### What is remembered -/

/-- The state between two reads, `q` being the part of the message read so far: the bytes of `q` are in the buffer after `start`
others, or the buffer has been changed since the message began at position `xp` of the stream. -/
structure Mid (s : In) (xp start : Nat) (q : Bytes) : Prop where
  sp : s.sp = (SP.init.feed q).1
  live : (SP.init.feed q).1.mode.done = false
  pos : s.pos ≤ s.data.length
  len : s.data.length ≤ inbufsz
  here : (s.total + start = xp ∧ ∃ front, front.length = start ∧ s.data.take s.pos = front ++ q) ∨
    (xp < s.total ∧ inbufsz ≤ start + q.length)

theorem feed_rest {bs : Bytes} (h : (SP.init.feed bs).1.mode.done = false) : (SP.init.feed bs).2 = [] := by
  have e : SP.init.feed bs = run [] bs := feed_normal [] bs
  rw [e] at h ⊢
  rcases (run_facts _ [] bs (Nat.le_refl _)).2.1 with c | c
  · rw [h] at c; cases c
  · exact c

theorem feed_ends (bs : Bytes) (j : Json) (rest : Bytes) :
    ((SP.init.feed bs).1.mode = .final j ∧ (SP.init.feed bs).2 = rest) ↔ ∃ pre, bs = pre ++ rest ∧ Wire j pre := by
  rw [← accepts_iff]
  have e : SP.init.feed bs = SP.init.consume bs := feed_normal [] bs
  rw [e]
  rfl

theorem parse_mid {s : In} {xp start : Nat} {q : Bytes} (h : Mid s xp start q) :
    SP.init.feed (q ++ s.data.drop s.pos) = s.sp.feed (s.data.drop s.pos) := by
  rw [feed_append (sp := SP.init) trivial, h.live, if_neg Bool.false_ne_true, h.sp]

/-- The end of a message. -/
theorem parse_done {s : In} {xp start : Nat} {q : Bytes} (h : Mid s xp start q) {j : Json} (hj : s.parse.sp.mode = .final j)
    (hbig : s.total + s.data.length < 2 ^ 64) :
    ∃ pre, Wire j pre ∧ q ++ s.data.drop s.pos = pre ++ s.parse.data.drop s.parse.pos ∧
      s.parse.recent xp = if start + pre.length ≤ inbufsz then pre else [] := by
  have hf := parse_mid h
  have hpos := h.pos
  obtain ⟨pre, e, hw⟩ := (feed_ends (q ++ s.data.drop s.pos) j (s.sp.feed (s.data.drop s.pos)).2).1 ⟨by rw [hf]; exact hj, by rw [hf]⟩
  -- the message goes beyond `q`
  have hgt : q.length < pre.length := by
    by_contra hc
    have : pre = q.take pre.length := by
      have := congrArg (List.take pre.length) e
      rw [List.take_left, List.take_append_of_le_length (by omega)] at this
      exact this.symm
    have h2 : Wire j (q.take pre.length) := this ▸ hw
    have := ((feed_ends q j (q.drop pre.length)).2 ⟨_, (List.take_append_drop _ _).symm, h2⟩).1
    have hl := h.live
    rw [this] at hl
    cases hl
  generalize hr : (s.sp.feed (s.data.drop s.pos)).2 = r at e
  have hlen := congrArg List.length e
  rw [List.length_append, List.length_append, List.length_drop] at hlen
  have hpd : s.parse.data = s.data := rfl
  have hpt : s.parse.total = s.total := rfl
  have hpp : s.parse.pos = s.data.length - r.length := by rw [← hr]; rfl
  have hrl : r.length ≤ s.data.length - s.pos := by omega
  have hdrop : s.data.drop (s.data.length - r.length) = r := by
    have h1 : q ++ s.data.drop s.pos = (pre ++ r) := e
    have h2 := congrArg (List.drop pre.length) h1
    rw [List.drop_left, List.drop_append, List.drop_drop] at h2
    rw [List.drop_eq_nil_of_le (by omega), List.nil_append] at h2
    refine Eq.trans ?_ h2
    congr 1
    omega
  refine ⟨pre, hw, by rw [hpd, hpp, hdrop]; exact e, ?_⟩
  unfold In.recent
  rw [hpt, hpp, hpd]
  rcases h.here with ⟨h1, front, h2, h3⟩ | ⟨h1, h2⟩
  · have hsp : s.pos = start + q.length := by
      have := congrArg List.length h3
      rw [List.length_take, List.length_append, h2] at this
      omega
    have hle : start + pre.length ≤ inbufsz := by have := h.len; omega
    rw [if_pos hle]
    have hx : (xp + 2 ^ 64 - s.total) % 2 ^ 64 = start := by omega
    rw [hx, if_pos (by omega)]
    have hd : s.data = front ++ (q ++ s.data.drop s.pos) := by
      rw [← List.append_assoc, ← h3, List.take_append_drop]
    have hpre : s.data.length - r.length = (front ++ pre).length := by
      rw [List.length_append, h2]; omega
    rw [hpre]
    have : s.data = front ++ pre ++ r := by rw [hd, e, List.append_assoc]
    rw [this, List.take_left, ← h2, List.drop_left]
  · have : (xp + 2 ^ 64 - s.total) % 2 ^ 64 = xp + 2 ^ 64 - s.total := Nat.mod_eq_of_lt (by omega)
    rw [this, if_neg (by omega), if_neg (by omega)]

/-- From one read to the next. -/
theorem next_mid {s : In} {xp start : Nat} {q : Bytes} (h : Mid s xp start q) (hnd : s.parse.sp.mode.done = false)
    (hne : q ++ s.data.drop s.pos ≠ []) {c : Bytes} {s' : In} (hr : s.parse.hardCheck.read c = some s') :
    Mid s' xp start (q ++ s.data.drop s.pos) ∧ s'.data.drop s'.pos = c := by
  have hf := parse_mid h
  have hpos := h.pos
  have hsp : s.parse.sp = (SP.init.feed (q ++ s.data.drop s.pos)).1 := by rw [hf]; rfl
  have hrest : (s.sp.feed (s.data.drop s.pos)).2 = [] := by
    rw [← hf]
    exact feed_rest (by rw [← hsp]; exact hnd)
  have hpp : s.parse.pos = s.data.length := by
    show s.data.length - (s.sp.feed (s.data.drop s.pos)).2.length = _
    rw [hrest]; rfl
  have hpd : s.parse.data = s.data := rfl
  have hpt : s.parse.total = s.total := rfl
  have hem : empty s.parse.sp = false := by rw [hsp]; exact not_empty hne
  have hlen := congrArg List.length (rfl : q ++ s.data.drop s.pos = q ++ s.data.drop s.pos)
  have hql : (q ++ s.data.drop s.pos).length = q.length + (s.data.length - s.pos) := by rw [List.length_append, List.length_drop]
  have hqpos : 0 < (q ++ s.data.drop s.pos).length := List.length_pos_iff.2 hne
  unfold In.hardCheck at hr
  rw [hem, if_neg Bool.false_ne_true] at hr
  by_cases hb : s.parse.pos = inbufsz
  · rw [if_pos hb] at hr
    unfold In.read at hr
    split at hr
    · rename_i hc
      cases hr
      refine ⟨⟨hsp, by rw [← hsp]; exact hnd, by simp, by simpa using hc, .inr ?_⟩, by simp⟩
      show xp < s.parse.total + s.parse.pos ∧ _
      rw [hpt, hb]
      rw [hpp] at hb
      rcases h.here with ⟨h1, front, h2, h3⟩ | ⟨h1, h2⟩
      · have := congrArg List.length h3
        rw [List.length_take, List.length_append, h2] at this
        omega
      · omega
    · cases hr
  · rw [if_neg hb] at hr
    unfold In.read at hr
    split at hr
    · rename_i hc
      cases hr
      rw [hpd] at hc
      refine ⟨⟨hsp, by rw [← hsp]; exact hnd, ?_, ?_, ?_⟩, ?_⟩
      · show s.parse.pos ≤ (s.parse.data ++ c).length
        rw [hpp, hpd, List.length_append]; omega
      · show (s.parse.data ++ c).length ≤ _
        rw [hpd, List.length_append]; exact hc
      · rcases h.here with ⟨h1, front, h2, h3⟩ | ⟨h1, h2⟩
        · refine .inl ⟨h1, front, h2, ?_⟩
          show (s.parse.data ++ c).take s.parse.pos = _
          rw [hpp, hpd, List.take_left, ← List.append_assoc, ← h3, List.take_append_drop]
        · exact .inr ⟨h1, by omega⟩
      · show (s.parse.data ++ c).drop s.parse.pos = c
        rw [hpp, hpd, List.drop_left]
    · cases hr

theorem receive_mid : ∀ (cs : List Bytes) (s : In) (xp start : Nat) (q : Bytes), Mid s xp start q → s.data.drop s.pos ≠ [] →
    ∀ (s' : In) (cs' : List Bytes) (j : Json), s.receive cs = some (s', cs') → s'.sp.mode = .final j →
    s'.total + s'.data.length < 2 ^ 64 →
    ∃ pre, Wire j pre ∧ q ++ s.data.drop s.pos ++ cs.flatten = pre ++ (s'.data.drop s'.pos ++ cs'.flatten) ∧
      s'.recent xp = if start + pre.length ≤ inbufsz then pre else []
  | [], s, xp, start, q, h, hne, s', cs', j, hr, hj, hbig => by
    unfold In.receive at hr
    cases hr
    by_cases hd : s.parse.sp.mode.done = true
    · rw [if_pos hd] at hj hbig ⊢
      obtain ⟨pre, a, b, c⟩ := parse_done h hj hbig
      exact ⟨pre, a, by rw [b]; simp, c⟩
    · rw [if_neg hd] at hj
      exfalso
      have : s.parse.hardCheck.sp = s.parse.sp := by unfold In.hardCheck; split <;> [rfl; split <;> rfl]
      rw [this] at hj
      rw [hj] at hd
      exact hd rfl
  | c :: cs, s, xp, start, q, h, hne, s', cs', j, hr, hj, hbig => by
    unfold In.receive at hr
    by_cases hd : s.parse.sp.mode.done = true
    · rw [if_pos hd] at hr
      cases hr
      obtain ⟨pre, a, b, c⟩ := parse_done h hj hbig
      exact ⟨pre, a, by rw [b, List.append_assoc], c⟩
    · rw [if_neg hd] at hr
      have hsp : s.parse.hardCheck.sp = s.parse.sp := by unfold In.hardCheck; split <;> [rfl; split <;> rfl]
      by_cases hc : c = []
      · rw [if_pos hc] at hr
        cases hr
        rw [hsp] at hj
        rw [hj] at hd
        exact absurd rfl hd
      · rw [if_neg hc] at hr
        obtain ⟨s2, h2, hr⟩ := Option.bind_eq_some_iff.1 hr
        have hd' : s.parse.sp.mode.done = false := by simpa using hd
        obtain ⟨hm, hdrop⟩ := next_mid h hd' (by intro e; exact hne (List.append_eq_nil_iff.1 e).2) h2
        obtain ⟨pre, a, b, e⟩ := receive_mid cs s2 xp start _ hm (by rw [hdrop]; exact hc) s' cs' j hr hj hbig
        exact ⟨pre, a, by rw [← b, hdrop, List.flatten_cons]; simp, e⟩

/-- Where a new message starts in the buffer: after what is there, or at the beginning if nothing is left. -/
def In.start (s : In) : Nat := if s.pos = s.data.length then 0 else s.pos

/-- A connection between two requests. -/
structure In.Ready (s : In) : Prop where
  sp : s.sp = SP.init
  pos : s.pos ≤ s.data.length
  len : s.data.length ≤ inbufsz

theorem ready_new : In.new.Ready := ⟨rfl, Nat.le_refl _, Nat.zero_le _⟩

theorem receive_ready {s : In} (h : s.Ready) {cs : List Bytes} {s' : In} {cs' : List Bytes} {j : Json}
    (hr : s.receive cs = some (s', cs')) (hj : s'.sp.mode = .final j) (hbig : s'.total + s'.data.length < 2 ^ 64) :
    ∃ pre, Wire j pre ∧ s.data.drop s.pos ++ cs.flatten = pre ++ (s'.data.drop s'.pos ++ cs'.flatten) ∧
      s'.recent s.xposition = if s.start + pre.length ≤ inbufsz then pre else [] := by
  have hnil : SP.init.feed [] = (SP.init, []) := feed_nil _
  by_cases he : s.pos = s.data.length
  · -- nothing in the buffer
    have hd : s.data.drop s.pos = [] := by rw [he]; simp
    have hp : s.parse = s := by
      unfold In.parse
      rw [hd, h.sp, hnil]
      obtain ⟨a, b, c, d⟩ := s
      have := h.sp
      simp only at this he ⊢
      rw [this, he]
      rfl
    have hst : s.start = 0 := if_pos he
    have hnd : ¬ s.parse.sp.mode.done = true := by rw [hp, h.sp]; exact Bool.false_ne_true
    have hhc : s.parse.hardCheck = ⟨s.total + s.pos, 0, [], SP.init⟩ := by
      rw [hp]
      unfold In.hardCheck
      rw [if_pos (by rw [h.sp]; rfl), h.sp]
    cases cs with
    | nil =>
      unfold In.receive at hr
      cases hr
      rw [if_neg hnd, hhc] at hj
      cases hj
    | cons c cs =>
      unfold In.receive at hr
      rw [if_neg hnd] at hr
      by_cases hc : c = []
      · rw [if_pos hc] at hr
        cases hr
        rw [hhc] at hj
        cases hj
      · rw [if_neg hc, hhc] at hr
        obtain ⟨s2, h2, hr⟩ := Option.bind_eq_some_iff.1 hr
        unfold In.read at h2
        split at h2
        · rename_i hcl
          cases h2
          have hm : Mid ⟨s.total + s.pos, 0, [] ++ c, SP.init⟩ s.xposition 0 [] :=
            ⟨by rw [hnil], by rw [hnil]; rfl, Nat.zero_le _, by simpa using hcl, .inl ⟨rfl, [], rfl, rfl⟩⟩
          obtain ⟨pre, a, b, e⟩ := receive_mid cs _ _ _ _ hm (by simpa using hc) s' cs' j hr hj hbig
          refine ⟨pre, a, ?_, by rw [hst]; exact e⟩
          rw [← b, hd]
          simp
        · cases h2
  · have hst : s.start = s.pos := if_neg he
    have hpos := h.pos
    have hm : Mid s s.xposition s.pos [] :=
      ⟨by rw [hnil]; exact h.sp, by rw [hnil]; rfl, h.pos, h.len, .inl ⟨rfl, s.data.take s.pos, by rw [List.length_take]; omega, by simp⟩⟩
    obtain ⟨pre, a, b, e⟩ := receive_mid cs s _ _ _ hm (by
      intro e
      have := congrArg List.length e
      rw [List.length_drop] at this
      simp at this
      omega) s' cs' j hr hj hbig
    exact ⟨pre, a, by rw [← b]; simp, by rw [hst]; exact e⟩

/-- The buffer stays within its size. -/
theorem receive_bounds : ∀ (cs : List Bytes) (s : In), s.pos ≤ s.data.length → s.data.length ≤ inbufsz → ∀ s' cs',
    s.receive cs = some (s', cs') → s'.pos ≤ s'.data.length ∧ s'.data.length ≤ inbufsz := by
  have hp : ∀ s : In, s.data.length ≤ inbufsz → s.parse.pos ≤ s.parse.data.length ∧ s.parse.data.length ≤ inbufsz := fun s h =>
    ⟨Nat.sub_le _ _, h⟩
  have hh : ∀ s : In, s.pos ≤ s.data.length ∧ s.data.length ≤ inbufsz → s.hardCheck.pos ≤ s.hardCheck.data.length ∧ s.hardCheck.data.length ≤ inbufsz := by
    intro s h
    unfold In.hardCheck
    split
    · exact ⟨Nat.le_refl _, Nat.zero_le _⟩
    · split
      · exact ⟨Nat.le_refl _, Nat.zero_le _⟩
      · exact h
  intro cs
  induction cs with
  | nil =>
    intro s h1 h2 s' cs' hr
    unfold In.receive at hr
    cases hr
    split
    · exact hp s h2
    · exact hh _ (hp s h2)
  | cons c cs ih =>
    intro s h1 h2 s' cs' hr
    unfold In.receive at hr
    split at hr
    · cases hr; exact hp s h2
    split at hr
    · cases hr; exact hh _ (hp s h2)
    · obtain ⟨s2, h3, hr⟩ := Option.bind_eq_some_iff.1 hr
      have h4 := hh _ (hp s h2)
      unfold In.read at h3
      split at h3
      · rename_i hc
        cases h3
        refine ih _ ?_ ?_ s' cs' hr
        · show s.parse.hardCheck.pos ≤ (s.parse.hardCheck.data ++ c).length
          rw [List.length_append]; omega
        · show (s.parse.hardCheck.data ++ c).length ≤ _
          rw [List.length_append]; exact hc
      · cases h3

end Verif.Server
