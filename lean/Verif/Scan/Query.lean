import Verif.Scan.Main

/-!
# Scan requests

Model of `query_json_scanner` (/repo/kvrow.hh:268-312) and of `query::run_scan`, `run_rscan`
(/repo/kvrow.hh:314-347).

`marker` is `row_is_marker` (/repo/kvproto.hh:52-55) and `emit` what `emit_fields1` makes of
a row.  The reply holds references into the string buffer `scankey_`, which is replaced by a
larger one when it is full; earlier buffers stay alive because strings are reference counted
(/repo/string.hh), so buffers are kept in a list here and a reference is a triple (buffer,
position, length).  `fresh n` is the uninitialised content of a new buffer of `n` bytes.
`nleft_` is an integer without a lower bound; the code's assertion is that it starts above 0.
-/
namespace Verif.Scan
open Verif.Key (Bytes)
variable {V F : Type}

/-- `query_json_scanner` with the fields `scankey_` and `scankeypos_` of `query`. -/
structure QS (F : Type) where
  left : Int
  bufs : List Bytes
  pos : Nat
  out : List ((Nat × Nat × Nat) × F)

/-- The buffer `scankey_`, the last one. -/
def QS.cur (q : QS F) : Bytes := q.bufs.getLastD []

/-- The size that the loop at /repo/kvrow.hh:292-295 ends with. -/
def growCap (len cap : Nat) : Nat :=
  if len ≤ cap then cap else growCap len (if cap = 0 then 1024 else cap * 2)
termination_by len - cap
decreasing_by split <;> omega

/-- Make room for `len` bytes: /repo/kvrow.hh:292-295. -/
def QS.grow (fresh : Nat → Bytes) (q : QS F) (len : Nat) : QS F :=
  if q.pos + len ≤ q.cur.length then q
  else
    { q with
      bufs := q.bufs ++ [fresh (growCap len (if q.cur.length = 0 then 1024 else q.cur.length * 2))]
      pos := 0 }

/-- `visit_value`, /repo/kvrow.hh:288-305. -/
def visitValue (marker : V → Bool) (emit : V → F) (fresh : Nat → Bytes) (q : QS F) (key : Bytes) (v : V) :
    QS F × Bool :=
  if marker v then (q, true)
  else
    let q := q.grow fresh key.length
    let b := q.cur.take q.pos ++ key ++ q.cur.drop (q.pos + key.length)
    ({ left := q.left - 1
       bufs := q.bufs.dropLast ++ [b]
       pos := q.pos + key.length
       out := q.out ++ [((q.bufs.length - 1, q.pos, key.length), emit v)] }, decide (q.left - 1 ≠ 0))

/-- The reply as it is read after the scan. -/
def QS.reply (q : QS F) : List (Bytes × F) :=
  q.out.map fun r => (((q.bufs.getD r.1.1 []).drop r.1.2.1).take r.1.2.2, r.2)

/-- `run_scan` and `run_rscan`: a scan from the given key, that key included, with limit `n`;
`old` is the buffer `scankey_` left from earlier requests. -/
def runScan (d : Dir) (marker : V → Bool) (emit : V → F) (fresh : Nat → Bytes) (t : Trie.T V)
    (first junk old : Bytes) (n : Int) (fuel : Nat) : Res (QS F) :=
  exec d true (visitValue marker emit fresh) fuel (start t first junk) ⟨n, [old], 0, []⟩ 0

/-! ### Facts -/

theorem growCap_ge (len cap : Nat) : len ≤ growCap len cap := by
  fun_induction growCap len cap with
  | case1 => assumption
  | case2 _ _ ih => exact ih

/-- The references of the reply stay within their buffers and below the write position. -/
structure QS.Ok (q : QS F) : Prop where
  ne : q.bufs ≠ []
  pos : q.pos ≤ q.cur.length
  refs : ∀ r ∈ q.out, ∃ b, q.bufs[r.1.1]? = some b ∧ r.1.2.1 + r.1.2.2 ≤ b.length ∧
    (r.1.1 + 1 = q.bufs.length → r.1.2.1 + r.1.2.2 ≤ q.pos)

theorem QS.cur_append {q : QS F} {l : List Bytes} {b : Bytes} (h : q.bufs = l ++ [b]) : q.cur = b := by
  unfold QS.cur; rw [h]; simp

theorem grow_ok {fresh : Nat → Bytes} (hf : ∀ n, (fresh n).length = n) {q : QS F} (h : q.Ok) (len : Nat) :
    (q.grow fresh len).Ok ∧ (q.grow fresh len).reply = q.reply ∧
      (q.grow fresh len).pos + len ≤ (q.grow fresh len).cur.length ∧ (q.grow fresh len).left = q.left := by
  unfold QS.grow
  split
  · next hc => exact ⟨h, rfl, hc, rfl⟩
  · refine ⟨⟨by simp, by simp, ?_⟩, ?_, ?_, rfl⟩
    · intro r hr
      obtain ⟨b, h1, h2, h3⟩ := h.refs r hr
      have hlt : r.1.1 < q.bufs.length := by
        rcases Nat.lt_or_ge r.1.1 q.bufs.length with c | c
        · exact c
        · rw [List.getElem?_eq_none c] at h1; simp at h1
      refine ⟨b, ?_, h2, ?_⟩
      · dsimp only; rw [List.getElem?_append_left hlt]; exact h1
      · dsimp only; simp only [List.length_append, List.length_singleton]; omega
    · unfold QS.reply
      dsimp only
      apply List.map_congr_left
      intro r hr
      obtain ⟨b, h1, _, _⟩ := h.refs r hr
      have hlt : r.1.1 < q.bufs.length := by
        rcases Nat.lt_or_ge r.1.1 q.bufs.length with c | c
        · exact c
        · rw [List.getElem?_eq_none c] at h1; simp at h1
      rw [List.getD_eq_getElem?_getD, List.getD_eq_getElem?_getD, List.getElem?_append_left hlt]
    · have hc : ∀ x : Bytes, QS.cur { q with bufs := q.bufs ++ [x], pos := 0 } = x :=
        fun x => QS.cur_append (l := q.bufs) rfl
      rw [hc, hf]
      have := growCap_ge len (if q.cur.length = 0 then 1024 else q.cur.length * 2)
      dsimp only
      omega

theorem visit_live {marker : V → Bool} {emit : V → F} {fresh : Nat → Bytes} (hf : ∀ n, (fresh n).length = n)
    {q : QS F} (h : q.Ok) (k : Bytes) {v : V} (hv : marker v = false) :
    let r := visitValue marker emit fresh q k v
    r.1.Ok ∧ r.1.reply = q.reply ++ [(k, emit v)] ∧ r.1.left = q.left - 1 ∧ (r.2 = true ↔ q.left ≠ 1) := by
  obtain ⟨g1, g2, g3, g4⟩ := grow_ok hf h k.length
  obtain ⟨q', hq'⟩ : ∃ q', q' = q.grow fresh k.length := ⟨_, rfl⟩
  unfold visitValue
  rw [hv]
  simp only [Bool.false_eq_true, if_false]
  rw [← hq'] at g1 g2 g3 g4 ⊢
  obtain ⟨b, hb⟩ : ∃ b, b = q'.cur.take q'.pos ++ k ++ q'.cur.drop (q'.pos + k.length) := ⟨_, rfl⟩
  rw [← hb]
  have hbl : b.length = q'.cur.length := by
    rw [hb]; simp only [List.length_append, List.length_take, List.length_drop]; omega
  have hdl : q'.bufs.dropLast.length + 1 = q'.bufs.length := by
    have := List.length_pos_iff.mpr g1.ne
    simp; omega
  have hcur : q'.bufs = q'.bufs.dropLast ++ [q'.cur] := by
    unfold QS.cur
    rw [List.getLastD_eq_getLast?, List.getLast?_eq_some_getLast g1.ne]
    exact (List.dropLast_concat_getLast g1.ne).symm
  have hlast : (q'.bufs.dropLast ++ [b])[q'.bufs.length - 1]? = some b := by
    rw [show q'.bufs.length - 1 = q'.bufs.dropLast.length by omega]; simp
  have hbuf : ∀ i, i + 1 < q'.bufs.length → (q'.bufs.dropLast ++ [b])[i]? = q'.bufs[i]? := by
    intro i hi
    rw [List.getElem?_append_left (by omega)]
    conv => rhs; rw [hcur]
    rw [List.getElem?_append_left (by omega)]
  have hlastq : q'.bufs[q'.bufs.length - 1]? = some q'.cur := by
    conv => lhs; rw [hcur]
    rw [show (q'.bufs.dropLast ++ [q'.cur]).length - 1 = q'.bufs.dropLast.length by simp]; simp
  refine ⟨⟨by simp, ?_, ?_⟩, ?_, by rw [g4], ?_⟩
  · rw [QS.cur_append (l := q'.bufs.dropLast) rfl, hbl]; exact g3
  · intro r hr
    simp only [List.mem_append, List.mem_singleton] at hr
    simp only [List.length_append, List.length_singleton, hdl]
    rcases hr with hr | rfl
    · obtain ⟨b', e1, e2, e3⟩ := g1.refs r hr
      by_cases c : r.1.1 + 1 = q'.bufs.length
      · have e4 := e3 c
        refine ⟨b, ?_, by omega, fun _ => by omega⟩
        rw [show r.1.1 = q'.bufs.length - 1 by omega]; exact hlast
      · have hlt : r.1.1 < q'.bufs.length := by
          rcases Nat.lt_or_ge r.1.1 q'.bufs.length with c | c
          · exact c
          · rw [List.getElem?_eq_none c] at e1; simp at e1
        exact ⟨b', by rw [hbuf _ (by omega)]; exact e1, e2, fun h => absurd h c⟩
    · exact ⟨b, hlast, by dsimp only; omega, fun _ => Nat.le_refl _⟩
  · rw [← g2]
    unfold QS.reply
    simp only [List.map_append, List.map_cons, List.map_nil]
    congr 1
    · apply List.map_congr_left
      intro r hr
      obtain ⟨b', e1, e2, e3⟩ := g1.refs r hr
      rw [List.getD_eq_getElem?_getD, List.getD_eq_getElem?_getD]
      by_cases c : r.1.1 + 1 = q'.bufs.length
      · have e4 := e3 c
        rw [show r.1.1 = q'.bufs.length - 1 by omega, hlast, hlastq]
        simp only [Option.getD_some, Prod.mk.injEq, and_true]
        rw [List.take_drop, List.take_drop, hb, List.append_assoc,
          List.take_append_of_le_length (by rw [List.length_take]; have := g1.pos; omega), List.take_take,
          Nat.min_eq_left e4]
      · have hlt : r.1.1 < q'.bufs.length := by
          rcases Nat.lt_or_ge r.1.1 q'.bufs.length with c | c
          · exact c
          · rw [List.getElem?_eq_none c] at e1; simp at e1
        rw [hbuf _ (by omega)]
    · rw [List.getD_eq_getElem?_getD, hlast]
      simp only [Option.getD_some, List.cons.injEq, Prod.mk.injEq, and_true]
      rw [hb, List.append_assoc, List.drop_left' (by rw [List.length_take]; have := g1.pos; omega), List.take_left]
  · rw [g4]; simp only [ne_eq, decide_eq_true_eq]; omega

theorem feed_query {marker : V → Bool} {emit : V → F} {fresh : Nat → Bytes} (hf : ∀ n, (fresh n).length = n)
    (L : List (Bytes × V)) : ∀ (q : QS F) (n cnt : Nat), q.Ok → q.left = n → 0 < n →
    ∃ m q', m ≤ L.length ∧ feed (visitValue marker emit fresh) L q cnt = .fin q' (cnt + m) ∧
      q'.reply = q.reply ++ ((L.filter fun e => !marker e.2).take n).map (fun e => (e.1, emit e.2)) ∧
      (L.take m).filter (fun e => !marker e.2) = (L.filter fun e => !marker e.2).take n ∧
      (m < L.length → 0 < m ∧ ((L.take m).filter fun e => !marker e.2).length = n ∧
        ∀ e, L[m - 1]? = some e → marker e.2 = false) := by
  induction L with
  | nil => intro q n cnt _ _ _; exact ⟨0, q, by simp, rfl, by simp, by simp, by simp⟩
  | cons e L ih =>
    obtain ⟨k, v⟩ := e
    intro q n cnt hq hn hpos
    unfold feed
    dsimp only
    by_cases hm : marker v = true
    · have hv : visitValue marker emit fresh q k v = (q, true) := by unfold visitValue; rw [if_pos hm]
      rw [hv]
      simp only [if_true]
      obtain ⟨m, q', h1, h2, h3, h4, h5⟩ := ih q n (cnt + 1) hq hn hpos
      refine ⟨m + 1, q', by simpa using h1, by rw [h2]; congr 1; omega, ?_, ?_, ?_⟩
      · rw [h3]; simp [hm]
      · simpa [hm] using h4
      · intro hlt
        obtain ⟨a, b, c⟩ := h5 (by simpa using hlt)
        refine ⟨by omega, by simpa [hm] using b, ?_⟩
        intro e he
        obtain ⟨m', rfl⟩ : ∃ m', m = m' + 1 := ⟨m - 1, by omega⟩
        exact c e (by simpa using he)
    · have hm' : marker v = false := by simpa using hm
      obtain ⟨g1, g2, g3, g4⟩ := visit_live (emit := emit) hf hq k hm'
      by_cases h1 : n = 1
      · subst h1
        have : ¬ (visitValue marker emit fresh q k v).2 = true := by rw [g4, hn]; simp
        rw [if_neg this]
        refine ⟨1, _, by simp, rfl, ?_, ?_, ?_⟩
        · rw [g2]; simp [hm']
        · simp [hm']
        · intro _
          refine ⟨by omega, by simp [hm'], ?_⟩
          intro e he
          simp only [Nat.sub_self, List.getElem?_cons_zero, Option.some.injEq] at he
          subst he; exact hm'
      · have : (visitValue marker emit fresh q k v).2 = true := by rw [g4, hn]; omega
        rw [if_pos this]
        obtain ⟨n', rfl⟩ : ∃ n', n = n' + 1 := ⟨n - 1, by omega⟩
        obtain ⟨m, q', h1, h2, h3, h4, h5⟩ := ih _ n' (cnt + 1) g1 (by rw [g3, hn]; omega) (by omega)
        refine ⟨m + 1, q', by simpa using h1, by rw [h2]; congr 1; omega, ?_, ?_, ?_⟩
        · rw [h3, g2]; simp [hm']
        · simpa [hm'] using h4
        · intro hlt
          obtain ⟨a, b, c⟩ := h5 (by simpa using hlt)
          refine ⟨by omega, by simpa [hm'] using b, ?_⟩
          intro e he
          obtain ⟨m', rfl⟩ : ∃ m', m = m' + 1 := ⟨m - 1, by omega⟩
          exact c e (by simpa using he)

/-- With a limit of zero, and the assertion compiled out, nothing stops the scan. -/
theorem feed_query_zero {marker : V → Bool} {emit : V → F} {fresh : Nat → Bytes} (hf : ∀ n, (fresh n).length = n)
    (L : List (Bytes × V)) : ∀ (q : QS F) (cnt : Nat), q.Ok → q.left ≤ 0 →
    ∃ q', feed (visitValue marker emit fresh) L q cnt = .fin q' (cnt + L.length) ∧
      q'.reply = q.reply ++ (L.filter fun e => !marker e.2).map (fun e => (e.1, emit e.2)) := by
  induction L with
  | nil => intro q cnt _ _; exact ⟨q, rfl, by simp⟩
  | cons e L ih =>
    obtain ⟨k, v⟩ := e
    intro q cnt hq hn
    unfold feed
    dsimp only
    by_cases hm : marker v = true
    · have hv : visitValue marker emit fresh q k v = (q, true) := by unfold visitValue; rw [if_pos hm]
      rw [hv]
      simp only [if_true]
      obtain ⟨q', h2, h3⟩ := ih q (cnt + 1) hq hn
      exact ⟨q', by rw [h2, List.length_cons]; congr 1; omega, by rw [h3]; simp [hm]⟩
    · have hm' : marker v = false := by simpa using hm
      obtain ⟨g1, g2, g3, g4⟩ := visit_live (emit := emit) hf hq k hm'
      rw [if_pos (by rw [g4]; omega)]
      obtain ⟨q', h2, h3⟩ := ih _ (cnt + 1) g1 (by rw [g3]; omega)
      exact ⟨q', by rw [h2, List.length_cons]; congr 1; omega, by rw [h3, g2]; simp [hm']⟩

end Verif.Scan
