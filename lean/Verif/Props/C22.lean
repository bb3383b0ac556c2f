import Verif.Log.Buffer
import Verif.Props.C21

/-!
# C22: appending to the in-memory log never overruns its buffer
-/
namespace Verif.Props.C22
open Verif.Log Verif.Key

/-- One log with its logger thread.  `inflight` are the bytes being written to the file, with the epoch that will
then be flushed; `recs` are all records ever handed to the log. -/
structure World where
  li : Li
  gw : Nat
  inflight : Option (Bytes × Nat)
  disk : Bytes
  recs : List Rec

inductive Act where
  /-- Thread `w` enters or re-enters `record`. -/
  | record (w : Nat) (q : Req)
  /-- The logger's critical section; the global log epoch is `ge`. -/
  | logger (ge : Nat)
  /-- The logger has written and synced the old buffer. -/
  | written
  /-- Another log raises the global wake epoch. -/
  | otherWake (gw : Nat)

/-- `none` is a write outside the buffer. -/
def step (s : World) : Act → Option World
  | .record w q =>
    match s.li.record s.gw w q with
    | .logged l gw => some { s with li := l, gw := gw, recs := s.recs ++ s.li.group s.gw q }
    | .waits l => some { s with li := l }
    | .overrun => none
  | .logger ge =>
    match s.inflight with
    | some _ => some s
    | none =>
      let l := s.li.noticeWake s.gw
      match l.maybeQuiesce ge s.gw with
      | none => none
      | some l' =>
        let s' := { s with recs := s.recs ++ (if l.goesQuiet ge s.gw then quiesceGroup ge l.wake else []) }
        if 0 < l'.pos then some { s' with li := l'.swap.1, inflight := some (l'.swap.2, l'.logEpoch) } else some { s' with li := l' }
  | .written =>
    match s.inflight with
    | none => some s
    | some (b, e) => some { s with disk := s.disk ++ b, inflight := none, li := { s.li with flushed := e } }
  | .otherWake gw => some { s with gw := gw }

/-- What a request may be: its key, value and times are in range. -/
def Act.Ok : Act → Prop
  | .record _ q => q.key.length ≤ maxKeyLen ∧ 32 + q.key.length + q.val.length < 2 ^ 32 ∧ q.qt.epoch < 2 ^ 64 ∧
      q.qt.ts < 2 ^ 64 ∧ q.qt.prev < 2 ^ 64
  | .logger ge => ge < 2 ^ 64
  | _ => True

/-- The bytes on disk, on their way to disk, and in the buffer. -/
def World.bytes (s : World) : Bytes := s.disk ++ (s.inflight.map Prod.fst).getD [] ++ s.li.buf.take s.li.pos

/-- The records with the bytes in their padding. -/
def Padded (l : List (Rec × Bytes)) : Prop := ∀ x ∈ l, x.2.length = 4

structure Inv (s : World) : Prop where
  room : 32 ≤ s.li.len
  pos : s.li.pos ≤ s.li.len
  buf : s.li.buf.length = s.li.len
  xbuf : s.li.xbuf.length = s.li.len
  exact_ : ∃ l : List (Rec × Bytes), l.map Prod.fst = s.recs ∧ Padded l ∧ s.bytes = C21.file l

theorem file_append (l l' : List (Rec × Bytes)) : C21.file (l ++ l') = C21.file l ++ C21.file l' := by
  induction l with
  | nil => rfl
  | cons x l ih =>
    obtain ⟨r, p⟩ := x
    show r.store p ++ C21.file (l ++ l') = r.store p ++ C21.file l ++ C21.file l'
    rw [ih, List.append_assoc]

theorem padded_nil : Padded [] := fun x hx => by simp at hx

def total (rs : List Rec) : Nat := (rs.map Rec.size).sum

/-- Storing a group that fits keeps what is before it and stores the group. -/
theorem puts_spec : ∀ (rs : List Rec) (buf : Bytes) (pos : Nat), pos + total rs ≤ buf.length →
    ∃ b l, puts buf pos rs = some (b, pos + total rs) ∧ b.length = buf.length ∧ l.map Prod.fst = rs ∧ Padded l ∧
      b.take (pos + total rs) = buf.take pos ++ C21.file l
  | [], buf, pos, _ => ⟨buf, [], rfl, rfl, rfl, padded_nil, by simp [total, C21.file]⟩
  | r :: rs, buf, pos, h => by
    have ht : total (r :: rs) = r.size + total rs := by simp [total]
    rw [ht] at h
    have h8 := C21.size_pos r
    have hpad : ((buf.drop (pos + r.size - 4)).take 4).length = 4 := by
      rw [List.length_take, List.length_drop]; omega
    generalize hp : (buf.drop (pos + r.size - 4)).take 4 = pad at hpad
    have hst := store_length hpad r
    have hput : put buf pos r = some (buf.take pos ++ r.store pad ++ buf.drop (pos + r.size)) := by
      unfold put
      rw [if_pos (by omega), hp]
    have hlen : (buf.take pos ++ r.store pad ++ buf.drop (pos + r.size)).length = buf.length := by
      rw [List.length_append, List.length_append, hst, List.length_take, List.length_drop]; omega
    obtain ⟨b, l, h1, h2, h3, h4, h5⟩ := puts_spec rs (buf.take pos ++ r.store pad ++ buf.drop (pos + r.size)) (pos + r.size)
      (by rw [hlen]; omega)
    refine ⟨b, (r, pad) :: l, ?_, by rw [h2, hlen], by rw [List.map_cons, h3], ?_, ?_⟩
    · rw [ht]
      show (put buf pos r).bind _ = _
      rw [hput]
      show puts _ _ rs = _
      rw [h1, Nat.add_assoc]
    · intro x hx
      rcases List.mem_cons.1 hx with rfl | hx
      · exact hpad
      · exact h4 x hx
    · have : pos + total (r :: rs) = pos + r.size + total rs := by omega
      rw [this, h5]
      have e : (buf.take pos ++ r.store pad ++ buf.drop (pos + r.size)).take (pos + r.size) = buf.take pos ++ r.store pad := by
        apply List.take_left'
        rw [List.length_append, hst, List.length_take]; omega
      rw [e, List.append_assoc]; rfl

theorem group_size (l : Marks) (gw : Nat) (q : Req) : total (l.group gw q) ≤ q.space := by
  unfold Marks.group Req.space Req.update total
  split <;> split <;> split <;> simp [Rec.size] <;> omega

theorem group_ok (l : Marks) (gw : Nat) (w : Nat) (q : Req) (h : (Act.record w q).Ok) : ∀ r ∈ l.group gw q, r.Ok := by
  obtain ⟨h1, h2, h3, h4, h5⟩ := h
  intro r hr
  unfold Marks.group at hr
  simp only [List.mem_append, List.mem_cons, List.not_mem_nil, or_false] at hr
  rcases hr with (hr | hr) | hr
  · split at hr
    · simp at hr; subst hr; exact h3
    · simp at hr
  · split at hr
    · simp at hr; subst hr; trivial
    · simp at hr
  · unfold Req.update at hr
    split at hr
    · subst hr; exact ⟨h4, h5, h1, h2⟩
    · subst hr; exact ⟨h4, h1, by omega⟩

theorem quiesce_size (ge gw : Nat) : total (quiesceGroup ge gw) ≤ 32 := by
  unfold quiesceGroup total
  split <;> simp [Rec.size]

theorem quiesce_ok (ge gw : Nat) (h : ge < 2 ^ 64) : ∀ r ∈ quiesceGroup ge gw, r.Ok := by
  intro r hr
  unfold quiesceGroup at hr
  simp only [List.mem_append, List.mem_cons, List.not_mem_nil, or_false] at hr
  rcases hr with (hr | hr) | hr
  · subst hr; exact h
  · split at hr
    · simp at hr; subst hr; trivial
    · simp at hr
  · subst hr; trivial

theorem record_cases (l : Li) (gw w : Nat) (q : Req) (hpos : l.pos ≤ l.len) (hbuf : l.buf.length = l.len) :
    (∃ l' gw' g, l.record gw w q = .logged l' gw' ∧ l'.len = l.len ∧ l'.xbuf = l.xbuf ∧ l'.pos ≤ l.len ∧ l'.buf.length = l.len ∧
      g.map Prod.fst = l.group gw q ∧ Padded g ∧ l'.buf.take l'.pos = l.buf.take l.pos ++ C21.file g) ∨
    (∃ wt, l.record gw w q = .waits { l with waiting := wt }) := by
  unfold Li.record
  by_cases h : q.space ≤ l.len - l.pos ∧ (w ∉ l.waiting ∨ l.waiting.head? = some w)
  · left
    have hg := group_size l.toMarks gw q
    have hsp : 8 ≤ q.space := by unfold Req.space; omega
    obtain ⟨b, g, h1, h2, h3, h4, h5⟩ := puts_spec (l.group gw q) l.buf l.pos (by omega)
    rw [if_pos h, h1]
    exact ⟨_, _, g, rfl, rfl, rfl, by dsimp only; omega, by dsimp only; omega, h3, h4, h5⟩
  · right
    rw [if_neg h]
    exact ⟨_, rfl⟩

theorem quiesce_cases (l : Li) (ge gw : Nat) (hroom : 32 ≤ l.len) (hpos : l.pos ≤ l.len) (hbuf : l.buf.length = l.len) :
    ∃ l' g, l.maybeQuiesce ge gw = some l' ∧ l'.len = l.len ∧ l'.xbuf = l.xbuf ∧ l'.pos ≤ l.len ∧ l'.buf.length = l.len ∧
      g.map Prod.fst = (if l.goesQuiet ge gw then quiesceGroup ge l.wake else []) ∧ Padded g ∧
      l'.buf.take l'.pos = l.buf.take l.pos ++ C21.file g := by
  unfold Li.maybeQuiesce
  by_cases h : l.goesQuiet ge gw
  · have hq := quiesce_size ge l.wake
    obtain ⟨b, g, h1, h2, h3, h4, h5⟩ := puts_spec (quiesceGroup ge l.wake) l.buf 0 (by omega)
    rw [if_pos h, h1, if_pos h]
    refine ⟨_, g, rfl, rfl, rfl, by dsimp only; omega, by dsimp only; omega, h3, h4, ?_⟩
    rw [h.1]
    exact h5
  · rw [if_neg h, if_neg h]
    exact ⟨l, [], rfl, rfl, rfl, hpos, hbuf, rfl, padded_nil, by simp [C21.file]⟩

/-- No step writes outside a buffer, and the invariant is kept. -/
theorem step_ok {s : World} (hi : Inv s) (a : Act) : ∃ s', step s a = some s' ∧ Inv s' := by
  obtain ⟨hroom, hpos, hbuf, hxbuf, l0, hl1, hl2, hl3⟩ := hi
  have hw : ∀ {g : List (Rec × Bytes)}, Padded g → Padded (l0 ++ g) := fun hg x hx =>
    (List.mem_append.1 hx).elim (hl2 x) (hg x)
  cases a with
  | record w q =>
    rcases record_cases s.li s.gw w q hpos hbuf with ⟨l', gw', g, h1, h2, h3, h4, h5, h6, h7, h8⟩ | ⟨wt, h1⟩
    · refine ⟨{ s with li := l', gw := gw', recs := s.recs ++ s.li.group s.gw q }, by unfold step; dsimp only; rw [h1], ?_⟩
      refine ⟨by rw [h2]; exact hroom, by rw [h2]; exact h4, by rw [h2]; exact h5, by rw [h2, h3]; exact hxbuf, l0 ++ g, ?_, hw h7, ?_⟩
      · rw [List.map_append, hl1, h6]
      · rw [file_append, ← hl3]
        show _ ++ l'.buf.take l'.pos = _
        rw [h8, ← List.append_assoc]; rfl
    · exact ⟨{ s with li := { s.li with waiting := wt } }, by unfold step; dsimp only; rw [h1], hroom, hpos, hbuf, hxbuf, l0, hl1, hl2, hl3⟩
  | logger ge =>
    cases hin : s.inflight with
    | some x => exact ⟨s, by unfold step; dsimp only; rw [hin], hroom, hpos, hbuf, hxbuf, l0, hl1, hl2, hl3⟩
    | none =>
      have hn : (s.li.noticeWake s.gw).len = s.li.len ∧ (s.li.noticeWake s.gw).pos = s.li.pos ∧ (s.li.noticeWake s.gw).buf = s.li.buf ∧
          (s.li.noticeWake s.gw).xbuf = s.li.xbuf := ⟨rfl, rfl, rfl, rfl⟩
      generalize hli : s.li.noticeWake s.gw = l at hn
      obtain ⟨l', g, h1, h2, h3, h4, h5, h6, h7, h8⟩ := quiesce_cases l ge s.gw (by rw [hn.1]; exact hroom) (by rw [hn.1, hn.2.1]; exact hpos)
        (by rw [hn.1, hn.2.2.1]; exact hbuf)
      rw [hn.2.2.1, hn.2.1] at h8
      rw [hn.1] at h2 h4 h5
      rw [hn.2.2.2] at h3
      by_cases hp : 0 < l'.pos
      · refine ⟨{ s with li := l'.swap.1, inflight := some (l'.swap.2, l'.logEpoch), recs := _ },
          by unfold step; dsimp only; rw [hin]; dsimp only; rw [hli, h1]; dsimp only; rw [if_pos hp], ?_⟩
        refine ⟨by show 32 ≤ l'.len; omega, Nat.zero_le _, by show l'.xbuf.length = l'.len; rw [h3, h2]; exact hxbuf,
          by show l'.buf.length = l'.len; omega, l0 ++ g, ?_, hw h7, ?_⟩
        · rw [List.map_append, hl1, h6]
        · rw [file_append, ← hl3]
          show s.disk ++ l'.buf.take l'.pos ++ l'.xbuf.take 0 = _
          rw [h8, List.take_zero, List.append_nil, ← List.append_assoc]
          unfold World.bytes
          rw [hin]; simp
      · refine ⟨{ s with li := l', recs := _ },
          by unfold step; dsimp only; rw [hin]; dsimp only; rw [hli, h1]; dsimp only; rw [if_neg hp], ?_⟩
        refine ⟨by show 32 ≤ l'.len; omega, by show l'.pos ≤ l'.len; omega, by show l'.buf.length = l'.len; omega,
          by show l'.xbuf.length = l'.len; rw [h3, h2]; exact hxbuf, l0 ++ g, ?_, hw h7, ?_⟩
        · rw [List.map_append, hl1, h6]
        · rw [file_append, ← hl3]
          show _ ++ l'.buf.take l'.pos = _
          rw [h8, ← List.append_assoc]; rfl
  | written =>
    cases hin : s.inflight with
    | none => exact ⟨s, by unfold step; dsimp only; rw [hin], hroom, hpos, hbuf, hxbuf, l0, hl1, hl2, hl3⟩
    | some x =>
      obtain ⟨b, e⟩ := x
      refine ⟨{ s with disk := s.disk ++ b, inflight := none, li := { s.li with flushed := e } },
        by unfold step; dsimp only; rw [hin], hroom, hpos, hbuf, hxbuf, l0, hl1, hl2, ?_⟩
      rw [← hl3]
      unfold World.bytes
      rw [hin]
      simp
  | otherWake gw => exact ⟨{ s with gw := gw }, rfl, hroom, hpos, hbuf, hxbuf, l0, hl1, hl2, hl3⟩

/-- A new log with buffers of `n` bytes, /repo/log.cc:179-199. -/
def fresh (n : Nat) (junk junk' : Bytes) : World := ⟨⟨⟨0, 0, 0, 0⟩, n, 0, junk, junk', []⟩, 0, none, [], []⟩

/-- A sequence of steps. -/
def runs (s : World) : List Act → Option World
  | [] => some s
  | a :: as => (step s a).bind (runs · as)

theorem fresh_inv {n : Nat} {junk junk' : Bytes} (hn : 32 ≤ n) (h : junk.length = n) (h' : junk'.length = n) : Inv (fresh n junk junk') :=
  ⟨hn, Nat.zero_le _, h, h', [], rfl, padded_nil, rfl⟩

theorem runs_ok {s : World} (hi : Inv s) : ∀ as : List Act, ∃ s', runs s as = some s' ∧ Inv s'
  | [] => ⟨s, rfl, hi⟩
  | a :: as => by
    obtain ⟨s1, h1, h2⟩ := step_ok hi a
    obtain ⟨s2, h3, h4⟩ := runs_ok h2 as
    exact ⟨s2, by unfold runs; rw [h1]; exact h3, h4⟩

/-- What may be handed to the log without making its records unreadable. -/
theorem recs_ok {s s' : World} {a : Act} (h : step s a = some s') (hs : ∀ r ∈ s.recs, r.Ok) (ha : a.Ok) : ∀ r ∈ s'.recs, r.Ok := by
  cases a with
  | record w q =>
    unfold step at h
    dsimp only at h
    split at h
    · cases h
      exact fun r hr => (List.mem_append.1 hr).elim (hs r) (group_ok _ _ w q ha r)
    · cases h; exact hs
    · cases h
  | logger ge =>
    unfold step at h
    dsimp only at h
    split at h
    · cases h; exact hs
    · split at h
      · cases h
      · split at h <;> cases h <;>
        · intro r hr
          rcases List.mem_append.1 hr with hr | hr
          · exact hs r hr
          · split at hr
            · exact quiesce_ok _ _ ha r hr
            · simp at hr
  | written =>
    unfold step at h
    dsimp only at h
    split at h <;> cases h <;> exact hs
  | otherWake gw => cases h; exact hs

theorem step_len {s s' : World} (hi : Inv s) {a : Act} (h1 : step s a = some s') : s'.li.len = s.li.len := by
  cases a with
  | record w q =>
    rcases record_cases s.li s.gw w q hi.pos hi.buf with ⟨l', gw', g, e1, e2, _⟩ | ⟨wt, e1⟩
    · unfold step at h1; dsimp only at h1; rw [e1] at h1; cases h1; exact e2
    · unfold step at h1; dsimp only at h1; rw [e1] at h1; cases h1; rfl
  | logger ge =>
    unfold step at h1
    dsimp only at h1
    cases hin : s.inflight with
    | some x => rw [hin] at h1; cases h1; rfl
    | none =>
      rw [hin] at h1
      dsimp only at h1
      have hn : (s.li.noticeWake s.gw).len = s.li.len ∧ (s.li.noticeWake s.gw).pos = s.li.pos ∧ (s.li.noticeWake s.gw).buf = s.li.buf := ⟨rfl, rfl, rfl⟩
      obtain ⟨l', g, e1, e2, _⟩ := quiesce_cases (s.li.noticeWake s.gw) ge s.gw (by rw [hn.1]; exact hi.room)
        (by rw [hn.1, hn.2.1]; exact hi.pos) (by rw [hn.1, hn.2.2]; exact hi.buf)
      rw [e1] at h1
      dsimp only at h1
      rw [hn.1] at e2
      split at h1 <;> cases h1 <;> exact e2
  | written =>
    unfold step at h1
    dsimp only at h1
    cases hin : s.inflight with
    | none => rw [hin] at h1; cases h1; rfl
    | some x => rw [hin] at h1; cases h1; rfl
  | otherWake gw => cases h1; rfl

theorem runs_facts : ∀ (as : List Act) (s s' : World), runs s as = some s' → Inv s →
    s'.li.len = s.li.len ∧ ((∀ r ∈ s.recs, r.Ok) → (∀ a ∈ as, a.Ok) → ∀ r ∈ s'.recs, r.Ok) := by
  intro as
  induction as with
  | nil => intro s s' h _; cases h; exact ⟨rfl, fun h _ => h⟩
  | cons a as ih =>
    intro s s' h hi
    obtain ⟨s1, h1, h2⟩ := step_ok hi a
    unfold runs at h
    rw [h1] at h
    obtain ⟨i1, i2⟩ := ih s1 s' h h2
    exact ⟨by rw [i1, step_len hi h1], fun hs ha => i2 (recs_ok h1 hs (ha a (by simp))) (fun b hb => ha b (by simp [hb]))⟩

theorem writable {l : List (Rec × Bytes)} {rs : List Rec} (h : l.map Prod.fst = rs) (hp : Padded l) (hr : ∀ r ∈ rs, r.Ok) : C21.Writable l :=
  fun x hx => ⟨hr _ (h ▸ List.mem_map_of_mem hx), hp x hx⟩

/-! ### The property -/

/-- Whatever the recording threads, the logger and the other logs do, in whatever order, from a new log: no
write leaves its buffer, and the bytes on disk, under way to disk and in the buffer are exactly the
records handed over so far, in order, each one whole. -/
theorem never_overruns {n : Nat} {junk junk' : Bytes} (hn : 32 ≤ n) (h : junk.length = n) (h' : junk'.length = n) (as : List Act) :
    ∃ s, runs (fresh n junk junk') as = some s ∧ s.li.pos ≤ n ∧ s.li.buf.length = n ∧
      ∃ l : List (Rec × Bytes), l.map Prod.fst = s.recs ∧ s.bytes = C21.file l := by
  obtain ⟨s, h1, h2⟩ := runs_ok (fresh_inv hn h h') as
  have h3 : s.li.len = n := (runs_facts as _ _ h1 (fresh_inv hn h h')).1
  obtain ⟨l, hl1, _, hl3⟩ := h2.exact_
  exact ⟨s, h1, h3 ▸ h2.pos, by rw [← h3]; exact h2.buf, l, hl1, hl3⟩

/-- Read back, those bytes give all records handed over. -/
theorem reads_back {n : Nat} {junk junk' : Bytes} (hn : 32 ≤ n) (h : junk.length = n) (h' : junk'.length = n)
    (as : List Act) (hok : ∀ a ∈ as, a.Ok) {s : World} (hs : runs (fresh n junk junk') as = some s) :
    C21.read s.bytes = s.recs.map some := by
  obtain ⟨s2, h1, h2⟩ := runs_ok (fresh_inv hn h h') as
  rw [hs] at h1
  cases h1
  obtain ⟨l, hl1, hl2, hl3⟩ := h2.exact_
  have hr := (runs_facts as _ _ hs (fresh_inv hn h h')).2 (fun r hr => by simp [fresh] at hr) hok
  rw [hl3, C21.round_trip l (writable hl1 hl2 hr), hl1]

/-- The file holds, at any time and even if its tail is torn, a beginning of the sequence of records. -/
theorem disk_is_prefix {n : Nat} {junk junk' : Bytes} (hn : 32 ≤ n) (h : junk.length = n) (h' : junk'.length = n)
    (as : List Act) (hok : ∀ a ∈ as, a.Ok) {s : World} (hs : runs (fresh n junk junk') as = some s) (k : Nat) :
    ∃ m, C21.read (s.disk.take k) = (s.recs.take m).map some := by
  obtain ⟨s2, h1, h2⟩ := runs_ok (fresh_inv hn h h') as
  rw [hs] at h1
  cases h1
  obtain ⟨l, hl1, hl2, hl3⟩ := h2.exact_
  have hr := (runs_facts as _ _ hs (fresh_inv hn h h')).2 (fun r hr => by simp [fresh] at hr) hok
  have hl2 := writable hl1 hl2 hr
  have e : s.disk.take k = (C21.file l).take (min k s.disk.length) := by
    rw [← hl3]
    unfold World.bytes
    rw [List.append_assoc, List.take_append, List.take_eq_take_iff.2 (by omega : min k s.disk.length = min (min k s.disk.length) s.disk.length)]
    have : min k s.disk.length - s.disk.length = 0 := by omega
    rw [this, List.take_zero, List.append_nil]
  obtain ⟨m, hm, _⟩ := C21.fitting_prefix l hl2 (min k s.disk.length)
  exact ⟨m, by rw [e, C21.torn l hl2, hm, hl1]⟩

/-- In any state of the log, a turn of `record` either appends its whole group and changes nothing recorded
before, or changes no byte and waits. -/
theorem all_or_wait {n : Nat} {junk junk' : Bytes} (hn : 32 ≤ n) (h : junk.length = n) (h' : junk'.length = n)
    (as : List Act) {s : World} (hs : runs (fresh n junk junk') as = some s) (w : Nat) (q : Req) :
    ∃ s', step s (.record w q) = some s' ∧
      ((s'.recs = s.recs ++ s.li.group s.gw q ∧
          ∃ g : List (Rec × Bytes), s'.bytes = s.bytes ++ C21.file g ∧ g.map Prod.fst = s.li.group s.gw q) ∨
        (s'.recs = s.recs ∧ s'.bytes = s.bytes ∧ w ∈ s'.li.waiting)) := by
  obtain ⟨s2, h1, hi⟩ := runs_ok (fresh_inv hn h h') as
  rw [hs] at h1
  cases h1
  by_cases hc : q.space ≤ s.li.len - s.li.pos ∧ (w ∉ s.li.waiting ∨ s.li.waiting.head? = some w)
  · rcases record_cases s.li s.gw w q hi.pos hi.buf with ⟨l', gw', g, h1, h2, h3, h4, h5, h6, h7, h8⟩ | ⟨wt, h1⟩
    · refine ⟨_, by unfold step; dsimp only; rw [h1], .inl ⟨rfl, g, ?_, h6⟩⟩
      show _ ++ l'.buf.take l'.pos = _
      rw [h8, ← List.append_assoc]; rfl
    · unfold Li.record at h1
      rw [if_pos hc] at h1
      split at h1 <;> cases h1
  · have h1 : s.li.record s.gw w q = .waits { s.li with waiting := if w ∈ s.li.waiting then s.li.waiting else s.li.waiting ++ [w] } := by
      unfold Li.record
      rw [if_neg hc]
    refine ⟨{ s with li := { s.li with waiting := if w ∈ s.li.waiting then s.li.waiting else s.li.waiting ++ [w] } },
      by unfold step; dsimp only; rw [h1], .inr ⟨rfl, rfl, ?_⟩⟩
    show w ∈ (if w ∈ s.li.waiting then s.li.waiting else s.li.waiting ++ [w])
    split
    · assumption
    · simp

/-- A request that does not fit an empty buffer waits for ever: no turn of `record` logs it. -/
theorem too_large_waits (l : Li) (gw w : Nat) (q : Req) (h : l.len < q.space) :
    ∃ l', l.record gw w q = .waits l' := by
  unfold Li.record
  rw [if_neg (by omega)]
  exact ⟨_, rfl⟩

/-! ### Cases -/

/-- A log of 100 bytes: a put in epoch 3, a second put that has to wait, the logger empties the buffer, and
the second put is logged. -/
def demo : List Act :=
  [.record 1 ⟨.put, ⟨3, 2, 0⟩, [97], [0, 161, 120]⟩, .record 2 ⟨.put, ⟨3, 4, 2⟩, [97], [1, 161, 121]⟩, .logger 3, .written,
    .record 2 ⟨.put, ⟨3, 4, 2⟩, [97], [1, 161, 121]⟩, .logger 4, .written, .logger 5, .written]

example : (runs (fresh 100 (List.replicate 100 7) (List.replicate 100 8)) demo).map (fun s => (s.recs, s.disk.length, s.li.flushed)) =
    some ([.epoch 3, .kv .put 2 [97] [0, 161, 120], .modify 4 2 [97] [1, 161, 121], .epoch 5, .quiesce], 104, 5) := by
  decide +kernel

example : ∀ a ∈ demo, a.Ok := by
  simp [demo, Act.Ok, maxKeyLen]

end Verif.Props.C22
