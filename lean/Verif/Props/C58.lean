import Verif.Client.Conn
import Verif.Props.C35Session

/-!
# C58: A client and its server

A client keeps several requests under way and matches replies with requests by 32-bit sequence numbers.  Every reply is matched
with the request it answers, whatever the order, and what the client takes for the answer is what the map holds — with the
exceptions at the end.
-/
namespace Verif.Props.C58
open Verif.Key (Bytes)
open Verif.Msgpack
open Verif.Server
open Verif.Client
open Verif.Props.C35 (Answer Live Absent Command History Holds Refused events replyBytes stream request storedKey)

variable {α : Type} {V : Type}

/-! ### The window -/

/-- The reply to a request under way passes all checks and is matched with that request, in whatever order replies come, also when
the sequence numbers have wrapped around. -/
theorem matched {w : BitVec 32} (hw : Allowed w) (h0 : w ≠ 0) {s0 : Nat → Slot α} {s : Win α} {A : List α} {D : List Nat}
    (h : Client.Run w s0 s A D) {n : Nat} (hn : n < A.length) (hd : n ∉ D) :
    ∃ s', s.reply w (BitVec.ofNat 32 n) = some (s', A[n]) ∧ Client.Run w s0 s' A (D ++ [n]) := by
  obtain ⟨e, he, rfl⟩ := allowed_pow hw h0
  obtain ⟨m, h1, _⟩ := h.pre he
  obtain ⟨s', h2, _⟩ := h1.accept he (List.getElem?_eq_getElem hn) hd
  exact ⟨s', h2, .reply h hn hd h2⟩

/-- The window is empty exactly if every request has been answered. -/
theorem drained {w : BitVec 32} (hw : Allowed w) (h0 : w ≠ 0) {s0 : Nat → Slot α} {s : Win α} {A : List α} {D : List Nat}
    (h : Client.Run w s0 s A D) : s.seq0 = s.seq1 ↔ ∀ n, n < A.length → n ∈ D := by
  obtain ⟨e, he, rfl⟩ := allowed_pow hw h0
  obtain ⟨m, h1, h2⟩ := h.pre he
  rw [h1.empty he]
  constructor
  · rintro rfl n hn
    exact h1.old n hn
  · intro h3
    by_contra h4
    have h5 : m < A.length := by have := h1.lo; omega
    exact h2 h5 (h3 m h5)

/-- The client waits only if the request sent `w` ago is not answered, and then a reply is due. -/
theorem waits_iff {w : BitVec 32} (hw : Allowed w) (h0 : w ≠ 0) {s0 : Nat → Slot α} {s : Win α} {A : List α} {D : List Nat}
    (h : Client.Run w s0 s A D) : s.Full w ↔ w.toNat ≤ A.length ∧ A.length - w.toNat ∉ D := by
  obtain ⟨e, he, rfl⟩ := allowed_pow hw h0
  obtain ⟨m, h1, h2⟩ := h.pre he
  have h9 := pow_le he
  have hp : (BitVec.ofNat 32 (2 ^ e)).toNat = 2 ^ e := by
    rw [BitVec.toNat_ofNat, Nat.mod_eq_of_lt (by omega)]
  have hpos : 0 < 2 ^ e := Nat.two_pow_pos e
  have hlo := h1.lo
  have hhi := h1.hi
  unfold Win.Full
  rw [BitVec.le_def, h1.size he, hp]
  constructor
  · intro h3
    refine ⟨by omega, ?_⟩
    rw [show A.length - 2 ^ e = m by omega]
    exact h2 (by omega)
  · rintro ⟨h3, h4⟩
    have : m ≤ A.length - 2 ^ e := by
      by_contra h5
      exact h4 (h1.old _ (by omega))
    omega

/-- At most `w` requests are unanswered. -/
theorem under_way {w : BitVec 32} (hw : Allowed w) (h0 : w ≠ 0) {s0 : Nat → Slot α} {s : Win α} {A : List α} {D : List Nat}
    (h : Client.Run w s0 s A D) {n : Nat} (hn : n < A.length) (hd : n ∉ D) : A.length ≤ n + w.toNat := by
  obtain ⟨e, he, rfl⟩ := allowed_pow hw h0
  obtain ⟨m, h1, h2⟩ := h.pre he
  have h9 := pow_le he
  rw [BitVec.toNat_ofNat, Nat.mod_eq_of_lt (by omega)]
  have : m ≤ n := by
    by_contra h5
    exact hd (h1.old _ (by omega))
  have hhi := h1.hi
  omega

/-- A second reply to a request, or a reply to a request not sent yet, is noticed by an assertion. -/
theorem refused {w : BitVec 32} (hw : Allowed w) (h0 : w ≠ 0) {s0 : Nat → Slot α} {s : Win α} {A : List α} {D : List Nat}
    (h : Client.Run w s0 s A D) {n : Nat} (hn : n ∈ D ∧ A.length ≤ n + 2 ^ 32 ∨ A.length ≤ n ∧ n + w.toNat < A.length + 2 ^ 32) :
    s.reply w (BitVec.ofNat 32 n) = none := by
  obtain ⟨e, he, rfl⟩ := allowed_pow hw h0
  obtain ⟨m, h1, h2⟩ := h.pre he
  have h9 := pow_le he
  have hp : (BitVec.ofNat 32 (2 ^ e)).toNat = 2 ^ e := by
    rw [BitVec.toNat_ofNat, Nat.mod_eq_of_lt (by omega)]
  have hlo := h1.lo
  have hhi := h1.hi
  rw [hp] at hn
  unfold Win.reply
  apply if_neg
  rintro ⟨g1, g2, g3⟩
  rw [BitVec.lt_def, h1.size he] at g1
  rcases hn with ⟨h3, h4⟩ | ⟨h3, h4⟩
  · have h5 := h1.sent n h3
    by_cases h6 : m ≤ n
    · rw [idx_ofNat he, h1.slot n A[n] h6 (List.getElem?_eq_getElem h5)] at g3
      simp [h3] at g3
    · rw [h1.s0, BitVec.toNat_sub, BitVec.toNat_ofNat, BitVec.toNat_ofNat] at g1
      omega
  · rw [h1.s0, sub_toNat (by omega) (by omega)] at g1
    omega

/-- What the checks cannot notice: a reply that comes after 2^32 more requests. -/
theorem late_reply_confused {w : BitVec 32} (hw : Allowed w) (h0 : w ≠ 0) {s0 : Nat → Slot α} {s : Win α} {A : List α} {D : List Nat}
    (h : Client.Run w s0 s A D) {n : Nat} (hn : n + 2 ^ 32 < A.length) (hd : n + 2 ^ 32 ∉ D) :
    n ∈ D ∧ ∃ s', s.reply w (BitVec.ofNat 32 n) = some (s', A[n + 2 ^ 32]) := by
  constructor
  · by_contra h1
    have h2 := under_way hw h0 h (n := n) (by omega) h1
    have h3 : w.toNat ≤ 512 := hw.1
    omega
  · obtain ⟨s', h1, _⟩ := matched hw h0 h hn hd
    have e : BitVec.ofNat 32 n = BitVec.ofNat 32 (n + 2 ^ 32) := by
      apply BitVec.eq_of_toNat_eq
      rw [BitVec.toNat_ofNat, BitVec.toNat_ofNat, Nat.add_mod_right]
    exact ⟨s', by rw [e]; exact h1⟩

/-- The option `-w 0` passes the checks, and then the client waits before its first request. -/
theorem window_zero : Allowed 0 ∧ ∀ s : Win α, s.Full 0 := by
  refine ⟨⟨by decide, by decide⟩, fun s => ?_⟩
  unfold Win.Full
  rw [BitVec.le_def]
  exact Nat.zero_le _

/-! ### Messages -/

/-- The message for a request. -/
def message (n : Nat) : Req → List Json
  | .getWhole k => [.uint n, .int 2, .str k]
  | .getCol k c => [.uint n, .int 2, .str k, .int c]
  | .get k f => [.uint n, .int 2, .str k, .arr (f.map .uint)]
  | .putCol k c v => [.uint n, .int 6, .str k, .int c, .str v]
  | .putWhole k v => [.uint n, .int 8, .str k, .str v]
  | .remove k => [.uint n, .int 10, .str k]
  | .scanWhole k num => [.uint n, .int 4, .str k, .int num]
  | .scan k f num => [.uint n, .int 4, .str k, .int num, .arr (f.map .uint)]

theorem resize_length (j : List Json) (n : Nat) : (resize j n).length = n := by
  simp [resize]
  omega

theorem begin3 (j : List Json) (n : Nat) (c : Int) (k : Bytes) : begin j 3 n c k = [.uint n, .int c, .str k] := by
  have h := resize_length j 3
  unfold begin
  generalize resize j 3 = l at h
  match l, h with
  | [a, b, d], _ => rfl

theorem begin4 (j : List Json) (n : Nat) (c : Int) (k : Bytes) (x : Json) :
    put (begin j 4 n c k) 3 x = [.uint n, .int c, .str k, x] := by
  have h := resize_length j 4
  unfold begin
  generalize resize j 4 = l at h
  match l, h with
  | [a, b, d, e], _ => rfl

theorem begin5 (j : List Json) (n : Nat) (c : Int) (k : Bytes) (x y : Json) :
    put (put (begin j 5 n c k) 3 x) 4 y = [.uint n, .int c, .str k, x, y] := by
  have h := resize_length j 5
  unfold begin
  generalize resize j 5 = l at h
  match l, h with
  | [a, b, d, e, f], _ => rfl

/-- Nothing of earlier messages is left in a message. -/
theorem composed (j : List Json) (n : Nat) (r : Req) : compose j n r = message n r := by
  cases r with
  | getWhole k => exact begin3 j n 2 k
  | getCol k c => exact begin4 j n 2 k _
  | get k f => exact begin4 j n 2 k _
  | putCol k c v => exact begin5 j n 6 k _ _
  | putWhole k v => show put (begin j 3 n 8 k) 3 _ = _; rw [begin3]; rfl
  | remove k => exact begin3 j n 10 k
  | scanWhole k num => exact begin4 j n 4 k _
  | scan k f num => exact begin5 j n 4 k _ _

/-- What the arguments of a request must satisfy. -/
def Sendable : Req → Prop
  | .getWhole k => k.length < 2 ^ 31
  | .getCol k c => k.length < 2 ^ 31 ∧ -2 ^ 31 ≤ c ∧ c < 2 ^ 31
  | .get k f => k.length < 2 ^ 31 ∧ f.length < 2 ^ 31 ∧ ∀ x ∈ f, x < 2 ^ 32
  | .putCol k c v => k.length < 2 ^ 31 ∧ (-2 ^ 31 ≤ c ∧ c < 2 ^ 31) ∧ v.length < 2 ^ 31
  | .putWhole k v => k.length < 2 ^ 31 ∧ v.length < 2 ^ 31
  | .remove k => k.length < 2 ^ 31
  | .scanWhole k num => k.length < 2 ^ 31 ∧ -2 ^ 31 ≤ num ∧ num < 2 ^ 31
  | .scan k f num => k.length < 2 ^ 31 ∧ (f.length < 2 ^ 31 ∧ ∀ x ∈ f, x < 2 ^ 32) ∧ -2 ^ 31 ≤ num ∧ num < 2 ^ 31

theorem fits_uints : ∀ {f : List Nat}, (∀ x ∈ f, x < 2 ^ 32) → FitsList (f.map .uint)
  | [], _ => trivial
  | x :: f, h => ⟨by have := h x (by simp); show x < 18446744073709551616; omega, fits_uints fun y hy => h y (List.mem_cons_of_mem _ hy)⟩

theorem message_fits {n : Nat} (hn : n < 2 ^ 32) {r : Req} (h : Sendable r) : (Json.arr (message n r)).Fits := by
  cases r <;> simp only [Sendable] at h <;> simp only [message, Json.Fits, FitsList, List.length_cons, List.length_nil, List.length_map] <;>
    simp only [and_true] <;> (try exact ⟨by omega, by omega, by omega, by omega⟩)
  all_goals first
    | (refine ⟨by omega, by omega, by omega, by omega, by omega⟩)
    | (refine ⟨by omega, by omega, by omega, by omega, by omega, by omega⟩)
    | (refine ⟨by omega, by omega, by omega, by omega, by omega, fits_uints h.2.2⟩)
    | (refine ⟨by omega, by omega, by omega, by omega, by omega, by omega, fits_uints h.2.1.2⟩)

theorem messages_eq : ∀ (rs : List Req) (j : List Json) (n k : Nat) (r : Req), rs[k]? = some r →
    (messages j n rs)[k]? = some (message ((n + k) % 2 ^ 32) r)
  | [], j, n, k, r, h => by simp at h
  | r0 :: rs, j, n, 0, r, h => by
    simp at h
    subst h
    simp [messages, composed]
  | r0 :: rs, j, n, k + 1, r, h => by
    simp at h
    have := messages_eq rs (compose j (n % 2 ^ 32) r0) (n + 1) k r h
    simp only [messages, List.getElem?_cons_succ]
    rw [this, show n + 1 + k = n + (k + 1) by omega]

theorem messages_length : ∀ (rs : List Req) (j : List Json) (n : Nat), (messages j n rs).length = rs.length
  | [], _, _ => rfl
  | r :: rs, j, n => by simp [messages, messages_length rs]

theorem messages_fit {rs : List Req} (h : ∀ r ∈ rs, Sendable r) (j : List Json) (n : Nat) :
    ∀ m ∈ messages j n rs, (Json.arr m).Fits := by
  intro m hm
  obtain ⟨k, hk⟩ := List.mem_iff_getElem?.1 hm
  have hl := (List.getElem?_eq_some_iff.1 hk).1
  rw [messages_length] at hl
  have h1 := messages_eq rs j n k rs[k] (List.getElem?_eq_getElem hl)
  rw [h1] at hk
  cases hk
  exact message_fits (Nat.mod_lt _ (by omega)) (h _ (List.getElem_mem hl))

/-- The number of a reply, read as the client reads it. -/
theorem seqOf_back {n : Nat} (hn : n < 2 ^ 32) {l : List Json} (h : el l 0 = (Json.uint n).back) :
    seqOf l = some (BitVec.ofNat 32 n) := by
  unfold seqOf
  rw [h]
  simp only [Json.back, readUint]
  split
  · simp [asI]
  · have : int64 (n : Int) = n := by unfold int64; omega
    simp [asI, this]

/-! ### Replies -/

theorem pull_spec : ∀ (cs : List Bytes) (sp : SP) (buf : Bytes), sp.Ok → (∀ c ∈ cs, c ≠ []) →
    (pull sp buf cs).1 = (sp.feed (buf ++ cs.flatten)).1 ∧ (∀ c ∈ (pull sp buf cs).2.2, c ≠ []) ∧
      ((sp.feed (buf ++ cs.flatten)).1.mode.done = true →
        (pull sp buf cs).2.1 ++ (pull sp buf cs).2.2.flatten = (sp.feed (buf ++ cs.flatten)).2)
  | [], sp, buf, _, _ => by simp [pull]
  | c :: cs, sp, buf, hok, hc => by
    obtain ⟨h1, h2⟩ := feed_facts hok buf
    rw [feed_append hok]
    unfold pull
    by_cases hd : (sp.feed buf).1.mode.done = true
    · rw [if_pos hd, if_pos hd]
      exact ⟨rfl, hc, fun _ => rfl⟩
    · rw [if_neg hd, if_neg hd, if_neg (hc c (by simp)), List.flatten_cons]
      exact pull_spec cs _ _ h1 fun c' h' => hc c' (List.mem_cons_of_mem _ h')

/-- Several calls of `receive`. -/
def receives : Nat → Input → Option (List (List Json) × Input)
  | 0, s => some ([], s)
  | k + 1, s =>
    match s.receive with
    | none => none
    | some (l, s') => (receives k s').map fun (ls, s'') => (l :: ls, s'')

/-- A client between two messages, with the given bytes to come. -/
structure Between (s : Input) (bs : Bytes) : Prop where
  sp : s.sp = SP.init
  blocks : ∀ c ∈ s.blocks, c ≠ []
  bytes : s.buf ++ s.blocks.flatten = bs

/-- Messages that come one after the other, cut into blocks in any way, are received one by one. -/
theorem received : ∀ {ms : List (List Json)} {s : Input} {rest : Bytes}, (∀ m ∈ ms, (Json.arr m).Fits) →
    Between s (stream ms ++ rest) → ∃ s', receives ms.length s = some (ms.map backs, s') ∧ Between s' rest
  | [], s, rest, _, h => ⟨s, rfl, h⟩
  | m :: ms, s, rest, hf, h => by
    obtain ⟨h1, h2, h3⟩ := pull_spec s.blocks s.sp s.buf (by rw [h.sp]; trivial) h.blocks
    have h4 : s.sp.feed (s.buf ++ s.blocks.flatten) = (⟨.final (.arr (backs m)), []⟩, stream ms ++ rest) := by
      rw [h.bytes, h.sp, show stream (m :: ms) ++ rest = enc (.arr m) ++ (stream ms ++ rest) by simp [stream]]
      exact C35.feed_enc (hf m (by simp)) _
    rw [h4] at h1 h3
    obtain ⟨s', g1, g2⟩ := received (s := ⟨SP.init, (pull s.sp s.buf s.blocks).2.1, (pull s.sp s.buf s.blocks).2.2⟩)
      (fun m' hm => hf m' (List.mem_cons_of_mem _ hm)) ⟨rfl, h2, h3 rfl⟩
    refine ⟨s', ?_, g2⟩
    show receives (ms.length + 1) s = _
    unfold receives Input.receive
    rw [h1]
    simp [g1]

/-- Nothing is made up: without a whole message, `receive` returns null. -/
theorem not_received {s : Input} {bs : Bytes} (h : Between s bs) (hn : (SP.init.feed bs).1.mode.done = false) : s.receive = none := by
  obtain ⟨h1, _, _⟩ := pull_spec s.blocks s.sp s.buf (by rw [h.sp]; trivial) h.blocks
  rw [h.bytes, h.sp] at h1
  unfold Input.receive
  rw [h.sp, h1]
  cases hm : (SP.init.feed bs).1.mode with
  | final j => rw [hm] at hn; simp [Mode.done] at hn
  | _ => rfl

/-! ### End to end -/

/-- The history up to an event. -/
theorem History.at {R : Rows V} {m m'' : Bytes → Option V} {es : List Ev} (h : History R m es m'') :
    ∀ {before after : List Ev} {i : Nat} {ts : BitVec 64} {req reply : List Json} {ok : Bool},
    es = before ++ .served i ts req reply ok :: after → ∃ m1, History R m before m1 ∧
      ((ok = true ∧ ∃ m2, Answer R ts m1 req reply m2) ∨ (ok = false ∧ Refused req)) := by
  induction h with
  | nil m => intro before after i ts req reply ok e; simp at e
  | quiet m m' es h ih =>
    intro before after i ts req reply ok e
    cases before with
    | nil => simp at e
    | cons x b =>
      simp only [List.cons_append, List.cons.injEq] at e
      obtain ⟨rfl, e⟩ := e
      obtain ⟨m1, h1, h2⟩ := ih e
      exact ⟨m1, .quiet _ _ _ h1, h2⟩
  | greeted j hs r b m m' es h ih =>
    intro before after i ts req reply ok e
    cases before with
    | nil => simp at e
    | cons x b =>
      simp only [List.cons_append, List.cons.injEq] at e
      obtain ⟨rfl, e⟩ := e
      obtain ⟨m1, h1, h2⟩ := ih e
      exact ⟨m1, .greeted _ _ _ _ _ _ _ h1, h2⟩
  | answered j ts' req' reply' m m' m'' es ha h ih =>
    intro before after i ts req reply ok e
    cases before with
    | nil =>
      simp only [List.nil_append, List.cons.injEq, Ev.served.injEq] at e
      obtain ⟨⟨rfl, rfl, rfl, rfl, rfl⟩, rfl⟩ := e
      exact ⟨m, .nil m, .inl ⟨rfl, m', ha⟩⟩
    | cons x b =>
      simp only [List.cons_append, List.cons.injEq] at e
      obtain ⟨rfl, e⟩ := e
      obtain ⟨m1, h1, h2⟩ := ih e
      exact ⟨m1, .answered _ _ _ _ _ _ _ _ ha h1, h2⟩
  | refused j ts' seq c rest m m' es ha h ih =>
    intro before after i ts req reply ok e
    cases before with
    | nil =>
      simp only [List.nil_append, List.cons.injEq, Ev.served.injEq] at e
      obtain ⟨⟨rfl, rfl, rfl, rfl, rfl⟩, rfl⟩ := e
      exact ⟨m, .nil m, .inr ⟨rfl, ha⟩⟩
    | cons x b =>
      simp only [List.cons_append, List.cons.injEq] at e
      obtain ⟨rfl, e⟩ := e
      obtain ⟨m1, h1, h2⟩ := ih e
      exact ⟨m1, .refused _ _ _ _ _ _ _ _ ha h1, h2⟩

/-- A reply has the number of its request. -/
theorem answer_seq {R : Rows V} {ts : BitVec 64} {m m' : Bytes → Option V} {req reply : List Json} (h : Answer R ts m req reply m') :
    el reply 0 = el req 0 := by
  cases h <;> rfl

/-- The server does not refuse what the client sends. -/
theorem not_refused (n : Nat) (r : Req) : ¬ Refused (backs (message n r)) := by
  rintro ⟨seq, c, rest, x, h1, ⟨y, h2, h3⟩, h4⟩
  cases r <;> simp only [message, backs, Json.back, List.cons.injEq] at h1 <;> obtain ⟨_, rfl, rfl⟩ := h1 <;>
    simp only [asI, Option.some.injEq] at h2 <;> subst h2 <;> subst h3 <;> simp [int32] at h4

/-- The reply of an event. -/
def reply : Ev → List Json
  | .quiet => []
  | .greeted _ _ r _ => r
  | .served _ _ _ r _ => r

theorem stream_replies {i : Nat} {es : List Ev} : ((events i es).map replyBytes).flatten = stream ((events i es).map reply) := by
  unfold stream
  rw [List.map_map]
  congr 1
  apply List.map_congr_left
  intro e he
  cases e with
  | quiet => simp [events, C35.onConn] at he
  | greeted => rfl
  | served => rfl

theorem back_back_uint (n : Nat) : ((Json.uint n).back).back = (Json.uint n).back := by
  simp only [Json.back, readUint]
  split <;> rename_i h <;> simp [Json.back, readUint, h]

theorem el_backs0 (l : List Json) : el (backs l) 0 = (el l 0).back := by
  cases l <;> rfl

theorem welcome_hello (core index : Int) (name : Bytes) :
    handshake index name (backs (hello core)) = some (true, [.int 0, .int 15, .bool true, .int index, .str name]) := by
  simp [hello, backs, backItems, Json.back, handshake, el, isO, isI, asI, member, cmdHandshake, put, resize, sCore, sMaxkeylen]

theorem hello_fits {core : Int} (h : -2 ^ 31 ≤ core ∧ core < 2 ^ 31) : (Json.arr (hello core)).Fits := by
  simp [hello, Json.Fits, FitsList, FitsItems, sCore, sMaxkeylen, cmdHandshake]
  omega

theorem greeting_hello {core : Int} (h : -2 ^ 31 ≤ core ∧ core < 2 ^ 31) {hs : List Json}
    (hg : greeting? (enc (.arr (hello core))) = some hs) : hs = backs (hello core) := by
  have hc := consume_enc (hello_fits h) []
  rw [List.append_nil] at hc
  unfold greeting? at hg
  rw [hc] at hg
  simp only [result?, Json.back] at hg
  split at hg
  · simp at hg
  · split at hg
    · simpa using hg.symm
    · simp at hg

/-- A client on a connection of a running server, whatever else the server does: what it has sent is its handshake and the messages
for the requests `A`; what the server has answered, it receives in whatever blocks.  Then the handshake succeeds; the server has
served the first of the requests, each once and in order; the reply to each is received, it has the number of the request, and
it is the specified answer for the map at that point of the server's history; and whatever else of the requests are under way, the
client matches the reply with the request. -/
theorem answered {R : Rows V} {name : Bytes} {inp : Nat → List Bytes} {acts : List Act} {s : Srv V} {es : List Ev}
    (hE : ∀ i E fuel, Act.serve i E fuel ∈ acts → ∀ n, (E.fresh n).length = n)
    (hr : (Srv.init inp).run R name acts = some (s, es))
    (hk : ∀ i ts req reply ok, Ev.served i ts req reply ok ∈ es → (storedKey req).length ≤ 256)
    {i : Nat} {core : Int} (hcore : -2 ^ 31 ≤ core ∧ core < 2 ^ 31) {rest : List Bytes} {A : List Req}
    (hi : inp i = enc (.arr (hello core)) :: rest) (hA : ∀ r ∈ A, Sendable r)
    (hs : rest.flatten = stream (messages (hello core) 0 A)) (hF : ∀ e ∈ events i es, (Json.arr (reply e)).Fits)
    {blocks : List Bytes} (hb : ∀ c ∈ blocks, c ≠ []) (ho : blocks.flatten = (s.conn i).out) (hne : (s.conn i).out ≠ []) :
    ∃ (index : Int) (rs : List (List Json)) (s' : Input),
      receives (rs.length + 1) (.new blocks) = some ([.int 0, .int 15, .bool true, .int index, .str name] :: rs, s') ∧
      Between s' [] ∧ welcomed [.int 0, .int 15, .bool true, .int index, .str name] = some index ∧
      rs.length ≤ A.length ∧ ∀ k r l, A[k]? = some r → rs[k]? = some l →
        (∃ before after ts rep m m', es = before ++ .served i ts (backs (message (k % 2 ^ 32) r)) rep true :: after ∧
          (events i before).length = k + 1 ∧ History R (fun _ => none) before m ∧
          Answer R ts m (backs (message (k % 2 ^ 32) r)) rep m' ∧ l = backs rep) ∧
        ∃ q, seqOf l = some q ∧ ∀ (w : BitVec 32) (s0 : Nat → Slot Req) (win : Win Req) (A' : List Req) (D : List Nat),
          Allowed w → w ≠ 0 → Client.Run w s0 win A' D → A' <+: A → k < A'.length → k ∉ D →
          ∃ win', win.reply w q = some (win', r) ∧ Client.Run w s0 win' A' (D ++ [k]) := by
  obtain ⟨mend, hist, _⟩ := C35.served_as_map hE hr hk
  have hout := C35.replies_in_order hr i
  have hev := C35.client_served hr hi (messages_fit hA _ _) hs
  have hinv := C35.inv_of_run hr i
  have hne' : events i es ≠ [] := by
    intro h1
    rw [h1] at hout
    exact hne (by simpa using hout)
  obtain ⟨hs', rep0, ok0, more, e1, e2, e3, _⟩ := hev.resolve_left hne'
  have hhs : ∃ index, hs' = backs (hello core) ∧ rep0 = [.int 0, .int 15, .bool true, .int index, .str name] := by
    rw [e1] at hinv
    generalize s.conn i = c at hinv
    cases hinv with
    | opened block' rest' l _ _ index _ buf out h1 h2 h3 =>
      rw [hi, List.cons.injEq] at h1
      rw [← h1.1] at h2
      have := greeting_hello hcore h2
      subst this
      rw [welcome_hello] at h3
      simp only [Option.some.injEq, Prod.mk.injEq] at h3
      exact ⟨index, rfl, h3.2.symm⟩
    | closed block' rest' l _ _ index _ _ left out h1 h2 h3 =>
      rw [hi, List.cons.injEq] at h1
      rw [← h1.1] at h2
      have := greeting_hello hcore h2
      subst this
      rw [welcome_hello] at h3
      simp only [Option.some.injEq, Prod.mk.injEq] at h3
      exact ⟨index, rfl, h3.2.symm⟩
  obtain ⟨index, rfl, rfl⟩ := hhs
  rw [stream_replies] at hout
  obtain ⟨s', g1, g2⟩ := received (ms := (events i es).map reply) (s := .new blocks) (rest := [])
    (by intro m hm; obtain ⟨e, he, rfl⟩ := List.mem_map.1 hm; exact hF e he)
    ⟨rfl, hb, by rw [List.append_nil, ← hout, ← ho]; rfl⟩
  rw [e1] at g1
  refine ⟨index, (more.map reply).map backs, s', ?_, g2, ?_, ?_, ?_⟩
  · simpa [reply, backs, Json.back] using g1
  · simp [welcomed, eqNum, el, truthy, asI, cmdHandshake]
  · simpa [messages_length] using e2
  · intro k r l hk1 hk2
    rw [List.map_map, List.getElem?_map, Option.map_eq_some_iff] at hk2
    obtain ⟨e, he, hl⟩ := hk2
    have hlt := (List.getElem?_eq_some_iff.1 he).1
    have hreq : request e = backs (message (k % 2 ^ 32) r) := by
      have h1 : (more.map request)[k]? = some (request e) := by rw [List.getElem?_map, he]; rfl
      rw [e3, List.getElem?_map, List.getElem?_take_of_lt hlt, messages_eq A _ 0 k r hk1] at h1
      simpa using h1.symm
    have hsplit : events i es = (.greeted i (backs (hello core)) [.int 0, .int 15, .bool true, .int index, .str name] ok0 :: more.take k) ++ e :: more.drop (k + 1) := by
      rw [e1]
      simp only [List.cons_append, List.cons.injEq, true_and]
      have h1 : more[k] = e := (List.getElem?_eq_some_iff.1 he).2
      rw [← h1, ← List.drop_eq_getElem_cons hlt, List.take_append_drop]
    obtain ⟨before, after', hes, hb1, hb2⟩ := List.filter_eq_append_iff.1 hsplit
    obtain ⟨mid, after, hes2, hm1, hm2, hm3⟩ := List.filter_eq_cons_iff.1 hb2
    have hon : C35.onConn i e = true := hm2
    cases e with
    | quiet => simp [C35.onConn] at hon
    | greeted j a b c =>
      simp only [request] at hreq
      cases r <;> simp [message, backs] at hreq
    | served j ts req rep ok =>
      have hj : j = i := by simpa [C35.onConn] using hon
      subst hj
      simp only [request] at hreq
      subst hreq
      have hes3 : es = (before ++ mid) ++ .served j ts (backs (message (k % 2 ^ 32) r)) rep ok :: after := by
        rw [hes, hes2]; simp
      obtain ⟨m1, h1, h2⟩ := History.at hist hes3
      rcases h2 with ⟨rfl, m2, h2⟩ | ⟨_, h2⟩
      · have hseq : seqOf l = some (BitVec.ofNat 32 k) := by
          have h3 : el l 0 = (Json.uint (k % 2 ^ 32)).back := by
            rw [← hl]
            simp only [Function.comp, reply]
            rw [el_backs0, answer_seq h2, el_backs0, show el (message (k % 2 ^ 32) r) 0 = .uint (k % 2 ^ 32) by cases r <;> rfl,
              back_back_uint]
          rw [seqOf_back (Nat.mod_lt _ (by omega)) h3]
          congr 1
          apply BitVec.eq_of_toNat_eq
          simp
        refine ⟨⟨before ++ mid, after, ts, rep, m1, m2, hes3, ?_, h1, h2, hl.symm⟩, _, hseq, ?_⟩
        · have hmid : mid.filter (C35.onConn j) = [] := List.filter_eq_nil_iff.2 fun x hx => by simpa using hm1 x hx
          show ((before ++ mid).filter (C35.onConn j)).length = k + 1
          rw [List.filter_append, hb1, hmid]
          simp
          omega
        · intro w s0 win A' D hw h0 hrun hpre hkA hkD
          obtain ⟨win', w1, w2⟩ := matched hw h0 hrun hkA hkD
          refine ⟨win', ?_, w2⟩
          obtain ⟨u, rfl⟩ := hpre
          rw [List.getElem?_append_left hkA] at hk1
          rw [w1, (List.getElem?_eq_some_iff.1 hk1).2]
      · exact absurd h2 (not_refused _ _)

/-! ### What the client makes of an answer -/

theorem cmd {c : Json} {n x : Int} (h : Command c n) (e : Json.int x = c) : int32 x = n := by
  obtain ⟨y, h1, h2⟩ := h
  rw [← e] at h1
  simp only [asI, Option.some.injEq] at h1
  rw [h1]
  exact h2

/-- A put tells the client whether the key was new. -/
theorem put_told {R : Rows V} {ts : BitVec 64} {m m' : Bytes → Option V} {n : Nat} {k x : Bytes} {rep : List Json}
    (h : Answer R ts m (backs (message n (.putWhole k x))) rep m') :
    (interpret (.putWhole k x) (backs rep) = some (.status 1) ∧ Absent R m k ∨
      interpret (.putWhole k x) (backs rep) = some (.status 2) ∧ ∃ old, Live R m k old) ∧
      ∃ v, R.create1 x ts = some v ∧ m' = C35.upd m k (some v) := by
  generalize hq : backs (message n (.putWhole k x)) = req at h
  simp only [message, backs, Json.back] at hq
  cases h <;> simp only [List.cons.injEq, Json.str.injEq] at hq
  case replaceNew seq c k' s v more h1 h2 h3 =>
    obtain ⟨_, _, rfl, rfl, rfl⟩ := hq
    exact ⟨.inl ⟨rfl, h2⟩, v, h3, rfl⟩
  case replaceOld seq c k' s old v more h1 h2 h3 =>
    obtain ⟨_, _, rfl, rfl, rfl⟩ := hq
    exact ⟨.inr ⟨rfl, old, h2⟩, v, h3, rfl⟩
  all_goals exact absurd (cmd ‹_› hq.2.1) (by decide)

/-- The same with a column. -/
theorem putCol_told {R : Rows V} {ts : BitVec 64} {m m' : Bytes → Option V} {n : Nat} {k x : Bytes} {c : Int} {rep : List Json}
    (h : Answer R ts m (backs (message n (.putCol k c x))) rep m') :
    (interpret (.putCol k c x) (backs rep) = some (.status 1) ∧ Absent R m k ∧
        ∃ v, R.create [.int c, .str x] ts = some v ∧ m' = C35.upd m k (some v)) ∨
      interpret (.putCol k c x) (backs rep) = some (.status 2) ∧
        ∃ old v, Live R m k old ∧ R.update old [.int c, .str x] ts = some v ∧ m' = C35.upd m k (some v) := by
  generalize hq : backs (message n (.putCol k c x)) = req at h
  simp only [message, backs, Json.back] at hq
  cases h <;> simp only [List.cons.injEq, Json.str.injEq] at hq
  case insert seq c k' v args h1 h2 h3 h4 h5 =>
    obtain ⟨_, _, rfl, rfl⟩ := hq
    exact .inl ⟨rfl, h4, v, h5, rfl⟩
  case update seq c k' old v args h1 h2 h3 h4 h5 =>
    obtain ⟨_, _, rfl, rfl⟩ := hq
    exact .inr ⟨rfl, old, v, h4, h5, rfl⟩
  all_goals exact absurd (cmd ‹_› hq.2.1) (by decide)

/-- A get of a column tells the client the column, if the key is there; if it is not, the client takes the key for the value. -/
theorem getCol_told {R : Rows V} {ts : BitVec 64} {m m' : Bytes → Option V} {n : Nat} {k : Bytes} {c : Int} {rep : List Json}
    (h : Answer R ts m (backs (message n (.getCol k c))) rep m') :
    m' = m ∧ ((∃ v x, Live R m k v ∧ R.col v (R.index c) = some x ∧ interpret (.getCol k c) (backs rep) = some (.value true x)) ∨
      Absent R m k ∧ interpret (.getCol k c) (backs rep) = some (.value true k)) := by
  generalize hq : backs (message n (.getCol k c)) = req at h
  simp only [message, backs, Json.back] at hq
  cases h <;> simp only [List.cons.injEq, Json.str.injEq] at hq
  case get seq c' k' v args cs vals h1 h2 h3 h4 =>
    obtain ⟨_, _, rfl, rfl⟩ := hq
    match cs, h3 with
    | [y], h3 =>
      simp only [List.map_cons, List.map_nil, asI, List.cons.injEq, Option.some.injEq, and_true] at h3
      subst h3
      simp only [C35.Cols, C35.asked, List.map_cons, List.map_nil] at h4
      match vals, h4 with
      | [x], h4 =>
        simp only [List.map_cons, List.map_nil, List.cons.injEq, and_true] at h4
        exact ⟨rfl, .inl ⟨v, x, h2, h4, rfl⟩⟩
      | _ :: _ :: _, h4 => simp at h4
  case missing seq c' k' args h1 h2 =>
    obtain ⟨_, _, rfl, rfl⟩ := hq
    exact ⟨rfl, .inr ⟨h2, rfl⟩⟩
  all_goals exact absurd (cmd ‹_› hq.2.1) (by decide)

theorem backs_strs : ∀ l : List Bytes, backs (l.map .str) = l.map .str
  | [] => rfl
  | x :: l => by simp [backs, Json.back, backs_strs l]

/-- A get of a whole row tells the client its first column. -/
theorem getWhole_told {R : Rows V} {ts : BitVec 64} {m m' : Bytes → Option V} {n : Nat} {k : Bytes} {rep : List Json}
    (h : Answer R ts m (backs (message n (.getWhole k))) rep m') :
    m' = m ∧ ((∃ v vals, Live R m k v ∧ C35.Cols R v [] vals ∧
        interpret (.getWhole k) (backs rep) = some (match vals with | [] => .value false [] | x :: _ => .value true x)) ∨
      Absent R m k ∧ interpret (.getWhole k) (backs rep) = some (.value true k)) := by
  generalize hq : backs (message n (.getWhole k)) = req at h
  simp only [message, backs, Json.back] at hq
  cases h <;> simp only [List.cons.injEq, Json.str.injEq] at hq
  case get seq c' k' v args cs vals h1 h2 h3 h4 =>
    obtain ⟨_, _, rfl, rfl⟩ := hq
    have : cs = [] := by simpa using h3
    subst this
    refine ⟨rfl, .inl ⟨v, vals, h2, h4, ?_⟩⟩
    cases vals with
    | nil => rfl
    | cons x l => simp [interpret, backs, Json.back, el, asS]
  case missing seq c' k' args h1 h2 =>
    obtain ⟨_, _, rfl, rfl⟩ := hq
    exact ⟨rfl, .inr ⟨h2, rfl⟩⟩
  all_goals exact absurd (cmd ‹_› hq.2.1) (by decide)

/-- A get that is waited for: a row with one column is returned if there is room; one with more columns stops the client; for a
missing key the key is returned; -1 only for a row without columns. -/
theorem getSync_told {R : Rows V} {ts : BitVec 64} {m m' : Bytes → Option V} {n max : Nat} {k : Bytes} {rep : List Json}
    (h : Answer R ts m (backs (message n (.getWhole k))) rep m') :
    (∃ v vals, Live R m k v ∧ C35.Cols R v [] vals ∧
      getSync n max (backs rep) = (match vals with
        | [] => some none
        | [x] => if x.length ≤ max then some (some x) else none
        | _ => none)) ∨
      Absent R m k ∧ getSync n max (backs rep) = if k.length ≤ max then some (some k) else none := by
  have h0 : eqNum (el (backs rep) 0) n = true := by
    rw [el_backs0, answer_seq h, el_backs0]
    show eqNum ((Json.uint n).back).back n = true
    rw [back_back_uint]
    simp only [Json.back, readUint]
    split <;> simp [eqNum]
  generalize hq : backs (message n (.getWhole k)) = req at h
  simp only [message, backs, Json.back] at hq
  cases h <;> simp only [List.cons.injEq, Json.str.injEq] at hq
  case get seq c' k' v args cs vals h1 h2 h3 h4 =>
    obtain ⟨_, _, rfl, rfl⟩ := hq
    have : cs = [] := by simpa using h3
    subst this
    refine .inl ⟨v, vals, h2, h4, ?_⟩
    unfold getSync
    rw [if_pos h0]
    match vals with
    | [] => rfl
    | [x] => simp [backs, Json.back, el, asS, truthy]
    | x :: y :: l => simp [backs, Json.back, backs_strs, el, truthy]
  case missing seq c' k' args h1 h2 =>
    obtain ⟨_, _, rfl, rfl⟩ := hq
    refine .inr ⟨h2, ?_⟩
    unfold getSync
    rw [if_pos h0]
    simp [backs, Json.back, el, asS, truthy]
  all_goals exact absurd (cmd ‹_› hq.2.1) (by decide)

/-- A remove with a callback fails a precondition, for the reply is a truth value; it is the right one. -/
theorem remove_told {R : Rows V} {ts : BitVec 64} {m m' : Bytes → Option V} {n : Nat} {k : Bytes} {rep : List Json}
    (h : Answer R ts m (backs (message n (.remove k))) rep m') :
    interpret (.remove k) (backs rep) = none ∧ el (backs rep) 2 = .bool (m k).isSome ∧ m' = C35.upd m k none := by
  generalize hq : backs (message n (.remove k)) = req at h
  simp only [message, backs, Json.back] at hq
  cases h <;> simp only [List.cons.injEq, Json.str.injEq] at hq
  case remove seq c k' more h1 =>
    obtain ⟨_, _, rfl, rfl⟩ := hq
    exact ⟨rfl, rfl, rfl⟩
  all_goals exact absurd (cmd ‹_› hq.2.1) (by decide)

/-- Columns given as an array: a get of a key that is there, and any scan, ends the server. -/
theorem column_lists_stop {R : Rows V} {E : Env} (hf : ∀ n, (E.fresh n).length = n) {fuel : Nat} {t : Trie.T V}
    {m : Bytes → Option V} (h : Holds 256 t m) (n : Nat) (k : Bytes) (f : List Nat) (num : Int) :
    (∀ v, Live R m k v → onego R E fuel t (backs (message n (.get k f))) = .stop) ∧
      onego R E fuel t (backs (message n (.scan k f num))) = .stop := by
  constructor
  · intro v hv
    refine C35.otherwise_stops hf h ?_ (fun reply m' ha => ?_) (not_refused _ _)
    · simp [message, backs, Json.back, storedKey, el, asI, asS, int32]
    · generalize hq : backs (message n (.get k f)) = req at ha
      simp only [message, backs, Json.back] at hq
      cases ha <;> simp only [List.cons.injEq, Json.str.injEq] at hq
      case get seq c' k' v args cs vals h1 h2 h3 h4 =>
        obtain ⟨_, _, rfl, rfl⟩ := hq
        match cs, h3 with
        | [], h3 => simp at h3
        | y :: cs, h3 => simp [asI] at h3
      case missing seq c' k' args h1 h2 =>
        obtain ⟨_, _, rfl, rfl⟩ := hq
        exact h2 v hv
      all_goals exact absurd (cmd ‹_› hq.2.1) (by decide)
  · refine C35.otherwise_stops hf h ?_ (fun reply m' ha => ?_) (not_refused _ _)
    · simp [message, backs, Json.back, storedKey, el, asI, asS, int32]
    · generalize hq : backs (message n (.scan k f num)) = req at ha
      simp only [message, backs, Json.back] at hq
      cases ha <;> simp only [List.cons.injEq, Json.str.injEq] at hq
      case scan seq c' lim k' args n' cs L js h1 h2 h3 h4 h5 h6 h7 =>
        obtain ⟨_, _, rfl, rfl, rfl⟩ := hq
        match cs, h5 with
        | [], h5 => simp at h5
        | y :: cs, h5 => simp [asI] at h5
      all_goals exact absurd (cmd ‹_› hq.2.1) (by decide)

/-! ### Cases -/

def noSlots : Nat → Slot Char := fun _ => ⟨0, false, '-'⟩

/-- Four requests with a window of four; the third is answered first.  The window then is still full, the second reply opens it. -/
example : ∃ s s', Client.Run 4 noSlots s ['a', 'b', 'c', 'd'] [2] ∧ s.Full 4 ∧ s.reply 4 0 = some (s', 'a') ∧ ¬ s'.Full 4 := by
  have r0 : Client.Run 4 noSlots ⟨0, 0, noSlots⟩ [] [] := .init
  have r1 := r0.send (by unfold Win.Full; decide) 'a'
  have r2 := r1.send (by unfold Win.Full; decide) 'b'
  have r3 := r2.send (by unfold Win.Full; decide) 'c'
  have r4 := r3.send (by unfold Win.Full; decide) 'd'
  have r5 := r4.reply (n := 2) (a := 'c') (by decide) (by decide) rfl
  exact ⟨_, _, r5, by unfold Win.Full; decide, rfl, by unfold Win.Full; decide⟩

example : Allowed 4 ∧ (4 : BitVec 32) ≠ 0 := ⟨⟨by decide, by decide⟩, by decide⟩

/-- Numbers that wrap around: the requests 2^32 - 1 and 0 are under way, the second is answered. -/
example : ((Win.mk 0xFFFFFFFF 1 fun j => if j = 3 then ⟨0xFFFFFFFF, false, 'y'⟩ else ⟨0, false, 'z'⟩).reply 4 0).map
    (fun r => (r.1.seq0, r.1.seq1, r.2)) = some (0xFFFFFFFF, 1, 'z') := by decide

/-- A client that puts, gets a column, gets a missing key and removes. -/
def demoReqs : List Req := [.putWhole [107] [120], .getCol [107] 0, .getWhole [122], .remove [107]]

def demoInp : Nat → List Bytes
  | 0 => enc (.arr (hello (-1))) :: (messages (hello (-1)) 0 demoReqs).map fun m => enc (.arr m)
  | _ => []

def demoRun : Option (Srv Row.Bag.Row × List Ev) :=
  (Srv.init demoInp).run bag [86] [.accept 0, .greet 0 7, .serve 0 C35.demoEnv 0, .serve 0 C35.demoEnv 0, .serve 0 C35.demoEnv 0,
    .serve 0 C35.demoEnv 0]

/-- The bytes that the server sends. -/
def demoOut : Bytes := [0x95, 0, 15, 0xC3, 7, 0xA1, 86] ++ [0x93, 0, 9, 1] ++ [0x93, 1, 3, 0xA1, 120] ++ [0x93, 2, 3, 0xA1, 122] ++
  [0x93, 3, 11, 0xC3]

example : demoRun.map (fun r => (r.1.conn 0).out) = some demoOut := by decide +kernel

example : (demoInp 0).tail.flatten = stream (messages (hello (-1)) 0 demoReqs) := rfl
example : ∀ r ∈ demoReqs, Sendable r := by simp [demoReqs, Sendable]

/-- Read in blocks of 3 bytes. -/
example : Between (.new [demoOut.take 3, (demoOut.drop 3).take 3, (demoOut.drop 6).take 14, demoOut.drop 20]) demoOut :=
  ⟨rfl, by simp [Input.new, demoOut], by simp [Input.new, demoOut]⟩

/-- What the client is told: inserted, the column, the key itself for the missing key, and a failed precondition. -/
example : [interpret demoReqs[0] [.int 0, .int 9, .int 1], interpret demoReqs[1] [.int 1, .int 3, .str [120]],
    interpret demoReqs[2] [.int 2, .int 3, .str [122]], interpret demoReqs[3] [.int 3, .int 11, .bool true]] =
    [some (.status 1), some (.value true [120]), some (.value true [122]), none] := by decide

end Verif.Props.C58
