import Verif.Props.C35
import Verif.Props.C16
import Verif.Props.C19
import Verif.Server.Conn

/-!
# C35, continued: connections
-/
namespace Verif.Props.C35
open Verif.Key (Bytes LexLt)
open Verif.Msgpack
open Verif.Trie (T get ReachableLe)
open Verif.Server
variable {V : Type}

/-! ### The table follows the requests served -/

/-- The map after the requests of a sequence of events, each getting its specified answer. -/
inductive History (R : Rows V) : (Bytes → Option V) → List Ev → (Bytes → Option V) → Prop where
  | nil (m : Bytes → Option V) : History R m [] m
  | quiet (m m' : Bytes → Option V) (es : List Ev) : History R m es m' → History R m (.quiet :: es) m'
  | greeted (i : Nat) (hs reply : List Json) (ok : Bool) (m m' : Bytes → Option V) (es : List Ev) : History R m es m' →
      History R m (.greeted i hs reply ok :: es) m'
  | answered (i : Nat) (ts : BitVec 64) (req reply : List Json) (m m' m'' : Bytes → Option V) (es : List Ev) :
      Answer R ts m req reply m' → History R m' es m'' → History R m (.served i ts req reply true :: es) m''
  | refused (i : Nat) (ts : BitVec 64) (seq c : Json) (rest : List Json) (m m' : Bytes → Option V) (es : List Ev) :
      Refused (seq :: c :: rest) → History R m es m' →
      History R m (.served i ts (seq :: c :: rest) [seq, .int (-1)] false :: es) m'

theorem empty_holds : Holds 256 (Trie.empty : T V) fun _ => none :=
  ⟨⟨[], by simp, [], rfl⟩, fun k => (Trie.empty_repr (V := V)).2 k⟩

theorem follows {R : Rows V} {name : Bytes} : ∀ {acts : List Act} {s s' : Srv V} {es : List Ev} {m : Bytes → Option V},
    (∀ i E fuel, Act.serve i E fuel ∈ acts → ∀ n, (E.fresh n).length = n) → s.run R name acts = some (s', es) →
    (∀ i ts req reply ok, Ev.served i ts req reply ok ∈ es → (storedKey req).length ≤ 256) → Holds 256 s.t m →
    ∃ m', History R m es m' ∧ Holds 256 s'.t m'
  | [], s, s', es, m, _, hr, _, hm => by
    simp only [Srv.run, Option.some.injEq, Prod.mk.injEq] at hr
    obtain ⟨rfl, rfl⟩ := hr
    exact ⟨m, .nil m, hm⟩
  | a :: acts, s, s', es, m, hE, hr, hk, hm => by
    unfold Srv.run at hr
    cases hs : s.step R name a with
    | none => rw [hs] at hr; simp at hr
    | some r =>
      obtain ⟨s1, e⟩ := r
      rw [hs] at hr
      simp only [Option.map_eq_some_iff] at hr
      obtain ⟨⟨s2, es'⟩, hr, he⟩ := hr
      simp only [Prod.mk.injEq] at he
      obtain ⟨rfl, rfl⟩ := he
      have next := fun {m} => follows (m := m) (fun i E fuel h => hE i E fuel (List.mem_cons_of_mem _ h)) hr
        (fun i ts req reply ok h => hk i ts req reply ok (List.mem_cons_of_mem _ h))
      cases a with
      | accept i =>
        simp only [Srv.step] at hs
        split at hs
        case h_2 => simp at hs
        case h_1 inp out _ =>
        have : e = .quiet ∧ s1.t = s.t := by
          split at hs
          · simp only [Option.some.injEq, Prod.mk.injEq] at hs; exact ⟨hs.2.symm, by rw [← hs.1]; rfl⟩
          · split at hs
            · simp at hs
            · split at hs <;>
              · simp only [Option.some.injEq, Prod.mk.injEq] at hs; exact ⟨hs.2.symm, by rw [← hs.1]; rfl⟩
        obtain ⟨rfl, ht⟩ := this
        obtain ⟨m', h1, h2⟩ := next (ht ▸ hm)
        exact ⟨m', .quiet _ _ _ h1, h2⟩
      | greet i index =>
        simp only [Srv.step] at hs
        split at hs
        case h_2 => simp at hs
        case h_1 =>
        simp only [Option.map_eq_some_iff, Prod.mk.injEq] at hs
        obtain ⟨⟨ok, reply⟩, _, rfl, rfl⟩ := hs
        obtain ⟨m', h1, h2⟩ := next (m := m) hm
        exact ⟨m', .greeted _ _ _ _ _ _ _ h1, h2⟩
      | serve i E fuel =>
        simp only [Srv.step] at hs
        split at hs
        case h_2 => simp at hs
        case h_1 =>
        split at hs
        · simp at hs
        · rename_i req _
          split at hs
          · simp at hs
          · rename_i ok reply t ho
            simp only [Option.some.injEq, Prod.mk.injEq] at hs
            obtain ⟨rfl, rfl⟩ := hs
            have hf := hE i E fuel (by simp)
            have hk' := hk i E.ts req reply ok (by simp)
            cases ok with
            | true =>
              obtain ⟨m1, ha, hm1⟩ := answers hf hm hk' ho
              obtain ⟨m', h1, h2⟩ := next (m := m1) hm1
              exact ⟨m', .answered _ _ _ _ _ _ _ _ ha h1, h2⟩
            | false =>
              obtain ⟨hR, ⟨seq, c, rest, rfl, rfl⟩, rfl⟩ := refused.1 ho
              obtain ⟨m', h1, h2⟩ := next (m := m) hm
              exact ⟨m', .refused _ _ _ _ _ _ _ _ hR h1, h2⟩
        · simp only [Option.some.injEq, Prod.mk.injEq] at hs
          obtain ⟨rfl, rfl⟩ := hs
          obtain ⟨m', h1, h2⟩ := next (m := m) hm
          exact ⟨m', .quiet _ _ _ h1, h2⟩

/-- However the connections' requests are interleaved, their answers are those of a map, and the
table holds this map. -/
theorem served_as_map {R : Rows V} {name : Bytes} {inp : Nat → List Bytes} {acts : List Act} {s : Srv V} {es : List Ev}
    (hE : ∀ i E fuel, Act.serve i E fuel ∈ acts → ∀ n, (E.fresh n).length = n)
    (hr : (Srv.init inp).run R name acts = some (s, es))
    (hk : ∀ i ts req reply ok, Ev.served i ts req reply ok ∈ es → (storedKey req).length ≤ 256) :
    ∃ m, History R (fun _ => none) es m ∧ Holds 256 s.t m :=
  follows hE hr hk empty_holds

/-! ### What happens on one connection -/

/-- The events of connection `i`. -/
def onConn (i : Nat) : Ev → Bool
  | .quiet => false
  | .greeted j _ _ _ => j == i
  | .served j _ _ _ _ => j == i

def events (i : Nat) (es : List Ev) : List Ev := es.filter (onConn i)

/-- The bytes of the replies. -/
def replyBytes : Ev → Bytes
  | .quiet => []
  | .greeted _ _ r _ => enc (.arr r)
  | .served _ _ _ r _ => enc (.arr r)

def stays : Ev → Bool
  | .quiet => true
  | .greeted _ _ _ b => b
  | .served _ _ _ _ b => b

/-- `Reads i bs es left`: the events are requests decoded from `bs` one after the other, leaving
`left`; only the last may close the connection. -/
inductive Reads (i : Nat) : Bytes → List Ev → Bytes → Prop where
  | nil (bs : Bytes) : Reads i bs [] bs
  | cons (bs : Bytes) (ts : BitVec 64) (req reply : List Json) (ok : Bool) (es : List Ev) (left : Bytes) :
      (SP.init.feed bs).1.mode = .final (.arr req) → (ok = false → es = []) → Reads i (SP.init.feed bs).2 es left →
      Reads i bs (.served i ts req reply ok :: es) left

theorem Reads.snoc {i : Nat} {bs left : Bytes} {es : List Ev} (h : Reads i bs es left) (hs : ∀ e ∈ es, stays e = true)
    {ts : BitVec 64} {req reply : List Json} {ok : Bool} (hf : (SP.init.feed left).1.mode = .final (.arr req)) :
    Reads i bs (es ++ [.served i ts req reply ok]) (SP.init.feed left).2 := by
  induction h with
  | nil bs => exact .cons _ _ _ _ _ _ _ hf (fun _ => rfl) (.nil _)
  | cons bs ts' req' reply' ok' es left h1 h2 _ ih =>
    refine .cons _ _ _ _ _ _ _ h1 (fun he => ?_) (ih (fun e he => hs e (List.mem_cons_of_mem _ he)) hf)
    have : ok' = true := hs _ (List.mem_cons_self ..)
    rw [this] at he; cases he

theorem recv_spec : ∀ (cs : List Bytes) (sp : SP), sp.Ok →
    (recv sp cs).1 = (sp.feed cs.flatten).1 ∧
      ((sp.feed cs.flatten).1.mode.done = true → (recv sp cs).2.1 ++ (recv sp cs).2.2.flatten = (sp.feed cs.flatten).2)
  | [], sp, _ => by simp [recv, feed_nil]
  | c :: cs, sp, hok => by
    obtain ⟨h1, h2⟩ := feed_facts hok c
    rw [List.flatten_cons, feed_append hok]
    unfold recv
    by_cases hd : (sp.feed c).1.mode.done = true
    · rw [if_pos hd, if_pos hd]; exact ⟨rfl, fun _ => rfl⟩
    · rw [if_neg hd, if_neg hd]; exact recv_spec cs _ h1

/-- A connection in terms of the blocks it sent and its events. -/
inductive Inv (name : Bytes) (i : Nat) (inp : List Bytes) : Conn → List Ev → Prop where
  | fresh : Inv name i inp ⟨.fresh, inp, []⟩ []
  | greeting (block : Bytes) (rest : List Bytes) (hs : List Json) : inp = block :: rest → greeting? block = some hs →
      Inv name i inp ⟨.greeting hs, rest, []⟩ []
  | dropped (l : List Bytes) : Inv name i inp ⟨.closed, l, []⟩ []
  | opened (block : Bytes) (rest l : List Bytes) (hs reply : List Json) (index : Int) (more : List Ev) (buf out : Bytes) :
      inp = block :: rest → greeting? block = some hs → handshake index name hs = some (true, reply) →
      Reads i rest.flatten more (buf ++ l.flatten) → (∀ e ∈ more, stays e = true) →
      out = ((Ev.greeted i hs reply true :: more).map replyBytes).flatten →
      Inv name i inp ⟨.opened buf, l, out⟩ (.greeted i hs reply true :: more)
  | closed (block : Bytes) (rest l : List Bytes) (hs reply : List Json) (index : Int) (ok : Bool) (more : List Ev)
      (left out : Bytes) :
      inp = block :: rest → greeting? block = some hs → handshake index name hs = some (ok, reply) →
      (ok = false → more = []) → Reads i rest.flatten more left →
      out = ((Ev.greeted i hs reply ok :: more).map replyBytes).flatten →
      Inv name i inp ⟨.closed, l, out⟩ (.greeted i hs reply ok :: more)

theorem step_inv {R : Rows V} {name : Bytes} {inp : Nat → List Bytes} {s s' : Srv V} {a : Act} {e : Ev} {es : List Ev}
    (h : ∀ i, Inv name i (inp i) (s.conn i) (events i es)) (hs : s.step R name a = some (s', e)) :
    ∀ i, Inv name i (inp i) (s'.conn i) (events i (es ++ [e])) := by
  have ev : ∀ i, events i (es ++ [e]) = events i es ++ if onConn i e then [e] else [] := by
    intro i; simp only [events, List.filter_append, List.filter_cons, List.filter_nil]
  cases a with
  | accept i =>
    intro k
    simp only [Srv.step] at hs
    split at hs
    case h_2 => simp at hs
    case h_1 l out hc =>
    have hi := h i
    rw [hc] at hi
    have key : ∀ c, Inv name i (inp i) c (events i es) → s' = s.set i c ∧ e = .quiet →
        Inv name k (inp k) (s'.conn k) (events k (es ++ [e])) := by
      rintro c h1 ⟨rfl, rfl⟩
      rw [ev]
      simp only [onConn, Bool.false_eq_true, if_false, List.append_nil, Srv.set]
      by_cases hk : k = i
      · subst hk; rw [if_pos rfl]; exact h1
      · rw [if_neg hk]; exact h k
    generalize he : events i es = es' at hi key
    cases hi
    split at hs
    · simp only [Option.some.injEq, Prod.mk.injEq] at hs
      exact key _ (.dropped _) ⟨hs.1.symm, hs.2.symm⟩
    · rename_i c cs hin
      split at hs
      · simp at hs
      · split at hs
        · rename_i hs' hg
          simp only [Option.some.injEq, Prod.mk.injEq] at hs
          exact key _ (.greeting c cs hs' hin hg) ⟨hs.1.symm, hs.2.symm⟩
        · simp only [Option.some.injEq, Prod.mk.injEq] at hs
          exact key _ (.dropped _) ⟨hs.1.symm, hs.2.symm⟩
  | greet i index =>
    intro k
    simp only [Srv.step] at hs
    split at hs
    case h_2 => simp at hs
    case h_1 hs' l out hc =>
    have hi := h i
    rw [hc] at hi
    simp only [Option.map_eq_some_iff, Prod.mk.injEq] at hs
    obtain ⟨⟨ok, reply⟩, hh, rfl, rfl⟩ := hs
    rw [ev]
    by_cases hk : k = i
    · subst hk
      simp only [onConn, beq_self_eq_true, if_true, Srv.set]
      generalize events k es = es' at hi ⊢
      cases hi with
      | greeting block rest _ h1 h2 =>
        cases ok with
        | true =>
          exact .opened block l l hs' reply index [] [] _ h1 h2 hh (.nil _) (by simp) (by simp [replyBytes])
        | false =>
          exact .closed block l l hs' reply index false [] _ _ h1 h2 hh (fun _ => rfl) (.nil _) (by simp [replyBytes])
    · have : (i == k) = false := by simp [Ne.symm hk]
      simp only [onConn, this, Bool.false_eq_true, if_false, List.append_nil, Srv.set]
      rw [if_neg hk]; exact h k
  | serve i E fuel =>
    intro k
    simp only [Srv.step] at hs
    split at hs
    case h_2 => simp at hs
    case h_1 buf l out hc =>
    have hi := h i
    rw [hc] at hi
    obtain ⟨r1, r2⟩ := recv_spec (buf :: l) SP.init trivial
    split at hs
    · simp at hs
    · rename_i req hm
      split at hs
      · simp at hs
      · rename_i ok reply t ho
        simp only [Option.some.injEq, Prod.mk.injEq] at hs
        obtain ⟨rfl, rfl⟩ := hs
        rw [ev]
        by_cases hk : k = i
        · subst hk
          simp only [onConn, beq_self_eq_true, if_true, Srv.set]
          generalize events k es = es' at hi ⊢
          rw [r1] at hm
          have r2' := r2 (by rw [hm]; rfl)
          rw [List.flatten_cons] at hm r2'
          cases hi with
          | opened block rest _ hs' reply' index more _ _ h1 h2 h3 h4 h5 h6 =>
            have h7 := h4.snoc (ts := E.ts) (reply := reply) (ok := ok) h5 hm
            rw [List.cons_append]
            have h8 : out ++ enc (.arr reply) =
                ((Ev.greeted k hs' reply' true :: (more ++ [.served k E.ts req reply ok])).map replyBytes).flatten := by
              rw [h6]; simp [replyBytes]
            cases ok with
            | true =>
              rw [← r2'] at h7
              refine .opened block rest _ hs' reply' index _ _ _ h1 h2 h3 h7 ?_ h8
              intro e he
              rcases List.mem_append.1 he with he | he
              · exact h5 e he
              · rw [List.mem_singleton.1 he]; rfl
            | false => exact .closed block rest _ hs' reply' index true _ _ _ h1 h2 h3 (by simp) h7 h8
        · have : (i == k) = false := by simp [Ne.symm hk]
          simp only [onConn, this, Bool.false_eq_true, if_false, List.append_nil, Srv.set]
          rw [if_neg hk]; exact h k
    · simp only [Option.some.injEq, Prod.mk.injEq] at hs
      obtain ⟨rfl, rfl⟩ := hs
      rw [ev]
      simp only [onConn, Bool.false_eq_true, if_false, List.append_nil, Srv.set]
      by_cases hk : k = i
      · subst hk
        rw [if_pos rfl]
        generalize events k es = es' at hi ⊢
        cases hi with
        | opened block rest _ hs' reply' index more _ _ h1 h2 h3 h4 h5 h6 =>
          exact .closed block rest _ hs' reply' index true _ _ _ h1 h2 h3 (by simp) h4 h6
      · rw [if_neg hk]; exact h k

theorem run_inv {R : Rows V} {name : Bytes} {inp : Nat → List Bytes} : ∀ {acts : List Act} {s s' : Srv V}
    {es es' : List Ev}, (∀ i, Inv name i (inp i) (s.conn i) (events i es)) → s.run R name acts = some (s', es') →
    ∀ i, Inv name i (inp i) (s'.conn i) (events i (es ++ es'))
  | [], s, s', es, es', h, hr => by
    simp only [Srv.run, Option.some.injEq, Prod.mk.injEq] at hr
    obtain ⟨rfl, rfl⟩ := hr
    simpa using h
  | a :: acts, s, s', es, es', h, hr => by
    unfold Srv.run at hr
    cases hs : s.step R name a with
    | none => rw [hs] at hr; simp at hr
    | some r =>
      obtain ⟨s1, e⟩ := r
      rw [hs] at hr
      simp only [Option.map_eq_some_iff] at hr
      obtain ⟨⟨s2, es2⟩, hr, he⟩ := hr
      simp only [Prod.mk.injEq] at he
      obtain ⟨rfl, rfl⟩ := he
      have := run_inv (step_inv h hs) hr
      simpa using this

theorem inv_of_run {R : Rows V} {name : Bytes} {inp : Nat → List Bytes} {acts : List Act} {s : Srv V} {es : List Ev}
    (hr : (Srv.init inp).run R name acts = some (s, es)) (i : Nat) : Inv name i (inp i) (s.conn i) (events i es) := by
  have := run_inv (es := []) (fun i => Inv.fresh) hr i
  simpa using this

/-- A connection has been sent the replies to its handshake and its requests, in order, and nothing
else. -/
theorem replies_in_order {R : Rows V} {name : Bytes} {inp : Nat → List Bytes} {acts : List Act} {s : Srv V}
    {es : List Ev} (hr : (Srv.init inp).run R name acts = some (s, es)) (i : Nat) :
    (s.conn i).out = ((events i es).map replyBytes).flatten := by
  have h := inv_of_run hr i
  generalize events i es = es' at h
  generalize s.conn i = c at h
  cases h with
  | fresh => rfl
  | greeting => rfl
  | dropped => rfl
  | opened _ _ _ _ _ _ _ _ _ _ _ _ _ _ h6 => exact h6
  | closed _ _ _ _ _ _ _ _ _ _ _ _ _ _ _ h6 => exact h6

/-- A handshake that lets its connection stay, with its reply. -/
def Welcome (name : Bytes) (hs reply : List Json) : Prop :=
  ∃ seq c more index, hs = seq :: c :: more ∧ isI c = true ∧ asI c = some 14 ∧
    (more = [] ∨ ∃ o more', more = .obj o :: more' ∧ ∀ x, asI (member (.obj o) sMaxkeylen) = some x →
      isI (member (.obj o) sMaxkeylen) = true → x ≤ 255) ∧
    reply = [seq, .int 15, .bool true, .int index, .str name]

/-- One that is answered but ends its connection. -/
def Unwelcome (hs reply : List Json) : Prop :=
  ∃ seq c o more x, hs = seq :: c :: .obj o :: more ∧ isI c = true ∧ asI c = some 14 ∧
    isI (member (.obj o) sMaxkeylen) = true ∧ asI (member (.obj o) sMaxkeylen) = some x ∧ 255 < x ∧
    reply = [seq, .int 15, .bool false, .str sBad]

theorem welcome_reply (seq c a b d : Json) (more : List Json) :
    put (resize (put (put (put (seq :: c :: more) 2 a) 3 b) 4 d) 5) 1 (.int (cmdHandshake + 1)) =
      [seq, .int 15, a, b, d] := by
  match more with
  | [] => simp [put, resize, cmdHandshake]
  | [_] => simp [put, resize, cmdHandshake]
  | [_, _] => simp [put, resize, cmdHandshake]
  | _ :: _ :: _ :: l => simp [put, resize, cmdHandshake]

theorem unwelcome_reply (seq c a b : Json) (more : List Json) :
    put (resize (put (put (seq :: c :: more) 2 a) 3 b) 4) 1 (.int (cmdHandshake + 1)) = [seq, .int 15, a, b] := by
  match more with
  | [] => simp [put, resize, cmdHandshake]
  | [_] => simp [put, resize, cmdHandshake]
  | _ :: _ :: l => simp [put, resize, cmdHandshake]

theorem handshake_true {index : Int} {name : Bytes} {hs reply : List Json}
    (h : handshake index name hs = some (true, reply)) : Welcome name hs reply := by
  unfold handshake at h
  split at h
  case isFalse => simp at h
  case isTrue h1 =>
  obtain ⟨h1, h2, h3, h4⟩ := h1
  match hs, h1 with
  | seq :: c :: more, _ =>
    simp only at h
    split at h
    · simp at h
    · rename_i h5
      simp only [Option.some.injEq, Prod.mk.injEq, true_and] at h
      refine ⟨seq, c, more, index, rfl, h2, h3, ?_, ?_⟩
      · rcases h4 with h4 | h4
        · left; simpa using h4
        · right
          cases more with
          | nil => simp [el, isO] at h4
          | cons o more' =>
            cases o with
            | obj o =>
              refine ⟨o, more', rfl, fun x hx hi => ?_⟩
              have : ¬ (isI (member (.obj o) sMaxkeylen) = true ∧ 255 < (asI (member (.obj o) sMaxkeylen)).getD 0) := h5
              rw [hx] at this
              simp only [hi, Option.getD_some, true_and] at this
              omega
            | _ => simp [el, isO] at h4
      · rw [← h, welcome_reply]

theorem handshake_false {index : Int} {name : Bytes} {hs reply : List Json}
    (h : handshake index name hs = some (false, reply)) : Unwelcome hs reply := by
  unfold handshake at h
  split at h
  case isFalse => simp at h
  case isTrue h1 =>
  obtain ⟨h1, h2, h3, h4⟩ := h1
  match hs, h1 with
  | seq :: c :: more, _ =>
    simp only at h
    split at h
    · rename_i h5
      simp only [Option.some.injEq, Prod.mk.injEq, true_and] at h
      rcases h4 with h4 | h4
      · have : more = [] := by simpa using h4
        subst this
        simp [el, member, isI] at h5
      · cases more with
        | nil => simp [el, isO] at h4
        | cons o more' =>
          cases o with
          | obj o =>
            have h5' : isI (member (.obj o) sMaxkeylen) = true ∧ 255 < (asI (member (.obj o) sMaxkeylen)).getD 0 := h5
            cases hx : asI (member (.obj o) sMaxkeylen) with
            | none => rw [hx] at h5'; simp at h5'
            | some x =>
              rw [hx] at h5'
              refine ⟨seq, c, o, more', x, rfl, h2, h3, h5'.1, hx, h5'.2, ?_⟩
              rw [← h, unwelcome_reply]
          | _ => simp [el, isO] at h4
    · simp at h

/-- A request is served only on a connection whose handshake was answered and accepted before; the
handshake is what the first block read on the connection holds. -/
theorem handshake_first {R : Rows V} {name : Bytes} {inp : Nat → List Bytes} {acts : List Act} {s : Srv V}
    {es : List Ev} (hr : (Srv.init inp).run R name acts = some (s, es)) {i : Nat} {ts : BitVec 64}
    {req reply : List Json} {ok : Bool} {before after : List Ev} (he : es = before ++ .served i ts req reply ok :: after) :
    ∃ hs r, .greeted i hs r true ∈ before ∧ Welcome name hs r ∧
      ∃ block rest, inp i = block :: rest ∧ result? (SP.init.feed block).1 = .arr hs ∧ (SP.init.feed block).2 = [] := by
  have h := inv_of_run hr i
  have hev : events i es = events i before ++ .served i ts req reply ok :: events i after := by
    rw [he]; simp [events, onConn]
  rw [hev] at h
  generalize s.conn i = c at h
  generalize hes : events i before ++ .served i ts req reply ok :: events i after = es' at h
  have key : ∀ {hs r : List Json} {b : Bool} {more : List Ev} {index : Int} {block : Bytes} {rest : List Bytes},
      .greeted i hs r b :: more = events i before ++ .served i ts req reply ok :: events i after →
      (b = false → more = []) → inp i = block :: rest → greeting? block = some hs →
      handshake index name hs = some (b, r) →
      ∃ hs r, .greeted i hs r true ∈ before ∧ Welcome name hs r ∧
        ∃ block rest, inp i = block :: rest ∧ result? (SP.init.feed block).1 = .arr hs ∧ (SP.init.feed block).2 = [] := by
    intro hs r b more index block rest e hb h1 h2 h3
    cases hbe : events i before with
    | nil => rw [hbe, List.nil_append] at e; simp at e
    | cons x l =>
      rw [hbe, List.cons_append, List.cons.injEq] at e
      cases b with
      | false => rw [hb rfl] at e; simp at e
      | true =>
        refine ⟨hs, r, ?_, handshake_true h3, block, rest, h1, ?_⟩
        · have : x ∈ events i before := by rw [hbe]; simp
          rw [e.1]
          exact (List.mem_filter.1 this).1
        · unfold greeting? at h2
          have hfc : SP.init.feed block = SP.init.consume block := feed_normal [] _
          rw [hfc]
          split at h2
          · simp at h2
          · rename_i hn
            split at h2
            · rename_i l' hl
              split at h2
              · simp only [Option.some.injEq] at h2
                exact ⟨by rw [hl, h2], by simpa using fun h => hn (.inr h)⟩
              · simp at h2
            · simp at h2
  cases h with
  | fresh => simp at hes
  | greeting => simp at hes
  | dropped => simp at hes
  | opened block rest l hs r index more buf out h1 h2 h3 => exact key hes.symm (by simp) h1 h2 h3
  | closed block rest l hs r index b more left out h1 h2 h3 h4 => exact key hes.symm h4 h1 h2 h3

theorem Reads.last {i : Nat} {left : Bytes} {e : Ev} : ∀ {a b : List Ev} {bs : Bytes}, Reads i bs (a ++ e :: b) left →
    stays e = false → b = []
  | [], b, bs, h, hs => by
    cases h with
    | cons _ ts req reply ok es _ h1 h2 h3 => exact h2 hs
  | x :: a, b, bs, h, hs => by
    cases h with
    | cons _ ts req reply ok es _ h1 h2 h3 => exact Reads.last h3 hs

/-- After a refused request or handshake nothing more is served on the connection. -/
theorem refusal_ends {R : Rows V} {name : Bytes} {inp : Nat → List Bytes} {acts : List Act} {s : Srv V}
    {es : List Ev} (hr : (Srv.init inp).run R name acts = some (s, es)) {i : Nat} {e : Ev} {before after : List Ev}
    (he : es = before ++ e :: after) (hi : onConn i e = true) (hs : stays e = false) : events i after = [] := by
  have h := inv_of_run hr i
  have hev : events i es = events i before ++ e :: events i after := by
    rw [he]; simp [events, hi]
  rw [hev] at h
  generalize s.conn i = c at h
  generalize hes : events i before ++ e :: events i after = es' at h
  have key : ∀ {hs' r : List Json} {b : Bool} {more : List Ev} {bs left : Bytes},
      .greeted i hs' r b :: more = events i before ++ e :: events i after → (b = false → more = []) →
      Reads i bs more left → events i after = [] := by
    intro hs' r b more bs left e' hb h1
    cases hbe : events i before with
    | nil =>
      rw [hbe, List.nil_append, List.cons.injEq] at e'
      obtain ⟨rfl, rfl⟩ := e'
      exact hb hs
    | cons x l =>
      rw [hbe, List.cons_append, List.cons.injEq] at e'
      rw [e'.2] at h1
      exact h1.last hs
  cases h with
  | fresh => simp at hes
  | greeting => simp at hes
  | dropped => simp at hes
  | opened _ _ _ _ _ _ _ _ _ _ _ _ h4 => exact key hes.symm (by simp) h4
  | closed _ _ _ _ _ _ _ _ _ _ _ _ _ h4 h5 => exact key hes.symm h4 h5

/-! ### A client that sends encoded requests -/

/-- Requests sent one after the other. -/
def stream (reqs : List (List Json)) : Bytes := (reqs.map fun r => enc (.arr r)).flatten

/-- The request of an event. -/
def request : Ev → List Json
  | .served _ _ req _ _ => req
  | _ => []

theorem feed_enc {r : List Json} (h : (Json.arr r).Fits) (bs : Bytes) :
    SP.init.feed (enc (.arr r) ++ bs) = (⟨.final (.arr (backs r)), []⟩, bs) := by
  have : SP.init.feed (enc (.arr r) ++ bs) = SP.init.consume (enc (.arr r) ++ bs) := feed_normal [] _
  rw [this, consume_enc h]; rfl

theorem reads_stream {i : Nat} {left : Bytes} : ∀ {more : List Ev} {reqs : List (List Json)},
    (∀ r ∈ reqs, (Json.arr r).Fits) → Reads i (stream reqs) more left →
    more.length ≤ reqs.length ∧ more.map request = (reqs.take more.length).map backs ∧
      left = stream (reqs.drop more.length)
  | [], reqs, _, h => by
    cases h; simp
  | e :: more, [], _, h => by
    cases h with
    | cons _ ts req reply ok es _ h1 h2 h3 =>
      rw [show stream [] = [] from rfl, feed_nil] at h1
      simp [SP.init] at h1
  | e :: more, r :: reqs, hf, h => by
    cases h with
    | cons _ ts req reply ok es _ h1 h2 h3 =>
      rw [show stream (r :: reqs) = enc (.arr r) ++ stream reqs from rfl, feed_enc (hf r (by simp))] at h1 h3
      simp only [Mode.final.injEq, Json.arr.injEq] at h1
      obtain ⟨g1, g2, g3⟩ := reads_stream (fun r hr => hf r (List.mem_cons_of_mem _ hr)) h3
      refine ⟨by simpa using g1, ?_, g3⟩
      simp [request, h1, g2]

/-- If a client's bytes after its handshake are encoded requests, however cut into blocks, then what
is served on the connection is these requests, one by one from the first, with nothing skipped,
repeated or made up. -/
theorem client_served {R : Rows V} {name : Bytes} {inp : Nat → List Bytes} {acts : List Act} {s : Srv V}
    {es : List Ev} (hr : (Srv.init inp).run R name acts = some (s, es)) {i : Nat} {block : Bytes} {rest : List Bytes}
    {reqs : List (List Json)} (hi : inp i = block :: rest) (hf : ∀ r ∈ reqs, (Json.arr r).Fits)
    (hs : rest.flatten = stream reqs) :
    events i es = [] ∨ ∃ hs reply ok more, events i es = .greeted i hs reply ok :: more ∧ more.length ≤ reqs.length ∧
      more.map request = (reqs.take more.length).map backs ∧
      ∀ buf, (s.conn i).phase = .opened buf → buf ++ (s.conn i).inp.flatten = stream (reqs.drop more.length) := by
  have h := inv_of_run hr i
  rw [hi] at h
  generalize events i es = es' at h
  generalize s.conn i = c at h
  cases h with
  | fresh => exact .inl rfl
  | greeting => exact .inl rfl
  | dropped => exact .inl rfl
  | opened block' rest' l hs' reply index more buf out h1 h2 h3 h4 h5 h6 =>
    simp only [List.cons.injEq] at h1
    obtain ⟨rfl, rfl⟩ := h1
    rw [hs] at h4
    obtain ⟨g1, g2, g3⟩ := reads_stream hf h4
    refine .inr ⟨_, _, _, _, rfl, g1, g2, ?_⟩
    intro buf' hb
    simp only [Phase.opened.injEq] at hb
    rw [← hb, ← g3]
  | closed block' rest' l hs' reply index ok more left out h1 h2 h3 h4 h5 h6 =>
    simp only [List.cons.injEq] at h1
    obtain ⟨rfl, rfl⟩ := h1
    rw [hs] at h5
    obtain ⟨g1, g2, g3⟩ := reads_stream hf h5
    exact .inr ⟨_, _, _, _, rfl, g1, g2, by simp⟩

/-- And as long as the connection is open, the next request is there to be served. -/
theorem next_served {R : Rows V} {name : Bytes} {inp : Nat → List Bytes} {acts : List Act} {s : Srv V}
    {es : List Ev} (hr : (Srv.init inp).run R name acts = some (s, es)) {i : Nat} {block : Bytes} {rest : List Bytes}
    {served later : List (List Json)} {req : List Json} (hi : inp i = block :: rest)
    (hf : ∀ r ∈ served ++ req :: later, (Json.arr r).Fits) (hs : rest.flatten = stream (served ++ req :: later))
    {buf : Bytes} (ho : (s.conn i).phase = .opened buf) (hn : (events i es).length = served.length + 1) {E : Env}
    {fuel : Nat} {ok : Bool} {reply : List Json} {t : T V} (hd : onego R E fuel s.t (backs req) = .done ok reply t) :
    ∃ s', s.step R name (.serve i E fuel) = some (s', .served i E.ts (backs req) reply ok) ∧ s'.t = t := by
  rcases client_served hr hi hf hs with h | ⟨hs', reply', ok', more, h1, h2, h3, h4⟩
  · rw [h] at hn; simp at hn
  · have hl : more.length = served.length := by rw [h1] at hn; simpa using hn
    have h5 := h4 buf ho
    rw [hl, List.drop_left] at h5
    obtain ⟨r1, r2⟩ := recv_spec (buf :: (s.conn i).inp) SP.init trivial
    rw [List.flatten_cons, h5] at r1
    rw [show stream (req :: later) = enc (.arr req) ++ stream later from rfl, feed_enc (hf req (by simp))] at r1
    cases hc : s.conn i with
    | mk ph l out =>
      rw [hc] at ho r1
      simp only at ho r1
      subst ho
      simp only [Srv.step, hc, r1, hd]
      exact ⟨_, rfl, rfl⟩

/-! ### What else can happen -/

/-- A request that has no specified answer and is not refused ends the server. -/
theorem otherwise_stops {R : Rows V} {E : Env} (hf : ∀ n, (E.fresh n).length = n) {fuel : Nat} {t : T V}
    {m : Bytes → Option V} (h : Holds 256 t m) {req : List Json} (hk : (storedKey req).length ≤ 256)
    (ha : ∀ reply m', ¬ Answer R E.ts m req reply m') (hR : ¬ Refused req) : onego R E fuel t req = .stop := by
  cases ho : onego R E fuel t req with
  | stop => rfl
  | done ok reply t' =>
    cases ok with
    | true =>
      obtain ⟨m', h1, _⟩ := answers hf h hk ho
      exact absurd h1 (ha reply m')
    | false => exact absurd (refused.1 ho).1 hR

/-- Requests of the wrong types are not rejected, they end the server: no command, a command that is
not a number, a key that is not a string. -/
theorem wrong_types_stop {R : Rows V} {E : Env} {fuel : Nat} {t : T V} (seq c k : Json) (s : Bytes) (rest : List Json)
    (n : Int) (hn : n = 2 ∨ n = 4 ∨ n = 8 ∨ n = 10) (hc : Command c n) (hk : ∀ s, k ≠ .str s) :
    onego R E fuel t [] = .stop ∧ onego R E fuel t [seq] = .stop ∧ onego R E fuel t (seq :: .str s :: rest) = .stop ∧
      onego R E fuel t (seq :: c :: k :: rest) = .stop := by
  refine ⟨rfl, rfl, rfl, ?_⟩
  have hk' : asS k = none := by
    cases k with
    | str s => exact absurd rfl (hk s)
    | _ => rfl
  rcases hn with rfl | rfl | rfl | rfl
  · rw [onego_get hc]
    simp [runGet, el, hk', ofOption]
  · rw [onego_scan hc]
    simp only [runScanReq, el, List.getD_cons_succ, List.getD_cons_zero, hk']
    split
    · rename_i h _; simp at h
    · rfl
  · rw [onego_replace hc]
    simp [el, hk']
  · rw [onego_remove hc]
    simp [el, hk']

/-- The reply to a get of a missing key cannot be told from the reply for a row that consists of
the key. -/
theorem missing_looks_found (ts : BitVec 64) (m : Bytes → Option Row.Bag.Row) (seq c : Json) (hc : Command c 2) (k : Bytes)
    (hk : k.length < 65000) (hts : ts.toNat % 2 = 0) :
    Answer bag ts (upd m k none) (seq :: c :: [.str k]) (seq :: .int 3 :: [.str k]) (upd m k none) ∧
    Answer bag ts (upd m k (some (Row.Bag.create1 k ts))) (seq :: c :: [.str k]) (seq :: .int 3 :: [.str k])
      (upd m k (some (Row.Bag.create1 k ts))) := by
  constructor
  · exact .missing seq c k [] hc fun v hv => by simp [Live, upd] at hv
  · refine .get seq c k (Row.Bag.create1 k ts) [] [] [k] hc ⟨by simp [upd], by simp [bag, Row.Bag.create1, hts]⟩ rfl ?_
    have h0 : (Row.Bag.create1 k ts).col 0 = some k := by
      exact (C16.create1_spec k (by omega) ts).2.2.1
    have h1 : (Row.Bag.create1 k ts).ncol = 1 := rfl
    simp [Cols, asked, bag, h0, h1]

/-- The command is cut to 32 bits, columns to 16, and a scan limit to 32, where 0 means all. -/
theorem numbers_cut : Command (.int (2 ^ 32 + 2)) 2 ∧ bag.index 65537 = 1 ∧ int32 (2 ^ 32) = 0 :=
  ⟨⟨_, rfl, by decide⟩, by decide, by decide⟩

/-- The server ends when a handshake's third element is not an object, also when it is only not
received yet. -/
theorem handshake_aborts (index : Int) (name : Bytes) :
    (∃ hs, greeting? [0x93, 1, 14, 5] = some hs ∧ handshake index name hs = none) ∧
    ∃ hs, greeting? [0x93, 1, 14] = some hs ∧ handshake index name hs = none := by
  have h1 : SP.init.consume [0x93, 1, 14, 5] = (⟨.final (.arr [.int 1, .int 14, .int 5]), []⟩, []) := by
    simp [SP.consume, SP.init, run, head, short, act, openArr, deliver, place, Mode.isNormal]
  have h2 : SP.init.consume [0x93, 1, 14] = (⟨.normal, [.arr [.int 1, .int 14] 0]⟩, []) := by
    simp [SP.consume, SP.init, run, head, short, act, openArr, deliver, place, Mode.isNormal]
  constructor
  · refine ⟨[.int 1, .int 14, .int 5], ?_, by simp [handshake, el, isO]⟩
    unfold greeting?
    rw [h1]
    simp [result?, el, isI, asI, cmdHandshake]
  · refine ⟨[.int 1, .int 14, .null], ?_, by simp [handshake, el, isO]⟩
    unfold greeting?
    rw [h2]
    simp [result?, unfinished, el, isI, asI, cmdHandshake]

/-- A client that does not wait for the reply to its handshake may be dropped. -/
theorem pipelined_dropped (hs : List Json) (h : (Json.arr hs).Fits) (b : UInt8) (more : Bytes) :
    greeting? (enc (.arr hs) ++ b :: more) = none := by
  unfold greeting?
  rw [consume_enc h, if_pos (.inr (by simp))]

/-- A huge maximum key length is accepted. -/
theorem huge_maxkeylen (index : Int) (name : Bytes) :
    handshake index name [.int 1, .int 14, .obj [(sMaxkeylen, .uint (2 ^ 63))]] =
      some (true, [.int 1, .int 15, .bool true, .int index, .str name]) := by
  simp [handshake, el, isO, isI, asI, member, cmdHandshake, put, resize, int64]

/-! ### UDP -/

/-- A datagram that holds an encoded request and fits the buffer is answered with the reply, if it
is not refused. -/
theorem udp_answers {R : Rows V} {E : Env} {fuel : Nat} {t t' : T V} {buf : Bytes} {req reply : List Json} {ok : Bool}
    (hf : (Json.arr req).Fits) (hl : (enc (.arr req)).length ≤ buf.length)
    (ho : onego R E fuel t (backs req) = .done ok reply t') :
    ∃ buf', udp R E fuel t buf (enc (.arr req)) = some (buf', if ok then some (enc (.arr reply)) else none, t') := by
  refine ⟨enc (.arr req) ++ buf.drop (enc (.arr req)).length, ?_⟩
  unfold udp
  simp only
  rw [List.take_of_length_le hl, consume_enc hf]
  simp only [Json.back, ho]

/-- The bytes of earlier datagrams stay in the buffer and are parsed again: after a request, any
beginning of it, even an empty datagram, has it executed again. -/
theorem udp_repeats {R : Rows V} {E E' : Env} {fuel fuel' : Nat} {t t' : T V} {buf buf' : Bytes} {req : List Json}
    {r : Option Bytes} (hl : (enc (.arr req)).length ≤ buf.length)
    (h : udp R E fuel t buf (enc (.arr req)) = some (buf', r, t')) (n : Nat) :
    udp R E' fuel' t' buf' ((enc (.arr req)).take n) = udp R E' fuel' t' buf (enc (.arr req)) := by
  have e : buf' = enc (.arr req) ++ buf.drop (enc (.arr req)).length := by
    unfold udp at h
    simp only at h
    rw [List.take_of_length_le hl] at h
    split at h
    · simp at h
    · split at h
      · simp at h
      · simp only [Option.some.injEq, Prod.mk.injEq] at h; exact h.1.symm
    · simp only [Option.some.injEq, Prod.mk.injEq] at h; exact h.1.symm
  generalize enc (.arr req) = d at e hl
  have h1 : ((d.take n).take buf'.length ++ buf'.drop (d.take n).length) = d ++ buf.drop d.length := by
    subst e
    rw [List.take_of_length_le (by simp), List.drop_append_of_le_length (by simp), ← List.append_assoc]
    congr 1
    rw [List.length_take]
    by_cases hn : n ≤ d.length
    · rw [Nat.min_eq_left hn, List.take_append_drop]
    · rw [Nat.min_eq_right (by omega), List.take_of_length_le (by omega), List.drop_length, List.append_nil]
  have h2 : d.take buf.length ++ buf.drop d.length = d ++ buf.drop d.length := by rw [List.take_of_length_le hl]
  unfold udp
  rw [h1, h2]

/-! ### Cases -/

def demoEnv : Env := ⟨8, fun n => List.replicate n 0xAA, []⟩

/-- A handshake, then `[1, 6, "k", 0, "x"]`, `[2, 2, "k"]` and `[3, 99]`, cut into blocks in the middle of requests; and
a second connection that does not begin with a handshake. -/
def demoInp : Nat → List Bytes
  | 0 => [enc (.arr [.int 0, .int 14, .obj [(sMaxkeylen, .int 255)]]), [0x95, 1, 6, 0xA1, 107, 0], [0xA1, 120, 0x93],
      [2, 2, 0xA1, 107, 0x92, 3, 99]]
  | 1 => [enc (.arr [.int 0, .int 2, .str [107]])]
  | _ => []

def demoActs : List Act :=
  [.accept 1, .accept 0, .greet 0 7, .serve 0 demoEnv 0, .serve 0 demoEnv 0, .serve 0 demoEnv 0]

def demoRun : Option (Srv Row.Bag.Row × List Ev) := (Srv.init demoInp).run bag [86] demoActs

/-- The replies are `[0, 15, true, 7, "V"]`, `[1, 7, 1]`, `[2, 3, "x"]` and `[3, -1]`; the second connection gets none. -/
example : demoRun.map (fun r => ((r.1.conn 0).out, (r.1.conn 1).out, get [107] r.1.t)) =
    some ([0x95, 0, 15, 0xC3, 7, 0xA1, 86] ++ [0x93, 1, 7, 1] ++ [0x93, 2, 3, 0xA1, 120] ++ [0x92, 3, 0xFF], [],
      some (some (Row.Bag.create1 [120] 8))) := by
  decide +kernel

example : demoRun.isSome = true ∧ (∀ n, (demoEnv.fresh n).length = n) := ⟨by decide +kernel, by simp [demoEnv]⟩

example : (demoInp 0).tail.flatten =
    stream [[.int 1, .int 6, .str [107], .int 0, .str [120]], [.int 2, .int 2, .str [107]], [.int 3, .int 99]] := by
  decide +kernel

example : ∀ r ∈ [[Json.int 1, .int 6, .str [107], .int 0, .str [120]], [.int 2, .int 2, .str [107]], [.int 3, .int 99]],
    (Json.arr r).Fits := by
  simp [Json.Fits, FitsList]

/-- Requests with an answer: `[1, 4, "a", 2, 0]` on a map with two rows. -/
example (m : Bytes → Option Row.Bag.Row) (L : List (Bytes × Row.Bag.Row)) (h : Listing bag m [97] L)
    (hL : L = [([97], Row.Bag.create1 [1] 2), ([98], Row.Bag.create1 [2] 2)]) :
    Answer bag 8 m [.int 1, .int 4, .str [97], .int 2, .int 0] [.int 1, .int 5, .str [97], .str [1], .str [98], .str [2]] m :=
  .scan _ _ _ _ _ 2 [0] L _ ⟨4, rfl, by decide⟩ rfl (by decide) (by decide) rfl h
    (by
      subst hL
      exact .cons _ _ _ _ _ (.single _ _ rfl (by decide +kernel)) (.cons _ _ _ _ _ (.single _ _ rfl (by decide +kernel)) .nil))

example : Refused [.int 3, .int 99] := ⟨_, _, _, 99, rfl, ⟨99, rfl, by decide⟩, by decide⟩
/-- A put without its value. -/
example : Refused [.int 3, .int 6, .str [107], .int 0] := ⟨_, _, _, 6, rfl, ⟨6, rfl, by decide⟩, by decide⟩

/-- A datagram is executed, then an empty one executes it again: the first time as an insertion, the
second time as an update. -/
example : (udp bag demoEnv 0 Trie.empty (List.replicate 64 0) (enc (.arr [.int 1, .int 6, .str [107], .int 0, .str [120]]))).map
      (fun r => (r.2.1, (udp bag demoEnv 0 r.2.2 r.1 []).map fun r' => r'.2.1)) =
    some (some [0x93, 1, 7, 1], some (some [0x93, 1, 7, 2])) := by
  decide +kernel

end Verif.Props.C35
