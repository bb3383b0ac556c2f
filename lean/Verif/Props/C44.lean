import Verif.Server.Input
import Verif.Server.Log
import Verif.Props.C22
import Verif.Props.C26
import Verif.Props.C35

/-!
# C44: what the server logs for its requests replays to the rows it holds
-/
namespace Verif.Props.C44
open Verif.Key (Bytes)
open Verif.Msgpack
open Verif.Server
open Verif.Log (bagRows parseChangeset parseChanges Upd Cell Rec)
open Verif.Trie (T get)
open C35 (Holds upd)

/-! ### The bytes of a put -/

/-- The columns of a put are integers. -/
def IntCols : List Json → Prop
  | c :: _ :: l => c.num?.isSome = true ∧ IntCols l
  | _ => True

/-- The bytes are a request in the message format, in which the sequence number and the command take at
most 32 bits. -/
inductive Plain : List Json → Bytes → Prop where
  | mk (seq c : Json) (rest : List Json) (hd a b bs : Bytes) : Header (.arr (rest.length + 2)) hd → rest.length + 2 < 2 ^ 31 →
      Wire seq a → Narrow a → Wire c b → Narrow b → WireList rest bs → Plain (seq :: c :: rest) (hd ++ (a ++ (b ++ bs)))

theorem header_ne {t : Tok} {hd : Bytes} (h : Header t hd) : hd ≠ [] := by cases h <;> simp

theorem wire_ne {j : Json} {pre : Bytes} (h : Wire j pre) : pre ≠ [] := by
  cases h with
  | prim _ _ h => exact header_ne h
  | str _ _ h => intro e; exact header_ne h (List.append_eq_nil_iff.1 e).1
  | arr _ _ _ h => intro e; exact header_ne h (List.append_eq_nil_iff.1 e).1
  | obj _ _ _ _ h => intro e; exact header_ne h (List.append_eq_nil_iff.1 e).1

theorem asU_num {c : Json} (h : c.num?.isSome = true) : ∃ x i, c.num? = some x ∧ asU c = some i ∧ i % 4294967296 = (x % 2 ^ 32).toNat := by
  cases c with
  | int x => exact ⟨x, _, rfl, rfl, by omega⟩
  | uint x => exact ⟨x, x, rfl, rfl, by omega⟩
  | _ => cases h

/-- The reader of log records understands the changes as the server did. -/
theorem parse_changes : ∀ (n : Nat) (args : List Json) (bs : Bytes), WireList args bs → bs.length ≤ n → IntCols args →
    ∀ ups, changes args = some ups → parseChanges n bs = some ups
  | n, [], bs, h, _, _, ups, hc => by
    cases h
    cases hc
    cases n <;> rfl
  | n, [_], bs, h, _, _, ups, hc => by cases hc
  | n, c :: v :: l, bs, h, hn, hi, ups, hc => by
    cases h with
    | cons _ _ cb _ hcb h =>
    cases h with
    | cons _ _ vb tl hvb h =>
    obtain ⟨x, i, h1, h2, h3⟩ := asU_num hi.1
    unfold changes at hc
    rw [h2] at hc
    cases hs : asS v with
    | none => rw [hs] at hc; cases hc
    | some s =>
    rw [hs] at hc
    cases hcl : changes l with
    | none => rw [hcl] at hc; cases hc
    | some ups' =>
    rw [hcl] at hc
    dsimp only at hc
    split at hc
    · cases hc
    cases hc
    have hv : v = .str s := asS_some hs
    subst hv
    have hlen : 0 < cb.length := List.length_pos_iff.2 (wire_ne hcb)
    rw [List.length_append, List.length_append] at hn
    cases n with
    | zero => omega
    | succ n =>
      have hne : cb ++ (vb ++ tl) ≠ [] := by simp [wire_ne hcb]
      have hp : parseChanges (n + 1) (cb ++ (vb ++ tl)) = (readInt (cb ++ (vb ++ tl))).bind fun (i, r) => (readStr r).bind fun (v, r') =>
          (parseChanges n r').map fun l => ((i % 2 ^ 32).toNat, v) :: l := by
        cases hx : cb ++ (vb ++ tl) with
        | nil => exact absurd hx hne
        | cons => rfl
      rw [hp, readInt_wire hcb h1, Option.bind_some]
      dsimp only
      rw [readStr_wire hvb, Option.bind_some]
      dsimp only
      rw [parse_changes n l tl h (by omega) hi.2 ups' hcl, h3]
      rfl

theorem str_narrow {s pre : Bytes} (h : Wire (.str s) pre) : Narrow pre := by
  cases h with
  | prim _ _ h => cases h
  | str hd s h hs =>
    generalize s.length = m at h
    cases h
    case fixstr h =>
      show _ ∧ _ ∧ _ ∧ _ ∧ _
      rw [toNat_ofNat (by omega)]
      omega
    all_goals exact show _ ∧ _ ∧ _ ∧ _ ∧ _ from by decide

/-- The value logged for a put is read back as the changes that the server made. -/
theorem put_read_back {req : List Json} {str : Bytes} (h : Plain req str) {k : Bytes} (hk : asS (el req 2) = some k)
    (hi : IntCols (req.drop 3)) {ups : List (Nat × Bytes)} (hu : changes (req.drop 3) = some ups) :
    ∃ val, putValue req str = some val ∧ parseChangeset val = some ups := by
  obtain ⟨seq, c, rest, hd, a, b, bs, h1, _, h3, h4, h5, h6, h7⟩ := h
  cases rest with
  | nil => cases hk
  | cons kj args =>
  have hkj : kj = .str k := asS_some hk
  subst hkj
  cases h7 with
  | cons _ _ kb tl h8 h9 =>
  refine ⟨tl, ?_, parse_changes _ _ _ h9 (Nat.le_refl _) hi ups hu⟩
  unfold putValue
  rw [if_neg (by simp [header_ne h1]), skipArraySize_wire h1, Option.bind_some]
  show (skipPrimitive _).bind (fun r => (skipPrimitive r).bind fun r => (skipPrimitive r).bind fun r => some r) = _
  rw [skip_wire h3 h4, Option.bind_some, skip_wire h5 h6, Option.bind_some, skip_wire h8 (str_narrow h8), Option.bind_some]

/-! ### One request -/

/-- A put arrives in bytes that can be logged. -/
def Loggable (e : Job) : Prop :=
  C35.Command (el e.req 1) 6 → Plain e.req e.str ∧ IntCols (e.req.drop 3)

/-- The updates of a key among what was logged. -/
def updates (k : Bytes) (qs : List Log.Req) : List Upd := qs.filterMap fun q => C26.updOf k q.update

theorem updates_append (k : Bytes) (a b : List Log.Req) : updates k (a ++ b) = updates k a ++ updates k b := List.filterMap_append ..

/-- The rows of a key have positive even timestamps. -/
def Even (row : Option Row.Bag.Row) : Prop := ∀ v, row = some v → v.ts.toNat % 2 = 0 ∧ 0 < v.ts.toNat

theorem even_ts {n : Nat} {v : Row.Bag.Row} (h : bagRows.ts v = n) (hq : n % 2 = 0 ∧ 0 < n) : Even (some v) :=
  fun w hw => by cases hw; rw [show v.ts.toNat = n from h]; exact hq

theorem ofNat_toNat64 (x : BitVec 64) : BitVec.ofNat 64 x.toNat = x := by simp

/-- What a put does to a key is what its log record says. -/
theorem put_happens {row : Option Row.Bag.Row} {args : List Json} {E : Env} {i : Bool} {v : Row.Bag.Row}
    (hu : applyPut bag row args E.ts = some (i, v)) {ups : List (Nat × Bytes)} (hc : changes args = some ups) {val : Bytes}
    (hv : parseChangeset val = some ups) (he : Even row) (ht : E.ts.toNat % 2 = 0 ∧ 0 < E.ts.toNat) (ep : Nat) (k : Bytes) :
    ∃ u, C26.updOf k (Log.Req.update ⟨.put, ⟨ep, E.ts.toNat, prevPut row⟩, k, val⟩) = some u ∧ C23.happen bagRows row u = some v ∧ Even (some v) := by
  have hlt := E.ts.isLt
  cases row with
  | none =>
    refine ⟨⟨.put, E.ts.toNat, 0, val⟩, by simp [Log.Req.update, prevPut, C26.updOf], ?_⟩
    have h1 : Row.Bag.create ups E.ts = some v := by
      simp only [applyPut, bag, hc, Option.bind_some, Option.map_eq_some_iff, Prod.mk.injEq] at hu
      obtain ⟨w, a, _, rfl⟩ := hu
      exact a
    have h2 : bagRows.create ups E.ts.toNat = some v := by
      show Row.Bag.create ups (BitVec.ofNat 64 E.ts.toNat) = _
      rw [ofNat_toNat64, h1]
    refine ⟨?_, even_ts (C23.bag_lawful.create _ _ _ hlt h2) ht⟩
    show (parseChangeset val).bind _ = _
    rw [hv]
    exact h2
  | some w =>
    have hw := he w rfl
    have hm : bag.marker w = false := by
      show (w.ts.toNat % 2 == 1) = false
      rw [hw.1]; rfl
    have hp : prevPut (some w) = w.ts.toNat := if_neg (by rw [hm]; exact Bool.false_ne_true)
    refine ⟨⟨.modify, E.ts.toNat, w.ts.toNat, val⟩, ?_, ?_⟩
    · unfold Log.Req.update
      rw [hp, if_pos ⟨rfl, Nat.pos_iff_ne_zero.1 hw.2, hw.1⟩]
      simp [C26.updOf]
    have h1 : w.update ups E.ts = some v := by
      simp only [applyPut, hm, Bool.false_eq_true, if_false, Option.map_eq_some_iff, Prod.mk.injEq] at hu
      obtain ⟨x, a, _, rfl⟩ := hu
      change (changes args).bind _ = _ at a
      rw [hc] at a
      exact a
    have h2 : bagRows.update w ups E.ts.toNat = some v := by
      show w.update ups (BitVec.ofNat 64 E.ts.toNat) = _
      rw [ofNat_toNat64, h1]
    refine ⟨?_, even_ts (C23.bag_lawful.update _ _ _ _ hlt h2) ht⟩
    show (if w.ts.toNat = w.ts.toNat then (parseChangeset val).bind _ else none) = _
    rw [if_pos rfl, hv]
    exact h2

/-- A put that was served had changes to make. -/
theorem put_changes {row : Option Row.Bag.Row} {args : List Json} {ts : BitVec 64} {x : Bool × Row.Bag.Row}
    (hu : applyPut bag row args ts = some x) : ∃ ups, changes args = some ups := by
  cases hc : changes args with
  | some ups => exact ⟨ups, rfl⟩
  | none =>
    exfalso
    unfold applyPut at hu
    simp only [bag, hc, Option.bind_none, Option.map_none] at hu
    split at hu
    · cases hu
    · split at hu <;> cases hu

theorem serve_spec {L fuel : Nat} {t t' : T Row.Bag.Row} {m : Bytes → Option Row.Bag.Row} (h : Holds L t m) {e : Job}
    (hL : (C35.storedKey e.req).length ≤ L) (hlog : Loggable e) {q : Option Log.Req} (hs : serve fuel t e = some (t', q)) :
    ∃ m', Holds L t' m' ∧ (q = none → m' = m) ∧ ∀ r, q = some r → r.qt.ts < 2 ^ 64 ∧ (∀ k, k ≠ r.key → m' k = m k) ∧
      (r.command = .remove → m' r.key = none) ∧
      (r.command ≠ .remove → Even (m r.key) → r.qt.ts % 2 = 0 ∧ 0 < r.qt.ts →
        ∃ u v, C26.updOf r.key r.update = some u ∧ C23.happen bagRows (m r.key) u = some v ∧ m' r.key = some v ∧ Even (some v)) := by
  obtain ⟨E, ep, req, str⟩ := e
  dsimp only at hL hlog
  unfold serve at hs
  dsimp only at hs
  cases hc : asI (el req 1) with
  | none =>
    exfalso
    unfold logOf at hs
    rw [hc] at hs
    split at hs
    · rename_i hx; cases hx
    · cases hs
  | some c =>
  by_cases hp : int32 c = cmdPut ∧ 3 < req.length ∧ req.length % 2 = 1
  · have ho : onego bag E fuel t req = match asS (el req 2) with
      | none => .stop
      | some k => ofOption (fun (j, t') => finish (int32 c) (resize (put req 2 j) 3) t')
          (runUpdate t k fun old => applyPut bag old (req.drop 3) E.ts) := by
      unfold onego
      rw [hc]
      dsimp only
      rw [if_neg (by rw [hp.1]; decide), if_neg (by rw [hp.1]; decide), if_pos hp]
      rfl
    have hl : logOf ep E t req str = (asS (el req 2)).bind fun k => (get k t).bind fun old => (putValue req str).map fun v =>
        some ⟨.put, ⟨ep, E.ts.toNat, prevPut old⟩, k, v⟩ := by
      unfold logOf
      rw [hc]
      dsimp only
      rw [if_pos hp]
    rw [ho, hl] at hs
    cases hk : asS (el req 2) with
    | none => rw [hk] at hs; cases hs
    | some k =>
    rw [hk] at hs
    have hkL : k.length ≤ L := by
      have : C35.storedKey req = k := by
        unfold C35.storedKey
        rw [hc, hk]
        exact if_pos (.inl hp.1)
      rw [this] at hL
      exact hL
    cases hu : applyPut bag (m k) (req.drop 3) E.ts with
    | none =>
      have := (C35.runUpdate_spec h hkL fun old => applyPut bag old (req.drop 3) E.ts).1 hu
      simp only [this] at hs
      cases hs
    | some x =>
    obtain ⟨i, v⟩ := x
    obtain ⟨t1, e1, e2⟩ := (C35.runUpdate_spec h hkL fun old => applyPut bag old (req.drop 3) E.ts).2 i v hu
    obtain ⟨ups, hch⟩ := put_changes hu
    obtain ⟨hpl, hic⟩ := hlog ⟨c, hc, hp.1⟩
    obtain ⟨val, h1, h2⟩ := put_read_back hpl hk hic hch
    simp only [e1, Option.bind_some, h.2 k, h1] at hs
    cases hs
    refine ⟨upd m k (some v), e2, (fun hx => by cases hx), ?_⟩
    intro r hr
    cases hr
    refine ⟨E.ts.isLt, fun k' hk' => if_neg hk', fun hx => (by cases hx), fun _ he ht => ?_⟩
    obtain ⟨u, a1, a2, a3⟩ := put_happens hu hch h2 he ht ep k
    exact ⟨u, v, a1, a2, if_pos rfl, a3⟩
  by_cases hr : int32 c = cmdReplace
  · have ho : onego bag E fuel t req = match asS (el req 2), asS (el req 3) with
      | some k, some s => ofOption (fun (j, t') => finish (int32 c) (resize (put req 2 j) 3) t')
          (runUpdate t k fun old => applyReplace bag old s E.ts)
      | _, _ => .stop := by
      unfold onego
      rw [hc]
      dsimp only
      rw [if_neg (by rw [hr]; decide), if_neg (by rw [hr]; decide), if_neg hp, if_pos hr]
      rfl
    have hl : logOf ep E t req str = (asS (el req 2)).bind fun k => (asS (el req 3)).bind fun v => (get k t).map fun old =>
        some ⟨.replace, ⟨ep, E.ts.toNat, prevOther old⟩, k, v⟩ := by
      unfold logOf
      rw [hc]
      dsimp only
      rw [if_neg hp, if_pos hr]
    rw [ho, hl] at hs
    cases hk : asS (el req 2) with
    | none => rw [hk] at hs; cases hs
    | some k =>
    cases hv : asS (el req 3) with
    | none => rw [hk, hv] at hs; cases hs
    | some s =>
    rw [hk, hv] at hs
    have hkL : k.length ≤ L := by
      have : C35.storedKey req = k := by
        unfold C35.storedKey
        rw [hc, hk]
        exact if_pos (.inr hr)
      rw [this] at hL
      exact hL
    cases hu : applyReplace bag (m k) s E.ts with
    | none =>
      have := (C35.runUpdate_spec h hkL fun old => applyReplace bag old s E.ts).1 hu
      simp only [this] at hs
      cases hs
    | some x =>
    obtain ⟨i, v⟩ := x
    obtain ⟨t1, e1, e2⟩ := (C35.runUpdate_spec h hkL fun old => applyReplace bag old s E.ts).2 i v hu
    simp only [e1, Option.bind_some, h.2 k, Option.map_some] at hs
    cases hs
    refine ⟨upd m k (some v), e2, (fun hx => by cases hx), ?_⟩
    intro r hr
    cases hr
    refine ⟨E.ts.isLt, fun k' hk' => if_neg hk', fun hx => (by cases hx), fun _ he ht => ?_⟩
    have hv' : v = Row.Bag.create1 s E.ts := by
      simp only [applyReplace, bag, Option.map_some, Option.some.injEq, Prod.mk.injEq] at hu
      exact hu.2.symm
    refine ⟨⟨.replace, E.ts.toNat, 0, s⟩, v, by simp [Log.Req.update, C26.updOf], ?_, if_pos rfl, ?_⟩
    · show some (Row.Bag.create1 s (BitVec.ofNat 64 E.ts.toNat)) = _
      rw [ofNat_toNat64, hv']
    · refine even_ts ?_ ht
      rw [hv']
      have := C23.bag_lawful.create1 s E.ts.toNat E.ts.isLt
      rw [← this]
      show _ = bagRows.ts (Row.Bag.create1 s (BitVec.ofNat 64 E.ts.toNat))
      rw [ofNat_toNat64]
  by_cases hm : int32 c = cmdRemove
  · have ho : onego bag E fuel t req = match asS (el req 2) with
      | none => .stop
      | some k => ofOption (fun r => finish (int32 c) (resize (put req 2 (.bool r.1)) 3) r.2.1) (Trie.remove k t) := by
      unfold onego
      rw [hc]
      dsimp only
      rw [if_neg (by rw [hm]; decide), if_neg (by rw [hm]; decide), if_neg hp, if_neg hr, if_pos hm]
      rfl
    have hl : logOf ep E t req str = (asS (el req 2)).bind fun k => (get k t).bind fun old => (Trie.remove k t).map fun r =>
        if r.1 then some ⟨.remove, ⟨ep, E.ts.toNat, prevOther old⟩, k, []⟩ else none := by
      unfold logOf
      rw [hc]
      dsimp only
      rw [if_neg hp, if_neg hr, if_pos hm]
    rw [ho, hl] at hs
    cases hk : asS (el req 2) with
    | none => rw [hk] at hs; cases hs
    | some k =>
    rw [hk] at hs
    obtain ⟨t1, gc, e1, e2⟩ := C35.remove_spec h k
    simp only [e1, Option.bind_some, h.2 k] at hs
    cases hs
    refine ⟨upd m k none, e2, ?_, ?_⟩
    · intro hx
      funext k'
      by_cases hk' : k' = k
      · subst hk'
        show (if k' = k' then none else _) = _
        rw [if_pos rfl]
        cases hmk : m k' with
        | none => rfl
        | some w => rw [hmk] at hx; cases hx
      · exact if_neg hk'
    · intro r hr
      cases hmk : (m k).isSome with
      | false => rw [hmk] at hr; cases hr
      | true =>
        rw [hmk] at hr
        cases hr
        exact ⟨E.ts.isLt, fun k' hk' => if_neg hk', fun _ => if_pos rfl, fun hx => absurd rfl hx⟩
  · -- nothing else changes the table
    have hl : logOf ep E t req str = some none := by
      unfold logOf
      rw [hc]
      dsimp only
      rw [if_neg hp, if_neg hr, if_neg hm]
    have ho : ∀ ok rep t1, onego bag E fuel t req = .done ok rep t1 → t1 = t := by
      intro ok rep t1 hd
      unfold onego at hd
      rw [hc] at hd
      dsimp only at hd
      have hof : ∀ x : Option (List Json), ofOption (fun r => finish (int32 c) r t) x = .done ok rep t1 → t1 = t := by
        intro x hx
        cases x with
        | none => cases hx
        | some r => cases hx; rfl
      split at hd
      · cases hd; rfl
      split at hd
      · exact hof _ hd
      split at hd
      · exact hof _ hd
      · cases hd; rfl
    rw [hl] at hs
    split at hs
    · rename_i a1 a2
      cases a2
      cases hs
      refine ⟨m, by rw [ho _ _ _ a1]; exact h, fun _ => rfl, fun r hr => (by cases hr)⟩
    · cases hs

/-! ### All requests -/

/-- The timestamps of a key, as C15 has them: even, positive and increasing. -/
structure Stamped (k : Bytes) (qs : List Log.Req) : Prop where
  even : ∀ q ∈ qs, q.key = k → q.qt.ts % 2 = 0 ∧ 0 < q.qt.ts
  increasing : qs.Pairwise fun a b => a.key = k → b.key = k → a.qt.ts < b.qt.ts

/-- The key was not removed. -/
def Kept (k : Bytes) (qs : List Log.Req) : Prop := ∀ q ∈ qs, q.key = k → q.command ≠ .remove

theorem updates_cons (k : Bytes) (q : Log.Req) (qs : List Log.Req) :
    updates k (q :: qs) = (C26.updOf k q.update).toList ++ updates k qs := by
  unfold updates
  rw [List.filterMap_cons]
  cases C26.updOf k q.update <;> rfl

theorem serveAll_spec {L fuel : Nat} {k : Bytes} : ∀ (es : List Job) {t t' : T Row.Bag.Row} {m : Bytes → Option Row.Bag.Row} (_ : Holds L t m)
    (_ : ∀ e ∈ es, (C35.storedKey e.req).length ≤ L) (_ : ∀ e ∈ es, Loggable e) {qs : List Log.Req} (_ : serveAll fuel t es = some (t', qs))
    (_ : Even (m k)) (_ : Kept k qs) (_ : ∀ q ∈ qs, q.key = k → q.qt.ts % 2 = 0 ∧ 0 < q.qt.ts),
    (∀ q ∈ qs, q.qt.ts < 2 ^ 64) ∧ ∃ m', Holds L t' m' ∧ C23.history bagRows (m k) (updates k qs) = some (m' k)
  | [], t, t', m, h, _, _, qs, hs, _, _, _ => by
    cases hs
    exact ⟨fun q hq => (by cases hq), m, h, rfl⟩
  | e :: es, t, t', m, h, hL, hlog, qs, hs, he, hk, ht => by
    unfold serveAll at hs
    obtain ⟨⟨t1, q⟩, h1, h2⟩ := Option.bind_eq_some_iff.1 hs
    obtain ⟨⟨t2, qs'⟩, h3, h4⟩ := Option.map_eq_some_iff.1 h2
    cases h4
    obtain ⟨m1, g1, g2, g3⟩ := serve_spec h (hL e (by simp)) (hlog e (by simp)) h1
    have hk' : Kept k qs' := fun r hr => hk r (List.mem_append_right _ hr)
    have ht' : ∀ q ∈ qs', q.key = k → q.qt.ts % 2 = 0 ∧ 0 < q.qt.ts := fun r hr => ht r (List.mem_append_right _ hr)
    have hL' : ∀ e ∈ es, (C35.storedKey e.req).length ≤ L := fun e he => hL e (List.mem_cons_of_mem _ he)
    have hlog' : ∀ e ∈ es, Loggable e := fun e he => hlog e (List.mem_cons_of_mem _ he)
    cases q with
    | none =>
      cases g2 rfl
      exact serveAll_spec es g1 hL' hlog' h3 he hk' ht'
    | some r =>
      obtain ⟨a0, a1, _, a2⟩ := g3 r rfl
      have hmem : r ∈ (some r).toList ++ qs' := by simp
      by_cases hrk : r.key = k
      · subst hrk
        obtain ⟨u, v, b1, b2, b3, b4⟩ := a2 (hk r hmem rfl) he (ht r hmem rfl)
        obtain ⟨c0, m2, c1, c2⟩ := serveAll_spec es g1 hL' hlog' h3 (by rw [b3]; exact b4) hk' ht'
        refine ⟨fun x hx => ?_, m2, c1, ?_⟩
        · rcases List.mem_cons.1 hx with rfl | hx
          · exact a0
          · exact c0 x hx
        · show C23.history bagRows _ (updates _ (r :: qs')) = _
          rw [updates_cons, b1]
          show (C23.happen bagRows (m r.key) u).bind _ = _
          rw [b2, Option.bind_some, ← b3]
          exact c2
      · obtain ⟨c0, m2, c1, c2⟩ := serveAll_spec es g1 hL' hlog' h3 (by rw [a1 k (Ne.symm hrk)]; exact he) hk' ht'
        refine ⟨fun x hx => ?_, m2, c1, ?_⟩
        · rcases List.mem_cons.1 hx with rfl | hx
          · exact a0
          · exact c0 x hx
        · show C23.history bagRows _ (updates _ (r :: qs')) = _
          rw [updates_cons, C26.updOf_key hrk, ← a1 k (Ne.symm hrk)]
          exact c2

theorem holds_empty (L : Nat) : Holds L (Trie.empty : T Row.Bag.Row) fun _ => none :=
  ⟨⟨[], by simp, [], rfl⟩, fun k => (Trie.empty_repr (V := Row.Bag.Row)).2 k⟩

theorem keys_bounded (es : List Job) : ∃ L, ∀ e ∈ es, (C35.storedKey e.req).length ≤ L := by
  induction es with
  | nil => exact ⟨0, fun e he => (by cases he)⟩
  | cons e es ih =>
    obtain ⟨L, h⟩ := ih
    refine ⟨max L (C35.storedKey e.req).length, fun x hx => ?_⟩
    rcases List.mem_cons.1 hx with rfl | hx
    · omega
    · have := h x hx; omega

theorem update_ts {k : Bytes} {q : Log.Req} {u : Upd} (h : C26.updOf k q.update = some u) :
    q.key = k ∧ u.ts = q.qt.ts ∧ (u.cmd = .modify → u.prev % 2 = 0) := by
  unfold Log.Req.update at h
  split at h
  · rename_i hc
    simp only [C26.updOf] at h
    split at h
    · cases h; exact ⟨‹_›, rfl, fun _ => hc.2.2⟩
    · cases h
  · simp only [C26.updOf] at h
    split at h
    · cases h
      refine ⟨‹_›, rfl, fun hx => ?_⟩
      cases hq : q.command <;> rw [hq] at hx <;> cases hx
    · cases h

theorem stamped_logged {k : Bytes} {qs : List Log.Req} (h : Stamped k qs) (hb : ∀ q ∈ qs, q.qt.ts < 2 ^ 64) : C23.Logged (updates k qs) := by
  refine ⟨?_, ?_, ?_⟩
  · refine List.pairwise_filterMap.2 (h.increasing.imp ?_)
    intro a b hab u hu u' hu'
    obtain ⟨x1, x2, _⟩ := update_ts hu
    obtain ⟨y1, y2, _⟩ := update_ts hu'
    rw [x2, y2]
    exact hab x1 y1
  · intro u hu
    obtain ⟨q, hq, e⟩ := List.mem_filterMap.1 hu
    obtain ⟨x1, x2, _⟩ := update_ts e
    rw [x2]
    exact ⟨(h.even q hq x1).1, hb q hq⟩
  · intro u hu hm
    obtain ⟨q, hq, e⟩ := List.mem_filterMap.1 hu
    exact (update_ts e).2.2 hm

/-! ### The property -/

/-- The table that requests lead to, and what was logged for them.  For every key that was not removed, the log
records, taken in order, describe the history of its row. -/
theorem log_is_history {fuel : Nat} {es : List Job} {t : T Row.Bag.Row} {qs : List Log.Req} (hs : serveAll fuel Trie.empty es = some (t, qs))
    (hlog : ∀ e ∈ es, Loggable e) {k : Bytes} (hst : Stamped k qs) (hk : Kept k qs) :
    C23.Logged (updates k qs) ∧ ∃ row, get k t = some row ∧ C23.history bagRows none (updates k qs) = some row := by
  obtain ⟨L, hL⟩ := keys_bounded es
  obtain ⟨h1, m, h2, h3⟩ := serveAll_spec (k := k) es (holds_empty L) hL hlog hs (fun v hv => by cases hv) hk hst.even
  exact ⟨stamped_logged hst h1, m k, h2.2 k, h3⟩

/-- Replayed in any order, the records lead to the row that the table holds, with nothing pending. -/
theorem log_rebuilds_row {fuel : Nat} {es : List Job} {t : T Row.Bag.Row} {qs : List Log.Req} (hs : serveAll fuel Trie.empty es = some (t, qs))
    (hlog : ∀ e ∈ es, Loggable e) {k : Bytes} (hst : Stamped k qs) (hk : Kept k qs) :
    ∃ row, get k t = some row ∧ ∀ p : List Upd, p.Perm (updates k qs) → Cell.replay bagRows ⟨[], none⟩ p = some ⟨[], row⟩ := by
  obtain ⟨h1, row, h2, h3⟩ := log_is_history hs hlog hst hk
  exact ⟨row, h2, fun p hp => C23.order_independent C23.bag_lawful none _ h1 (fun v hv => by cases hv) h3 p hp⟩

/-- The same from the bytes of the logs: `ws` are the logs that the records were handed to, each in any state its
threads can bring it to. -/
theorem log_files_rebuild_row {fuel : Nat} {es : List Job} {t : T Row.Bag.Row} {qs : List Log.Req}
    (hs : serveAll fuel Trie.empty es = some (t, qs)) (hlog : ∀ e ∈ es, Loggable e) {k : Bytes} (hst : Stamped k qs) (hk : Kept k qs)
    (ws : List C22.World)
    (hws : ∀ w ∈ ws, ∃ n junk junk' as, 32 ≤ n ∧ junk.length = n ∧ junk'.length = n ∧ (∀ a ∈ as, a.Ok) ∧
      C22.runs (C22.fresh n junk junk') as = some w)
    (hq : ((ws.flatMap C22.World.recs).filterMap (C26.updOf k)).Perm (updates k qs)) :
    ∃ row, get k t = some row ∧
      Cell.replay bagRows ⟨[], none⟩ ((ws.flatMap fun w => (C21.read w.bytes).filterMap id).filterMap (C26.updOf k)) = some ⟨[], row⟩ := by
  obtain ⟨row, h1, h2⟩ := log_rebuilds_row hs hlog hst hk
  refine ⟨row, h1, h2 _ ?_⟩
  have : (ws.flatMap fun w => (C21.read w.bytes).filterMap id) = ws.flatMap C22.World.recs := by
    clear hq
    induction ws with
    | nil => rfl
    | cons w ws ih =>
      rw [List.flatMap_cons, List.flatMap_cons, ih fun w hw => hws w (List.mem_cons_of_mem _ hw)]
      obtain ⟨n, junk, junk', as, a1, a2, a3, a4, a5⟩ := hws w (by simp)
      rw [C22.reads_back a1 a2 a3 as a4 a5]
      simp
  rw [this]
  exact hq

/-- The requests up to any point in the log. -/
theorem serve_prefix {fuel : Nat} : ∀ (es : List Job) (t t' : T Row.Bag.Row) (qs : List Log.Req), serveAll fuel t es = some (t', qs) →
    ∀ j ≤ qs.length, ∃ m ≤ es.length, ∃ t1, serveAll fuel t (es.take m) = some (t1, qs.take j)
  | [], t, t', qs, hs, j, hj => by
    cases hs
    exact ⟨0, Nat.le_refl _, t, by simp [serveAll]⟩
  | e :: es, t, t', qs, hs, 0, _ => ⟨0, Nat.zero_le _, t, by simp [serveAll]⟩
  | e :: es, t, t', qs, hs, j + 1, hj => by
    unfold serveAll at hs
    obtain ⟨⟨t1, q⟩, h1, h2⟩ := Option.bind_eq_some_iff.1 hs
    obtain ⟨⟨t2, qs'⟩, h3, h4⟩ := Option.map_eq_some_iff.1 h2
    cases h4
    have step : ∀ j', j' ≤ qs'.length → (q.toList ++ qs').take (j + 1) = q.toList ++ qs'.take j' →
        ∃ m ≤ (e :: es).length, ∃ t1, serveAll fuel t ((e :: es).take m) = some (t1, (q.toList ++ qs').take (j + 1)) := by
      intro j' hj' hx
      obtain ⟨m, hm, t3, h5⟩ := serve_prefix es t1 t' qs' h3 j' hj'
      refine ⟨m + 1, by simpa using hm, t3, ?_⟩
      rw [List.take_succ_cons, hx]
      unfold serveAll
      rw [h1, Option.bind_some]
      dsimp only
      rw [h5]
      rfl
    cases q with
    | none => exact step (j + 1) (by simpa using hj) rfl
    | some r => exact step j (by simpa using hj) rfl

/-- Recovery from a checkpoint and the logs, after a crash: there is a number of requests such that for every key that was
not removed, the row recovered is the one the server held after that many requests.  Those requests include all of
the checkpoint's epochs.  The conditions on the logs and the checkpoint are those of `C26.recovers_prefix`; the checkpoint
holds rows that the server held when the scan read them. -/
theorem recovers_served {n : Nat} {s : Log.Sys} (c : C26.Ckp Log.Ok n s) (hz : c.AllFlushed) (hn : ∀ z ∈ s.hist, z.log < n) (k : Nat → Nat)
    (hkd : ∀ i < n, (s.logs i).disk ≤ k i) (hne : ∀ i < n, (s.logs i).recs.take (k i) ≠ [])
    (hfirst : Log.maxFirst ((C25.left s n k).map Log.info) < c.a.ge) (hmax : c.b.ge < Log.replayMax c.b.ge (C25.left s n k))
    {fuel : Nat} {es : List Job} {t : T Row.Bag.Row} (hs : serveAll fuel Trie.empty es = some (t, s.hist.map (·.q)))
    (hlog : ∀ e ∈ es, Loggable e) :
    ∃ m ≤ es.length, ∃ t1 j, serveAll fuel Trie.empty (es.take m) = some (t1, (s.hist.take j).map (·.q)) ∧
      (∀ x ∈ s.hist.drop j, c.b.ge < x.q.qt.epoch) ∧
      ∀ κ ≠ [], Kept κ (s.hist.map (·.q)) → Stamped κ (s.hist.map (·.q)) →
        ∀ i t0, serveAll fuel Trie.empty (es.take i) = some (t0, (c.scan κ).hist.map (·.q)) → ∀ ckpt, get κ t0 = some ckpt →
        ∀ p, C26.Merged s n k c.a.ge c.b.ge p →
          ∃ row, get κ t1 = some row ∧ Cell.replay bagRows ⟨[], ckpt⟩ (p.filterMap (C26.updOf κ)) = some ⟨[], row⟩ := by
  obtain ⟨j, hj, _, h2, h3⟩ := C26.recovers_prefix c hz hn k hkd hne hfirst hmax
  obtain ⟨m, hm, t1, h4⟩ := serve_prefix es _ _ _ hs j (by simpa using hj)
  rw [← List.map_take] at h4
  refine ⟨m, hm, t1, j, h4, h2, ?_⟩
  intro κ hκ hkept hst i t0 h5 ckpt hck p hp
  have hupd : ∀ l : List Log.Entry, C26.upds κ l = updates κ (l.map (·.q)) := by
    intro l
    unfold C26.upds updates
    rw [List.filterMap_map]
    rfl
  obtain ⟨a1, row0, _, a2⟩ := log_is_history hs hlog hst hkept
  have sub : ∀ l : List Log.Entry, l.Sublist s.hist → Stamped κ (l.map (·.q)) ∧ Kept κ (l.map (·.q)) := by
    intro l hl
    have hl' := hl.map (·.q)
    exact ⟨⟨fun q hq => hst.even q (hl'.subset hq), hst.increasing.sublist hl'⟩, fun q hq => hkept q (hl'.subset hq)⟩
  have hscan : (c.scan κ).hist.Sublist s.hist := by
    have htim : ∀ s a, Log.Ok s a → Log.Timely s a := fun _ _ h => h.timely
    have hst : Log.Steps Log.Timely (c.scan κ) s :=
      (((c.ended κ).trans c.later).trans ((c.looked 0).trans (c.crash 0))).imp htim
    obtain ⟨_, l, hh, _⟩ := hst.grows
    rw [hh]
    exact List.sublist_append_left ..
  have hsubset : ∀ i, ∀ e ∈ es.take i, Loggable e := fun i e he => hlog e (List.mem_of_mem_take he)
  obtain ⟨_, row1, b1, b2⟩ := log_is_history h5 (hsubset i) (sub _ hscan).1 (sub _ hscan).2
  rw [hck] at b1
  cases b1
  obtain ⟨_, row2, c1, c2⟩ := log_is_history h4 (hsubset m) (sub _ (List.take_sublist ..)).1 (sub _ (List.take_sublist ..)).2
  obtain ⟨v, d1, d2⟩ := h3 C23.bag_lawful κ hκ (fun x hx hxk => hkept x.q (List.mem_map_of_mem hx) hxk) (by rw [hupd]; exact a1)
    (by rw [hupd, a2]; rfl) ckpt (by rw [hupd]; exact b2) p hp
  rw [hupd, c2] at d1
  cases d1
  exact ⟨row2, c1, d2⟩

/-! ### Where the bytes come from -/

/-- A connection remembers the bytes of the request it has read, if they are all in one buffer. -/
theorem connection_remembers {s : In} (h : s.Ready) {cs : List Bytes} {s' : In} {cs' : List Bytes} {req : List Json}
    (hr : s.receive cs = some (s', cs')) (hj : s'.sp.mode = .final (.arr req)) (hbig : s'.total + s'.data.length < 2 ^ 64) :
    s'.reset.Ready ∧ ∃ pre, Wire (.arr req) pre ∧ s.data.drop s.pos ++ cs.flatten = pre ++ (s'.data.drop s'.pos ++ cs'.flatten) ∧
      s'.recent s.xposition = if s.start + pre.length ≤ inbufsz then pre else [] := by
  have hb := receive_bounds cs s h.pos h.len s' cs' hr
  exact ⟨⟨rfl, hb.1, hb.2⟩, receive_ready h hr hj hbig⟩

theorem array_header {n : Nat} (h : n < 2 ^ 31) : Header (.arr n) (writeArrayHeader n) := by
  unfold writeArrayHeader
  split
  · exact .fixarr n ‹_›
  split
  · have := Header.arr16 (be 2 n) (be_length ..)
    rwa [unbe_be_of_lt (by omega)] at this
  · have := Header.arr32 (be 4 n) (be_length ..)
    rwa [unbe_be_of_lt (by omega)] at this

theorem enc_wire {j : Json} (h : j.Fits) : Wire j.back (enc j) := by
  have h1 := consume_enc h []
  rw [List.append_nil] at h1
  obtain ⟨pre, e, hw⟩ := (accepts_iff (enc j) j.back []).1 (by rw [h1]; exact ⟨rfl, rfl⟩)
  rw [List.append_nil] at e
  exact e ▸ hw

theorem encs_wire : ∀ {l : List Json}, FitsList l → WireList (backs l) (encs l)
  | [], _ => .nil
  | _ :: _, h => .cons _ _ _ _ (enc_wire h.1) (encs_wire h.2)

theorem backs_length : ∀ l : List Json, (backs l).length = l.length
  | [] => rfl
  | _ :: l => congrArg (· + 1) (backs_length l)

theorem skippable_narrow {j : Json} (h : Skippable j) : Narrow (enc j) := by
  cases j with
  | null => exact show _ ∧ _ ∧ _ ∧ _ ∧ _ from by decide
  | bool b => cases b <;> exact show _ ∧ _ ∧ _ ∧ _ ∧ _ from by decide
  | int x =>
    have h : -2147483648 ≤ x ∧ x < 2147483648 := h
    have e : enc (.int x) = writeI32 x := if_pos (by omega)
    rw [e]
    unfold writeI32
    split
    · rename_i hx
      have hl : low 1 x / 256 ^ 0 = (x % 256).toNat := by
        rw [Nat.pow_zero, Nat.div_one]; rfl
      show Narrow (UInt8.ofNat (low 1 x / 256 ^ 0) :: [])
      show _ ∧ _ ∧ _ ∧ _ ∧ _
      rw [hl, toNat_ofNat (by omega)]
      omega
    split
    · exact show _ ∧ _ ∧ _ ∧ _ ∧ _ from by decide
    split <;> exact show _ ∧ _ ∧ _ ∧ _ ∧ _ from by decide
  | uint x =>
    have h : x < 4294967296 := h
    have e : enc (.uint x) = writeU32 x := if_pos (by omega)
    rw [e]
    unfold writeU32
    split
    · show _ ∧ _ ∧ _ ∧ _ ∧ _
      rw [toNat_ofNat (by omega)]
      omega
    split
    · exact show _ ∧ _ ∧ _ ∧ _ ∧ _ from by decide
    split <;> exact show _ ∧ _ ∧ _ ∧ _ ∧ _ from by decide
  | str s => exact str_narrow (enc_wire (j := .str s) h)
  | dbl d => cases h
  | arr l => cases h
  | obj l => cases h

/-- A client that encodes its requests as the server's own encoder does, with 32-bit sequence numbers, sends bytes that can be logged. -/
theorem encoded_plain {seq c : Json} {rest : List Json} (h : (Json.arr (seq :: c :: rest)).Fits) (h1 : Skippable seq) (h2 : Skippable c) :
    Plain (backs (seq :: c :: rest)) (enc (.arr (seq :: c :: rest))) := by
  obtain ⟨a1, a2, a3, a4⟩ := h
  refine .mk seq.back c.back (backs rest) _ _ _ _ ?_ ?_ (enc_wire a2) (skippable_narrow h1) (enc_wire a3) (skippable_narrow h2) (encs_wire a4)
  · rw [backs_length]; exact array_header a1
  · rw [backs_length]; exact a1

/-! ### What is lost -/

/-- A put that a connection does not remember is logged in a form that the log reader cannot read. -/
theorem forgotten_put_unreadable {req : List Json} (h : 3 < req.length) (hl : req.length < 2 ^ 31) :
    ∃ val, putValue req [] = some val ∧ parseChangeset val = none := by
  refine ⟨_, if_pos rfl, ?_⟩
  have hh := array_header (n := req.length - 3) (by omega)
  generalize writeArrayHeader (req.length - 3) = hd at hh
  have key : ∀ (b : UInt8) (bs : Bytes), ((0x90 ≤ b.toNat ∧ b.toNat < 0xA0) ∨ b.toNat = 0xDC ∨ b.toNat = 0xDD) → parseChangeset (b :: bs) = none := by
    intro b bs hb
    show (readInt (b :: bs)).bind _ = none
    have : readInt (b :: bs) = none := by
      unfold readInt
      dsimp only
      generalize b.toNat = x at hb
      repeat' split
      all_goals first | rfl | (exfalso; omega)
    rw [this]
    rfl
  generalize req.length - 3 = m at hh
  cases hh with
  | fixarr n h' =>
    refine key _ _ (.inl ?_)
    rw [toNat_ofNat (by omega)]
    omega
  | arr16 b h' => exact key _ _ (.inr (.inl (by decide)))
  | arr32 b h' => exact key _ _ (.inr (.inr (by decide)))

/-- Replaying the record of such a put, the first of its key, is undefined. -/
theorem forgotten_put_undefined {req : List Json} (h : 3 < req.length) (hl : req.length < 2 ^ 31) (ep ts : Nat) (k : Bytes) :
    ∃ val u, putValue req [] = some val ∧ C26.updOf k (Log.Req.update ⟨.put, ⟨ep, ts, 0⟩, k, val⟩) = some u ∧
      Cell.replay bagRows ⟨[], none⟩ [u] = none := by
  obtain ⟨val, h1, h2⟩ := forgotten_put_unreadable h hl
  refine ⟨val, ⟨.put, ts, 0, val⟩, h1, by simp [Log.Req.update, C26.updOf], ?_⟩
  have hp : bagRows.parse val = none := h2
  have ha : Cell.apply bagRows ⟨[], none⟩ ⟨.put, ts, 0, val⟩ = none := by
    simp [Cell.apply, Log.change, Log.headTs, hp]
  show (Cell.apply bagRows ⟨[], none⟩ ⟨.put, ts, 0, val⟩).bind _ = none
  rw [ha]
  rfl

/-- A put that begins in one buffer and ends in another is served, and logged unreadably. -/
theorem split_put_unreadable {s : In} (h : s.Ready) {cs : List Bytes} {s' : In} {cs' : List Bytes} {req : List Json}
    (hr : s.receive cs = some (s', cs')) (hj : s'.sp.mode = .final (.arr req)) (hbig : s'.total + s'.data.length < 2 ^ 64)
    (hreq : 3 < req.length ∧ req.length < 2 ^ 31)
    (hlong : ∀ pre, Wire (.arr req) pre → s.data.drop s.pos ++ cs.flatten = pre ++ (s'.data.drop s'.pos ++ cs'.flatten) → inbufsz < s.start + pre.length) :
    ∃ val, putValue req (s'.recent s.xposition) = some val ∧ parseChangeset val = none := by
  obtain ⟨pre, a, b, e⟩ := receive_ready h hr hj hbig
  have := hlong pre a b
  rw [e, if_neg (by omega)]
  exact forgotten_put_unreadable hreq.1 hreq.2

/-- A sequence number of 64 bits: `[2^40, 6, "k", 0, "v"]`. -/
def wide : Bytes := [0x95, 0xCF, 0, 0, 1, 0, 0, 0, 0, 0, 6, 0xA1, 107, 0, 0xA1, 118]

/-- The server makes the change, and logs something else. -/
theorem wide_sequence_unreadable : ∃ val, Wire (.arr [.uint (2 ^ 40), .int 6, .str [107], .int 0, .str [118]]) wide ∧
    changes [.int 0, .str [118]] = some [(0, [118])] ∧ putValue [.uint (2 ^ 40), .int 6, .str [107], .int 0, .str [118]] wide = some val ∧
    parseChangeset val = none := by
  refine ⟨wide.drop 1, ?_, rfl, rfl, rfl⟩
  exact enc_wire (j := .arr [.uint (2 ^ 40), .int 6, .str [107], .int 0, .str [118]]) (by simp [Json.Fits, FitsList])

/-- A column given as the double 1.0: `[1, 6, "k", 1.0, "v"]`.  The server changes column 1, and logs what cannot be read. -/
def floating : Bytes := [0x95, 1, 6, 0xA1, 107, 0xCB, 0x3F, 0xF0, 0, 0, 0, 0, 0, 0, 0xA1, 118]

theorem double_column_unreadable : ∃ val, Plain [.int 1, .int 6, .str [107], .dbl 0x3FF0000000000000, .str [118]] floating ∧
    changes [.dbl 0x3FF0000000000000, .str [118]] = some [(1, [118])] ∧
    putValue [.int 1, .int 6, .str [107], .dbl 0x3FF0000000000000, .str [118]] floating = some val ∧ parseChangeset val = none := by
  refine ⟨floating.drop 5, ?_, by decide +kernel, rfl, rfl⟩
  exact encoded_plain (seq := .int 1) (c := .int 6) (rest := [.str [107], .dbl 0x3FF0000000000000, .str [118]])
    (by simp [Json.Fits, FitsList]) (by simp [Skippable]) (by simp [Skippable])

/-! ### Examples -/

def env (ts : Nat) : Env := ⟨BitVec.ofNat 64 ts, fun n => List.replicate n 0, []⟩

def job (ts : Nat) (req : List Json) : Job := ⟨env ts, 1, req, enc (.arr req)⟩

/-- A put of columns 0 and 1, a put of another key, a put of column 1, a get, a replacement, a put of column 2. -/
def demo : List Job :=
  [job 2 [.int 1, .int 6, .str [107], .int 0, .str [120], .int 1, .str [121]],
   job 4 [.int 2, .int 6, .str [108], .int 0, .str [113]],
   job 6 [.int 3, .int 6, .str [107], .int 1, .str [122, 122]],
   job 6 [.int 4, .int 2, .str [107]],
   job 8 [.int 5, .int 8, .str [107], .str [119]],
   job 10 [.int 6, .int 6, .str [107], .int 2, .str [118]]]

theorem demo_loggable : ∀ e ∈ demo, Loggable e := by
  have h : ∀ (x : Int) (k : Bytes) (rest : List Json), Skippable (.int x) → (Json.arr (.int x :: .int 6 :: .str k :: rest)).Fits →
      backs rest = rest → IntCols rest → ∀ ts, Loggable (job ts (.int x :: .int 6 :: .str k :: rest)) := by
    intro x k rest h1 h2 h3 h4 ts _
    refine ⟨?_, h4⟩
    have := encoded_plain (c := .int 6) (rest := .str k :: rest) h2 h1 (by simp [Skippable])
    rwa [show backs (.int x :: .int 6 :: .str k :: rest) = .int x :: .int 6 :: .str k :: backs rest from rfl, h3] at this
  intro e he
  simp only [demo, List.mem_cons, List.not_mem_nil, or_false] at he
  rcases he with rfl | rfl | rfl | rfl | rfl | rfl
  · exact h _ _ _ (by simp [Skippable]) (by simp [Json.Fits, FitsList]) rfl (by simp [IntCols, Json.num?]) _
  · exact h _ _ _ (by simp [Skippable]) (by simp [Json.Fits, FitsList]) rfl (by simp [IntCols, Json.num?]) _
  · exact h _ _ _ (by simp [Skippable]) (by simp [Json.Fits, FitsList]) rfl (by simp [IntCols, Json.num?]) _
  · rintro ⟨x, h1, h2⟩
    cases h1
    exact absurd h2 (by decide)
  · rintro ⟨x, h1, h2⟩
    cases h1
    exact absurd h2 (by decide)
  · exact h _ _ _ (by simp [Skippable]) (by simp [Json.Fits, FitsList]) rfl (by simp [IntCols, Json.num?]) _

/-- Key, timestamps and command of a record. -/
def show_ (q : Log.Req) : Bytes × Nat × Nat × Log.KvCmd := (q.key, q.qt.ts, q.qt.prev, q.command)

theorem demo_served : (serveAll 100 Trie.empty demo).map (fun x => x.2.map show_) =
    some [([107], 2, 0, .put), ([108], 4, 0, .put), ([107], 6, 2, .put), ([107], 8, 6, .replace), ([107], 10, 8, .put)] := by
  decide +kernel

example : ∃ t qs row, serveAll 100 Trie.empty demo = some (t, qs) ∧ get [107] t = some row ∧
    ∀ p : List Upd, p.Perm (updates [107] qs) → Cell.replay bagRows ⟨[], none⟩ p = some ⟨[], row⟩ := by
  obtain ⟨⟨t, qs⟩, h1, h2⟩ := Option.map_eq_some_iff.1 demo_served
  have key : ∀ q ∈ qs, show_ q ∈ [([107], 2, 0, Log.KvCmd.put), ([108], 4, 0, .put), ([107], 6, 2, .put), ([107], 8, 6, .replace), ([107], 10, 8, .put)] :=
    fun q hq => by rw [← h2]; exact List.mem_map_of_mem hq
  have hst : Stamped [107] qs := by
    refine ⟨fun q hq _ => ?_, ?_⟩
    · have := key q hq
      simp only [show_, List.mem_cons, Prod.mk.injEq, List.not_mem_nil, or_false] at this
      omega
    · have : (qs.map show_).Pairwise fun a b => a.2.1 < b.2.1 := by
        dsimp only at h2
        rw [h2]; decide
      exact (List.pairwise_map.1 this).imp fun h _ _ => h
  have hk : Kept [107] qs := fun q hq _ hc => by
    have := key q hq
    simp [show_, hc] at this
  obtain ⟨row, a, b⟩ := log_rebuilds_row h1 demo_loggable hst hk
  exact ⟨t, qs, row, h1, a, b⟩

deriving instance DecidableEq for Log.Times
deriving instance DecidableEq for Log.Req

/-- A put in epoch `e`, of single columns. -/
def putJob (e ts : Nat) (k : UInt8) (cols : List Json) : Job :=
  ⟨env ts, e, .int ts :: .int 6 :: .str [k] :: cols, enc (.arr (.int ts :: .int 6 :: .str [k] :: cols))⟩

/-- The requests behind the checkpoint and the crash of `C26.demo`. -/
def crashed : List Job :=
  [putJob 1 2 10 [.int 0, .str [120], .int 1, .str [121]], putJob 1 4 11 [.int 0, .str [1]], putJob 2 6 10 [.int 1, .str [122]],
   putJob 2 8 10 [.int 0, .str [119]], putJob 3 10 11 [.int 0, .str [2]], putJob 3 12 11 [.int 0, .str [3]],
   putJob 4 14 10 [.int 0, .str [118]], putJob 4 16 10 [.int 0, .str [117]]]

theorem crashed_loggable : ∀ e ∈ crashed, Loggable e := by
  have h : ∀ (e ts : Nat) (k : UInt8) (cols : List Json), ts < 100 → (Json.arr (.int 1 :: .int 6 :: .str [k] :: cols)).Fits → backs cols = cols →
      IntCols cols → Loggable (putJob e ts k cols) := by
    intro e ts k cols h0 h2 h3 h4 _
    refine ⟨?_, h4⟩
    have := encoded_plain (seq := .int ts) (c := .int 6) (rest := .str [k] :: cols) ⟨h2.1, ⟨by omega, by omega⟩, h2.2.2⟩ ⟨by omega, by omega⟩ (by simp [Skippable])
    rwa [show backs (.int ts :: .int 6 :: .str [k] :: cols) = .int ts :: .int 6 :: .str [k] :: backs cols from rfl, h3] at this
  intro e he
  simp only [crashed, List.mem_cons, List.not_mem_nil, or_false] at he
  rcases he with rfl | rfl | rfl | rfl | rfl | rfl | rfl | rfl <;>
    exact h _ _ _ _ (by decide) (by simp [Json.Fits, FitsList]) rfl (by simp [IntCols, Json.num?])

theorem crashed_logged : (serveAll 100 Trie.empty crashed).map (fun x => x.2) = some (C26.demoEnd.hist.map (·.q)) := by
  decide +kernel

theorem scanned_logged : (serveAll 100 Trie.empty (crashed.take 3)).map (fun x => x.2) = some ((C26.demo.scan [10]).hist.map (·.q)) := by
  decide +kernel

instance (k : Bytes) (qs : List Log.Req) : Decidable (Kept k qs) := inferInstanceAs (Decidable (∀ q ∈ qs, q.key = k → q.command ≠ .remove))

-- the row recovered for key 10 is one that the server held
example : ∃ m ≤ crashed.length, ∃ t1 j, serveAll 100 Trie.empty (crashed.take m) = some (t1, (C26.demoEnd.hist.take j).map (·.q)) ∧
    ∃ row ckpt, get [10] t1 = some row ∧
      Cell.replay bagRows ⟨[], ckpt⟩ ((C26.merged C26.demoEnd 2 C26.demoLeft 2 2).filterMap (C26.updOf [10])) = some ⟨[], row⟩ := by
  obtain ⟨⟨t, qs⟩, h1, h2⟩ := Option.map_eq_some_iff.1 crashed_logged
  obtain ⟨⟨t0, qs0⟩, h3, h4⟩ := Option.map_eq_some_iff.1 scanned_logged
  dsimp only at h2 h4
  subst h2 h4
  obtain ⟨m, hm, t1, j, a1, a2, a3⟩ := recovers_served C26.demo (by show ∀ i < 2, _; decide +kernel) (by decide +kernel) C26.demoLeft (by decide +kernel)
    (by decide +kernel) (by decide +kernel) (by decide +kernel) h1 crashed_loggable
  obtain ⟨hl, row0, b1, b2⟩ := log_is_history (k := [10]) h3 (fun e he => crashed_loggable e (List.mem_of_mem_take he))
    ⟨by decide +kernel, by decide +kernel⟩ (by decide +kernel)
  obtain ⟨row, c1, c2⟩ := a3 [10] (by decide) (by decide +kernel) ⟨by decide +kernel, by decide +kernel⟩ 3 t0 h3 row0 b1 _ (C26.merged_ok ..)
  exact ⟨m, hm, t1, j, a1, row, row0, c1, c2⟩

/-- The records of `crashed` handed to a log of 400 bytes. -/
def filed : Option C22.World :=
  C22.runs (C22.fresh 400 (List.replicate 400 7) (List.replicate 400 8)) (C26.demoEnd.hist.map fun z => .record 0 z.q)

-- the row of key 10 from the bytes of the log
example : ∃ t qs row w, serveAll 100 Trie.empty crashed = some (t, qs) ∧ filed = some w ∧ get [10] t = some row ∧
    Cell.replay bagRows ⟨[], none⟩ (((C21.read w.bytes).filterMap id).filterMap (C26.updOf [10])) = some ⟨[], row⟩ := by
  obtain ⟨⟨t, qs⟩, h1, h2⟩ := Option.map_eq_some_iff.1 crashed_logged
  dsimp only at h2
  subst h2
  have hf : filed.map (fun w => w.recs.filterMap (C26.updOf [10])) = some (updates [10] (C26.demoEnd.hist.map (·.q))) := by decide +kernel
  obtain ⟨w, h3, h4⟩ := Option.map_eq_some_iff.1 hf
  obtain ⟨row, h5, h6⟩ := log_files_rebuild_row h1 crashed_loggable (k := [10]) ⟨by decide +kernel, by decide +kernel⟩ (by decide +kernel) [w]
    (by
      intro w' hw
      cases List.mem_singleton.1 hw
      exact ⟨400, _, _, _, by decide, List.length_replicate .., List.length_replicate .., by
        intro a ha
        obtain ⟨z, hz, rfl⟩ := List.mem_map.1 ha
        clear ha
        show z.q.key.length ≤ Log.maxKeyLen ∧ 32 + z.q.key.length + z.q.val.length < 2 ^ 32 ∧ z.q.qt.epoch < 2 ^ 64 ∧ z.q.qt.ts < 2 ^ 64 ∧
          z.q.qt.prev < 2 ^ 64
        revert z
        decide +kernel, h3⟩)
    (by simp [h4])
  exact ⟨t, _, row, w, h1, h3, h5, by simpa using h6⟩

/-- The same requests in the bytes of one connection, read in two pieces: the first is remembered whole. -/
example : ((In.new.receive [(enc (.arr (job 2 [.int 1, .int 6, .str [107], .int 0, .str [120]]).req)).take 4,
      (enc (.arr (job 2 [.int 1, .int 6, .str [107], .int 0, .str [120]]).req)).drop 4 ++ [0x93]]).map fun x => x.1.recent In.new.xposition) =
    some (enc (.arr [.int 1, .int 6, .str [107], .int 0, .str [120]])) := by decide +kernel

/-- The bytes of a small put. -/
def small : Bytes := [0x95, 1, 6, 0xA1, 107, 0, 0xA1, 118]

def smallReq : List Json := [.int 1, .int 6, .str [107], .int 0, .str [118]]

theorem small_wire : Wire (.arr smallReq) small := enc_wire (j := .arr smallReq) (by simp [smallReq, Json.Fits, FitsList])

/-- A connection whose buffer is full, with the first four bytes of a put at its end. -/
def nearEnd (front : Bytes) : In := ⟨0, front.length, front ++ small.take 4, SP.init⟩

/-- The put of a single column, a few bytes long, that is lost to recovery. -/
theorem split_example (front : Bytes) (hf : front.length = 20476) :
    ∃ s' val, (nearEnd front).Ready ∧ (nearEnd front).receive [small.drop 4] = some (s', []) ∧ s'.sp.mode = .final (.arr smallReq) ∧
      putValue smallReq (s'.recent (nearEnd front).xposition) = some val ∧ parseChangeset val = none := by
  have hlen : (nearEnd front).data.length = 20480 := by
    show (front ++ small.take 4).length = _
    rw [List.length_append, hf, show (small.take 4).length = 4 from rfl]
  have hready : (nearEnd front).Ready := ⟨rfl, by rw [hlen]; show front.length ≤ _; omega, by rw [hlen]; unfold inbufsz; omega⟩
  have hdrop : (nearEnd front).data.drop (nearEnd front).pos = small.take 4 := List.drop_left ..
  have hd1 : (SP.init.feed (small.take 4)).1.mode.done = false := by decide +kernel
  have hr1 := feed_rest hd1
  have hall : (SP.init.feed small).1.mode = .final (.arr smallReq) ∧ (SP.init.feed small).2 = [] :=
    (feed_ends small _ []).2 ⟨small, by simp, small_wire⟩
  have hcut : SP.init.feed small = (SP.init.feed (small.take 4)).1.feed (small.drop 4) := by
    have := feed_append (sp := SP.init) trivial (small.take 4) (small.drop 4)
    rw [List.take_append_drop, hd1, if_neg Bool.false_ne_true] at this
    exact this
  have hp : (nearEnd front).parse = ⟨0, 20480, front ++ small.take 4, (SP.init.feed (small.take 4)).1⟩ := by
    unfold In.parse
    rw [hdrop, hlen, show (nearEnd front).sp = SP.init from rfl, hr1, List.length_nil, Nat.sub_zero]
    rfl
  have hh : (nearEnd front).parse.hardCheck = ⟨20480, 0, [], (SP.init.feed (small.take 4)).1⟩ := by
    rw [hp]
    unfold In.hardCheck
    rw [if_neg (by rw [not_empty (by decide)]; exact Bool.false_ne_true), if_pos (show 20480 = inbufsz from rfl), Nat.zero_add]
  have hrec : (nearEnd front).receive [small.drop 4] = some (In.parse ⟨20480, 0, small.drop 4, (SP.init.feed (small.take 4)).1⟩, []) := by
    unfold In.receive
    rw [if_neg (by rw [hp]; show ¬ (SP.init.feed (small.take 4)).1.mode.done = true; rw [hd1]; exact Bool.false_ne_true),
      if_neg (by decide), hh]
    show some (if _ then _ else _, _) = _
    rw [if_pos]
    · rfl
    · show ((SP.init.feed (small.take 4)).1.feed (small.drop 4)).1.mode.done = true
      rw [← hcut, hall.1]
      rfl
  have hfin : (In.parse ⟨20480, 0, small.drop 4, (SP.init.feed (small.take 4)).1⟩).sp.mode = .final (.arr smallReq) := by
    show ((SP.init.feed (small.take 4)).1.feed (small.drop 4)).1.mode = _
    rw [← hcut]; exact hall.1
  obtain ⟨val, h1, h2⟩ := split_put_unreadable hready hrec hfin (by
    show 20480 + (small.drop 4).length < 2 ^ 64
    rw [show (small.drop 4).length = 4 from rfl]
    omega) ⟨by decide, by decide⟩ (by
    intro pre _ e
    have hl := congrArg List.length e
    have hz : (In.parse ⟨20480, 0, small.drop 4, (SP.init.feed (small.take 4)).1⟩).pos = 4 := by
      show (small.drop 4).length - ((SP.init.feed (small.take 4)).1.feed (small.drop 4)).2.length = 4
      rw [← hcut, hall.2]; rfl
    rw [hdrop, hz] at hl
    have hst : (nearEnd front).start = 20476 := by
      have : ¬ (nearEnd front).pos = (nearEnd front).data.length := by rw [hlen]; show ¬ front.length = _; omega
      show (if _ then _ else _) = _
      rw [if_neg this]
      exact hf
    rw [hst]
    have hl : 8 = (pre ++ []).length := hl
    rw [List.append_nil] at hl
    show 20480 < _
    omega)
  exact ⟨_, val, hready, hrec, hfin, h1, h2⟩

example : ∃ front : Bytes, front.length = 20476 := ⟨List.replicate 20476 0, List.length_replicate ..⟩

end Verif.Props.C44
