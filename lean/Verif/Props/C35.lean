import Verif.Server.Lemmas

/-!
# C35: the server answers each request with the reply its command and outcome call for
-/
namespace Verif.Props.C35
open Verif.Key (Bytes LexLt)
open Verif.Msgpack (Json)
open Verif.Trie (T get ReachableLe)
open Verif.Server
variable {V : Type}

/-! ### What the replies should be, in terms of a map from keys to rows -/

/-- The columns that a list of column numbers asks for; the empty list asks for all. -/
def asked (R : Rows V) (v : V) (f : List Int) : List Int :=
  match f with
  | [] => (List.range (R.ncol v)).map Int.ofNat
  | _ => f

/-- `vals` are the values of the columns asked for. -/
def Cols (R : Rows V) (v : V) (f : List Int) (vals : List Bytes) : Prop :=
  (asked R v f).map (R.col v) = vals.map some

/-- How a scan shows a row: a single column as a string, several as an array. -/
inductive Shown (R : Rows V) (f : List Int) (v : V) : Json → Prop where
  | only (s : Bytes) : f = [] → R.ncol v = 1 → R.col v 0 = some s → Shown R f v (.str s)
  | single (c : Int) (s : Bytes) : f = [c] → R.col v c = some s → Shown R f v (.str s)
  | many (vals : List Bytes) : f.length ≠ 1 → ¬ (f = [] ∧ R.ncol v = 1) → Cols R v f vals → vals ≠ [] →
      Shown R f v (.arr (vals.map .str))
  | nothing : f = [] → R.ncol v = 0 → Shown R f v .null

/-- Keys and rows, alternating. -/
inductive Pairs (R : Rows V) (f : List Int) : List (Bytes × V) → List Json → Prop where
  | nil : Pairs R f [] []
  | cons (k : Bytes) (v : V) (j : Json) (L : List (Bytes × V)) (js : List Json) : Shown R f v j → Pairs R f L js →
      Pairs R f ((k, v) :: L) (.str k :: j :: js)

/-- All live rows at or after a key, in key order. -/
def Listing (R : Rows V) (m : Bytes → Option V) (first : Bytes) (L : List (Bytes × V)) : Prop :=
  (∀ k v, (k, v) ∈ L ↔ (m k = some v ∧ (LexLt first k ∨ k = first)) ∧ R.marker v = false) ∧
    L.Pairwise fun a b => LexLt a.1 b.1

/-- A key with a live row. -/
def Live (R : Rows V) (m : Bytes → Option V) (k : Bytes) (v : V) : Prop := m k = some v ∧ R.marker v = false
def Absent (R : Rows V) (m : Bytes → Option V) (k : Bytes) : Prop := ∀ v, ¬ Live R m k v

/-- The map with one entry changed. -/
def upd (m : Bytes → Option V) (k : Bytes) (x : Option V) : Bytes → Option V := fun j => if j = k then x else m j

/-- The command number of a request's second element. -/
def Command (c : Json) (n : Int) : Prop := ∃ x, asI c = some x ∧ int32 x = n

/-- `Answer R ts m req reply m'`: with the map `m`, the request `req` calls for `reply` and leaves
the map `m'`; `ts` is the timestamp of a new row. -/
inductive Answer (R : Rows V) (ts : BitVec 64) (m : Bytes → Option V) :
    List Json → List Json → (Bytes → Option V) → Prop where
  | get (seq c : Json) (k : Bytes) (v : V) (args : List Json) (cs : List Int) (vals : List Bytes) : Command c 2 →
      Live R m k v → args.map asI = cs.map some → Cols R v (cs.map R.index) vals →
      Answer R ts m (seq :: c :: .str k :: args) (seq :: .int 3 :: vals.map .str) m
  | missing (seq c : Json) (k : Bytes) (args : List Json) : Command c 2 → Absent R m k →
      Answer R ts m (seq :: c :: .str k :: args) (seq :: .int 3 :: .str k :: args) m
  | scan (seq c lim : Json) (first : Bytes) (args : List Json) (n : Int) (cs : List Int) (L : List (Bytes × V))
      (js : List Json) : Command c 4 → asI lim = some n → 0 < n → first.length ≤ 256 →
      args.map asI = cs.map some → Listing R m first L →
      Pairs R (cs.map R.index) (if 0 < int32 n then L.take (int32 n).toNat else L) js →
      Answer R ts m (seq :: c :: .str first :: lim :: args) (seq :: .int 5 :: js) m
  | insert (seq c : Json) (k : Bytes) (v : V) (args : List Json) : Command c 6 → args ≠ [] → args.length % 2 = 0 →
      Absent R m k → R.create args ts = some v →
      Answer R ts m (seq :: c :: .str k :: args) [seq, .int 7, .int 1] (upd m k (some v))
  | update (seq c : Json) (k : Bytes) (old v : V) (args : List Json) : Command c 6 → args ≠ [] → args.length % 2 = 0 →
      Live R m k old → R.update old args ts = some v →
      Answer R ts m (seq :: c :: .str k :: args) [seq, .int 7, .int 2] (upd m k (some v))
  | replaceNew (seq c : Json) (k s : Bytes) (v : V) (more : List Json) : Command c 8 → Absent R m k →
      R.create1 s ts = some v →
      Answer R ts m (seq :: c :: .str k :: .str s :: more) [seq, .int 9, .int 1] (upd m k (some v))
  | replaceOld (seq c : Json) (k s : Bytes) (old v : V) (more : List Json) : Command c 8 → Live R m k old →
      R.create1 s ts = some v →
      Answer R ts m (seq :: c :: .str k :: .str s :: more) [seq, .int 9, .int 2] (upd m k (some v))
  | remove (seq c : Json) (k : Bytes) (more : List Json) : Command c 10 →
      Answer R ts m (seq :: c :: .str k :: more) [seq, .int 11, .bool (m k).isSome] (upd m k none)
  | checkpoint (seq c : Json) (more : List Json) : Command c 12 →
      Answer R ts m (seq :: c :: more) [seq, .int 13] m

/-- Requests that are refused: the command is none of the known ones, or a put without complete
column-value pairs. -/
def Refused (req : List Json) : Prop :=
  ∃ seq c rest n, req = seq :: c :: rest ∧ Command c n ∧ n ≠ 2 ∧ n ≠ 4 ∧ n ≠ 8 ∧ n ≠ 10 ∧ n ≠ 12 ∧
    (n = 6 → rest.length ≤ 1 ∨ rest.length % 2 = 0)

/-- The table holds the map. -/
def Holds (L : Nat) (t : T V) (m : Bytes → Option V) : Prop := ReachableLe L t ∧ ∀ k, get k t = some (m k)

/-- The key that a put or replace request stores. -/
def storedKey (req : List Json) : Bytes :=
  match asI (el req 1), asS (el req 2) with
  | some c, some k => if int32 c = 6 ∨ int32 c = 8 then k else []
  | _, _ => []

/-! ### The pieces -/

theorem asked_eq (R : Rows V) (v : V) (f : List Int) : wanted R v f = asked R v f := by
  cases f <;> simp [wanted, asked]

theorem cols_iff {R : Rows V} {v : V} {f : List Int} {r : List Json} :
    columns R v f = some r ↔ ∃ vals, Cols R v f vals ∧ r = vals.map .str := by
  unfold columns Cols
  rw [asked_eq, Option.map_eq_some_iff]
  constructor
  · rintro ⟨vals, h, rfl⟩; exact ⟨vals, allSome_eq.1 h, rfl⟩
  · rintro ⟨vals, h, rfl⟩; exact ⟨vals, allSome_eq.2 h, rfl⟩

theorem shown_iff {R : Rows V} {f : List Int} {v : V} {j : Json} : emitFields1 R f v = some j ↔ Shown R f v j := by
  unfold emitFields1
  by_cases hc : (f = [] ∧ R.ncol v = 1) ∨ f.length = 1
  · rw [if_pos hc, Option.map_eq_some_iff]
    constructor
    · rintro ⟨s, h, rfl⟩
      rcases hc with ⟨rfl, h1⟩ | h1
      · exact .only s rfl h1 h
      · obtain ⟨c, rfl⟩ := List.length_eq_one_iff.1 h1
        exact .single c s rfl h
    · intro h
      cases h with
      | only s h1 h2 h3 => subst h1; exact ⟨s, h3, rfl⟩
      | single c s h1 h2 => subst h1; exact ⟨s, h2, rfl⟩
      | many vals h1 h2 => exact absurd hc (by simp [h1]; simpa using h2)
      | nothing h1 h2 => subst h1; simp [h2] at hc
  · rw [if_neg hc, Option.map_eq_some_iff]
    have h1 : f.length ≠ 1 := fun h => hc (.inr h)
    have h2 : ¬ (f = [] ∧ R.ncol v = 1) := fun h => hc (.inl h)
    constructor
    · rintro ⟨r, h, rfl⟩
      obtain ⟨vals, h3, rfl⟩ := cols_iff.1 h
      by_cases hv : vals = []
      · subst hv
        have h4 : asked R v f = [] := by
          have := congrArg List.length h3
          simpa using this
        cases f with
        | nil =>
          refine .nothing rfl ?_
          simpa [asked] using h4
        | cons c f => simp [asked] at h4
      · rw [if_neg (by simpa using hv)]
        exact .many vals h1 h2 h3 hv
    · intro h
      cases h with
      | only s h3 h4 => exact absurd ⟨h3, h4⟩ h2
      | single c s h3 => subst h3; simp at h1
      | many vals _ _ h3 h4 => exact ⟨_, cols_iff.2 ⟨vals, h3, rfl⟩, by rw [if_neg (by simpa using h4)]⟩
      | nothing h3 h4 =>
        subst h3
        exact ⟨[], cols_iff.2 ⟨[], by simp [Cols, asked, h4], rfl⟩, rfl⟩

theorem pairs_iff {R : Rows V} {f : List Int} : ∀ {L : List (Bytes × V)} {js : List Json},
    (∃ l, allSome (L.map fun e => (emitFields1 R f e.2).map fun j => (e.1, j)) = some l ∧ js = flat l) ↔ Pairs R f L js
  | [], js => by
    constructor
    · rintro ⟨l, h, rfl⟩
      simp only [List.map_nil, allSome, Option.some.injEq] at h
      subst h; exact .nil
    · intro h; cases h; exact ⟨[], rfl, rfl⟩
  | (k, v) :: L, js => by
    constructor
    · rintro ⟨l, h, rfl⟩
      rw [List.map_cons] at h
      cases he : emitFields1 R f v with
      | none => rw [he] at h; simp [allSome] at h
      | some j =>
        rw [he] at h
        simp only [Option.map_some, allSome, Option.map_eq_some_iff] at h
        obtain ⟨l', h1, rfl⟩ := h
        exact .cons k v j L _ (shown_iff.1 he) (pairs_iff.1 ⟨l', h1, rfl⟩)
    · intro h
      cases h with
      | cons _ _ j _ js h1 h2 =>
        obtain ⟨l, h3, rfl⟩ := pairs_iff.2 h2
        refine ⟨(k, j) :: l, ?_, rfl⟩
        rw [List.map_cons, shown_iff.2 h1]
        simp [allSome, h3]

theorem Holds.repr {L : Nat} {t : T V} {m : Bytes → Option V} (h : Holds L t m) : Trie.Repr t m :=
  ⟨h.1.reachable.wf, h.2⟩

theorem live_or_absent (R : Rows V) (m : Bytes → Option V) (k : Bytes) : Absent R m k ∨ ∃ v, Live R m k v := by
  by_cases h : ∃ v, Live R m k v
  · exact .inr h
  · exact .inl fun v hv => h ⟨v, hv⟩

/-- `runUpdate` reads the map and writes it. -/
theorem runUpdate_spec {L : Nat} {t : T V} {m : Bytes → Option V} (h : Holds L t m) {k : Bytes} (hk : k.length ≤ L)
    (f : Option V → Option (Bool × V)) :
    (f (m k) = none → runUpdate t k f = none) ∧
    ∀ i v, f (m k) = some (i, v) → ∃ t', runUpdate t k f = some (result i, t') ∧ Holds L t' (upd m k (some v)) := by
  constructor
  · intro hf
    unfold runUpdate
    rw [h.2 k]
    simp only [hf]
  · intro i v hf
    obtain ⟨t', h1, h2⟩ := Trie.step_spec h.repr (.put k v) trivial
    refine ⟨t', ?_, ?_⟩
    · unfold runUpdate
      rw [h.2 k]
      simp only [hf]
      simp only [Trie.step, Option.map_eq_some_iff, Prod.mk.injEq] at h1
      obtain ⟨r, h3, _, rfl⟩ := h1
      rw [h3]; rfl
    · exact ⟨ReachableLe.step h.1 (o := .put k v) trivial hk h1, h2.2⟩

theorem remove_spec {L : Nat} {t : T V} {m : Bytes → Option V} (h : Holds L t m) (k : Bytes) :
    ∃ t' gc, Trie.remove k t = some ((m k).isSome, t', gc) ∧ Holds L t' (upd m k none) := by
  obtain ⟨t', h1, h2⟩ := Trie.step_spec h.repr (.remove k) trivial
  have h3 := h1
  simp only [Trie.step, Option.map_eq_some_iff, Prod.mk.injEq] at h3
  obtain ⟨⟨b, t'', gc⟩, h4, h5, rfl⟩ := h3
  simp only [Trie.specOut, Option.some.injEq] at h5
  exact ⟨t'', gc, by rw [h4, h5], ReachableLe.step h.1 (o := .remove k) trivial trivial h1, h2.2⟩

theorem sorted_ext : ∀ {A B : List (Bytes × V)}, A.Pairwise (fun a b => LexLt a.1 b.1) →
    B.Pairwise (fun a b => LexLt a.1 b.1) → (∀ e, e ∈ A ↔ e ∈ B) → A = B
  | [], [], _, _, _ => rfl
  | [], b :: B, _, _, h => absurd ((h b).2 (by simp)) (by simp)
  | a :: A, [], _, _, h => absurd ((h a).1 (by simp)) (by simp)
  | a :: A, b :: B, hA, hB, h => by
    have hA' := List.pairwise_cons.1 hA
    have hB' := List.pairwise_cons.1 hB
    have e : a = b := by
      rcases List.mem_cons.1 ((h a).1 (by simp)) with h1 | h1
      · exact h1
      · rcases List.mem_cons.1 ((h b).2 (by simp)) with h2 | h2
        · exact h2.symm
        · exact absurd (hA'.1 b h2) (Key.lexLt_asymm (hB'.1 a h1))
    subst e
    congr 1
    refine sorted_ext hA'.2 hB'.2 fun e => ?_
    constructor
    · intro he
      rcases List.mem_cons.1 ((h e).1 (by simp [he])) with h1 | h1
      · subst h1; exact absurd (hA'.1 e he) (Key.lexLt_irrefl _)
      · exact h1
    · intro he
      rcases List.mem_cons.1 ((h e).2 (by simp [he])) with h1 | h1
      · subst h1; exact absurd (hB'.1 e he) (Key.lexLt_irrefl _)
      · exact h1

theorem Listing.unique {R : Rows V} {m : Bytes → Option V} {first : Bytes} {A B : List (Bytes × V)}
    (hA : Listing R m first A) (hB : Listing R m first B) : A = B :=
  sorted_ext hA.2 hB.2 fun e => by rw [hA.1 e.1 e.2, hB.1 e.1 e.2]

theorem scan_spec {t : T V} {m : Bytes → Option V} (h : Holds 256 t m) (R : Rows V) (E : Env)
    (hf : ∀ n, (E.fresh n).length = n) {F : Type} (emit : V → F) {first : Bytes} (hk : first.length ≤ 256) (n : Int) :
    ∃ (L : List (Bytes × V)) (q : Scan.QS F) (cnt N : Nat), Listing R m first L ∧
      (∀ fuel, N ≤ fuel → Scan.runScan .fwd R.marker emit E.fresh t first (E.fresh (256 - first.length)) E.old n fuel
        = .fin q cnt) ∧
      q.reply = (if 0 < n then L.take n.toNat else L).map fun e => (e.1, emit e.2) := by
  have hb : (first ++ E.fresh (256 - first.length)).length = 256 := by
    rw [List.length_append, hf]; omega
  have listing : ∀ L : List (Bytes × V),
      (∀ k v, (k, v) ∈ L ↔ get k t = some (some v) ∧ (C31.Before .fwd first k ∨ k = first)) →
      L.Pairwise (fun a b => C31.Before .fwd a.1 b.1) → Listing R m first (L.filter fun e => !R.marker e.2) := by
    intro L h1 h2
    refine ⟨fun k v => ?_, List.Pairwise.filter _ h2⟩
    rw [List.mem_filter, h1, h.2]
    simp [C31.Before]
  by_cases hn : 0 < n
  · obtain ⟨L, cnt, q, N, h1, h2, h3, h4, _⟩ := C31.limited_scan h.1 .fwd R.marker emit E.fresh hf first
      (E.fresh (256 - first.length)) E.old hb n.toNat (by omega)
    rw [Int.toNat_of_nonneg (by omega)] at h3
    exact ⟨_, q, cnt, N, listing L h1 h2, h3, by rw [h4, if_pos hn]⟩
  · obtain ⟨N, hN⟩ := Scan.exec_scan h.1 .fwd true hb (Scan.visitValue R.marker emit E.fresh)
    obtain ⟨q, h2, h3⟩ := Scan.feed_query_zero (marker := R.marker) (emit := emit) hf
      (Scan.Dir.fwd.ord (Scan.Dir.fwd.pick true first (Trie.contents t))) ⟨n, [E.old], 0, []⟩ 0
      ⟨by simp, by simp, by simp⟩ (by dsimp only; omega)
    refine ⟨_, q, 0 + (Scan.Dir.fwd.ord (Scan.Dir.fwd.pick true first (Trie.contents t))).length, N,
      listing (Scan.Dir.fwd.ord (Scan.Dir.fwd.pick true first (Trie.contents t))) ?_ ?_, ?_, ?_⟩
    · intro k v
      rw [Scan.mem_scan h.1 .fwd true first k v]
      simp [Scan.Dir.after, C31.Before]
    · exact Scan.scan_sorted h.1 .fwd true first
    · intro fuel hfuel
      unfold Scan.runScan
      rw [hN fuel hfuel, h2]
    · rw [h3, if_neg hn]; simp [Scan.QS.reply]

/-! ### `onego` by command -/

section cmds
variable {R : Rows V} {E : Env} {fuel : Nat} {t : T V} {seq c : Json} {rest : List Json}

theorem onego_get (h : Command c 2) :
    onego R E fuel t (seq :: c :: rest) = ofOption (fun r => finish 2 r t) (runGet R t (seq :: c :: rest)) := by
  obtain ⟨x, h1, h2⟩ := h
  simp [onego, el, h1, h2, cmdCheckpoint, cmdGet]

theorem onego_scan (h : Command c 4) :
    onego R E fuel t (seq :: c :: rest) = ofOption (fun r => finish 4 r t) (runScanReq R E fuel t (seq :: c :: rest)) := by
  obtain ⟨x, h1, h2⟩ := h
  simp [onego, el, h1, h2, cmdCheckpoint, cmdGet, cmdPut, cmdReplace, cmdRemove, cmdScan]

theorem onego_put (h : Command c 6) (hl : 1 < rest.length) (ho : rest.length % 2 = 1) :
    onego R E fuel t (seq :: c :: rest) =
      match asS (el rest 0) with
      | none => .stop
      | some k => ofOption (fun (j, t') => finish 6 (resize (put (seq :: c :: rest) 2 j) 3) t')
          (runUpdate t k fun old => applyPut R old (rest.drop 1) E.ts) := by
  obtain ⟨x, h1, h2⟩ := h
  have e : asI (el (seq :: c :: rest) 1) = some x := h1
  unfold onego
  rw [e]
  simp only [h2]
  rw [if_neg (by decide), if_neg (by decide), 
    if_pos ⟨rfl, by simp only [List.length_cons]; omega, by simp only [List.length_cons]; omega⟩]
  rfl

theorem onego_replace (h : Command c 8) :
    onego R E fuel t (seq :: c :: rest) =
      match asS (el rest 0), asS (el rest 1) with
      | some k, some s => ofOption (fun (j, t') => finish 8 (resize (put (seq :: c :: rest) 2 j) 3) t')
          (runUpdate t k fun old => applyReplace R old s E.ts)
      | _, _ => .stop := by
  obtain ⟨x, h1, h2⟩ := h
  have e : asI (el (seq :: c :: rest) 1) = some x := h1
  unfold onego
  rw [e]
  simp only [h2]
  rw [if_neg (by decide), if_neg (by decide), if_neg (fun h => absurd h.1 (by decide)), if_pos (by decide)]
  rfl

theorem onego_remove (h : Command c 10) :
    onego R E fuel t (seq :: c :: rest) =
      match asS (el rest 0) with
      | none => .stop
      | some k => ofOption (fun r => finish 10 (resize (put (seq :: c :: rest) 2 (.bool r.1)) 3) r.2.1) (Trie.remove k t) := by
  obtain ⟨x, h1, h2⟩ := h
  have e : asI (el (seq :: c :: rest) 1) = some x := h1
  unfold onego
  rw [e]
  simp only [h2]
  rw [if_neg (by decide), if_neg (by decide), if_neg (fun h => absurd h.1 (by decide)), if_neg (by decide),
    if_pos (by decide)]
  rfl

theorem onego_checkpoint (h : Command c 12) :
    onego R E fuel t (seq :: c :: rest) = .done true [seq, .int 13] t := by
  obtain ⟨x, h1, h2⟩ := h
  simp [onego, el, h1, h2, cmdCheckpoint, finish, resize, put]

theorem onego_refused (h : Refused (seq :: c :: rest)) :
    onego R E fuel t (seq :: c :: rest) = .done false [seq, .int (-1)] t := by
  obtain ⟨_, _, _, n, he, ⟨x, h1, h2⟩, n2, n4, n8, n10, n12, h6⟩ := h
  simp only [List.cons.injEq] at he
  obtain ⟨rfl, rfl, rfl⟩ := he
  have e : asI (el (seq :: c :: rest) 1) = some x := h1
  unfold onego
  rw [e]
  simp only [h2]
  rw [if_neg (show ¬ n = cmdCheckpoint from n12), if_neg (show ¬ n = cmdGet from n2), if_neg,
    if_neg (show ¬ n = cmdReplace from n8), if_neg (show ¬ n = cmdRemove from n10), if_neg (show ¬ n = cmdScan from n4)]
  · simp [resize, put]
  · rintro ⟨a, b, d⟩
    have := h6 a
    simp only [List.length_cons] at b d
    omega

theorem resize_put (j : Json) {k : Json} {args : List Json} :
    resize (put (seq :: c :: k :: args) 2 j) 3 = [seq, c, j] := by
  simp [resize, put]

theorem resize_two (l : List Json) : resize (seq :: c :: l) 2 = [seq, c] := by
  simp [resize]

theorem finish_three (cmd : Int) {j : Json} :
    finish cmd [seq, c, j] t = .done true [seq, .int (cmd + 1), j] t := by
  simp [finish, put]

end cmds

theorem el_asS {rest : List Json} {i : Nat} {k : Bytes} (h : asS (el rest i) = some k) : rest[i]? = some (.str k) := by
  have h1 := asS_el h
  have h2 := asS_some h
  rw [el, List.getD_eq_getElem?_getD, List.getElem?_eq_getElem h1] at h2
  rw [List.getElem?_eq_getElem h1]
  exact congrArg some h2

theorem applyPut_absent {R : Rows V} {m : Bytes → Option V} {k : Bytes} (h : Absent R m k) (js : List Json)
    (ts : BitVec 64) : applyPut R (m k) js ts = (R.create js ts).map fun v => (true, v) := by
  unfold applyPut
  cases hm : m k with
  | none => rfl
  | some v =>
    have : R.marker v = true := by
      cases hv : R.marker v
      · exact absurd ⟨hm, hv⟩ (h v)
      · rfl
    simp [this]

theorem applyPut_live {R : Rows V} {m : Bytes → Option V} {k : Bytes} {old : V} (h : Live R m k old) (js : List Json)
    (ts : BitVec 64) : applyPut R (m k) js ts = (R.update old js ts).map fun v => (false, v) := by
  unfold applyPut
  rw [h.1]
  simp [h.2]

theorem applyReplace_absent {R : Rows V} {m : Bytes → Option V} {k : Bytes} (h : Absent R m k) (s : Bytes)
    (ts : BitVec 64) : applyReplace R (m k) s ts = (R.create1 s ts).map fun v => (true, v) := by
  unfold applyReplace
  cases hm : m k with
  | none => rfl
  | some v =>
    have : R.marker v = true := by
      cases hv : R.marker v
      · exact absurd ⟨hm, hv⟩ (h v)
      · rfl
    simp [this]

theorem applyReplace_live {R : Rows V} {m : Bytes → Option V} {k : Bytes} {old : V} (h : Live R m k old) (s : Bytes)
    (ts : BitVec 64) : applyReplace R (m k) s ts = (R.create1 s ts).map fun v => (false, v) := by
  unfold applyReplace
  rw [h.1]
  simp [h.2]

theorem runGet_live {R : Rows V} {L : Nat} {t : T V} {m : Bytes → Option V} (h : Holds L t m) {k : Bytes} {v : V}
    (hl : Live R m k v) (seq c : Json) (args : List Json) :
    runGet R t (seq :: c :: .str k :: args) =
      match allSome (args.map asI) with
      | none => none
      | some cs => (columns R v (cs.map R.index)).map fun vs => seq :: c :: vs := by
  unfold runGet
  simp only [el, List.getD_cons_succ, List.getD_cons_zero, asS, h.2 k, hl.1, hl.2, List.drop_succ_cons, List.drop_zero,
    emitFields, resize_two, List.cons_append, List.nil_append, Bool.false_eq_true, if_false]
  rfl

theorem runGet_absent {R : Rows V} {L : Nat} {t : T V} {m : Bytes → Option V} (h : Holds L t m) {k : Bytes}
    (ha : Absent R m k) (seq c : Json) (args : List Json) :
    runGet R t (seq :: c :: .str k :: args) = some (seq :: c :: .str k :: args) := by
  unfold runGet
  simp only [el, List.getD_cons_succ, List.getD_cons_zero, asS, h.2 k]
  cases hm : m k with
  | none => rfl
  | some v =>
    have : R.marker v = true := by
      cases hv : R.marker v
      · exact absurd ⟨hm, hv⟩ (ha v)
      · rfl
    simp [this]

theorem runScanReq_eq {R : Rows V} {E : Env} {fuel : Nat} {t : T V} (seq c lim : Json) (first : Bytes) (args : List Json)
    {n : Int} {cs : List Int} (h1 : asI lim = some n) (h2 : args.map asI = cs.map some) (h3 : 0 < n)
    (h4 : first.length ≤ 256) :
    runScanReq R E fuel t (seq :: c :: .str first :: lim :: args) =
      match Scan.runScan .fwd R.marker (emitFields1 R (cs.map R.index)) E.fresh t first (E.fresh (256 - first.length))
          E.old (int32 n) fuel with
      | .fin q _ =>
        (allSome (q.reply.map fun e => e.2.map fun j => (e.1, j))).map fun l => seq :: c :: flat l
      | _ => none := by
  unfold runScanReq
  simp only [el, List.getD_cons_succ, List.getD_cons_zero, asS, h1, List.drop_succ_cons, List.drop_zero, allSome_eq.2 h2]
  rw [if_neg (by omega)]
  simp only [resize_two, List.cons_append, List.nil_append]
  rfl

/-! ### The answers -/

/-- Every request that the specification answers gets exactly that answer, whatever the scan buffers
hold, and the table then holds the map that the specification gives. -/
theorem answered {R : Rows V} {E : Env} (hf : ∀ n, (E.fresh n).length = n) {t : T V} {m m' : Bytes → Option V}
    (h : Holds 256 t m) {req reply : List Json} (hk : (storedKey req).length ≤ 256)
    (ha : Answer R E.ts m req reply m') :
    ∃ N, ∀ fuel, N ≤ fuel → ∃ t', onego R E fuel t req = .done true reply t' ∧ Holds 256 t' m' := by
  have stored : ∀ {n : Int} {seq c : Json} {k : Bytes} {rest : List Json}, Command c n → n = 6 ∨ n = 8 →
      storedKey (seq :: c :: .str k :: rest) = k := by
    rintro n seq c k rest ⟨x, h1, h2⟩ hn
    simp [storedKey, el, h1, asS, h2, hn]
  cases ha with
  | get seq c k v args cs vals hc hl h1 h2 =>
    refine ⟨0, fun fuel _ => ⟨t, ?_, h⟩⟩
    rw [onego_get hc, runGet_live h hl, allSome_eq.2 h1]
    simp only [cols_iff.2 ⟨vals, h2, rfl⟩, Option.map_some, ofOption]
    simp [finish, put]
  | missing seq c k args hc hab =>
    refine ⟨0, fun fuel _ => ⟨t, ?_, h⟩⟩
    rw [onego_get hc, runGet_absent h hab]
    simp [ofOption, finish, put]
  | scan seq c lim first args n cs L js hc h1 h2 h3 h4 h5 h6 =>
    obtain ⟨L', q, cnt, N, g1, g2, g3⟩ := scan_spec h R E hf (emitFields1 R (cs.map R.index)) h3 (int32 n)
    obtain rfl := h5.unique g1
    refine ⟨N, fun fuel hfuel => ⟨t, ?_, h⟩⟩
    obtain ⟨l, g4, rfl⟩ := pairs_iff.2 h6
    rw [onego_scan hc, runScanReq_eq seq c lim first args h1 h4 h2 h3, g2 fuel hfuel]
    simp only [g3, List.map_map, Function.comp_def, g4, Option.map_some, ofOption]
    simp [finish, put]
  | insert seq c k v args hc h1 h2 hab h3 =>
    rw [stored hc (.inl rfl)] at hk
    obtain ⟨_, g⟩ := runUpdate_spec h hk fun old => applyPut R old args E.ts
    obtain ⟨t', g1, g2⟩ := g true v (by rw [applyPut_absent hab, h3]; rfl)
    refine ⟨0, fun fuel _ => ⟨t', ?_, g2⟩⟩
    have hl := List.length_pos_iff.2 h1
    rw [onego_put hc (by simp only [List.length_cons]; omega) (by simp only [List.length_cons]; omega)]
    simp only [el, List.getD_cons_zero, asS, List.drop_succ_cons, List.drop_zero, g1, ofOption, resize_put, finish_three]
    rfl
  | update seq c k old v args hc h1 h2 hab h3 =>
    rw [stored hc (.inl rfl)] at hk
    obtain ⟨_, g⟩ := runUpdate_spec h hk fun old => applyPut R old args E.ts
    obtain ⟨t', g1, g2⟩ := g false v (by rw [applyPut_live hab, h3]; rfl)
    refine ⟨0, fun fuel _ => ⟨t', ?_, g2⟩⟩
    have hl := List.length_pos_iff.2 h1
    rw [onego_put hc (by simp only [List.length_cons]; omega) (by simp only [List.length_cons]; omega)]
    simp only [el, List.getD_cons_zero, asS, List.drop_succ_cons, List.drop_zero, g1, ofOption, resize_put, finish_three]
    rfl
  | replaceNew seq c k s v more hc hab h3 =>
    rw [stored hc (.inr rfl)] at hk
    obtain ⟨_, g⟩ := runUpdate_spec h hk fun old => applyReplace R old s E.ts
    obtain ⟨t', g1, g2⟩ := g true v (by rw [applyReplace_absent hab, h3]; rfl)
    refine ⟨0, fun fuel _ => ⟨t', ?_, g2⟩⟩
    rw [onego_replace hc]
    simp only [el, List.getD_cons_zero, List.getD_cons_succ, asS, g1, ofOption, resize_put, finish_three]
    rfl
  | replaceOld seq c k s old v more hc hab h3 =>
    rw [stored hc (.inr rfl)] at hk
    obtain ⟨_, g⟩ := runUpdate_spec h hk fun old => applyReplace R old s E.ts
    obtain ⟨t', g1, g2⟩ := g false v (by rw [applyReplace_live hab, h3]; rfl)
    refine ⟨0, fun fuel _ => ⟨t', ?_, g2⟩⟩
    rw [onego_replace hc]
    simp only [el, List.getD_cons_zero, List.getD_cons_succ, asS, g1, ofOption, resize_put, finish_three]
    rfl
  | remove seq c k more hc =>
    obtain ⟨t', gc, g1, g2⟩ := remove_spec h k
    refine ⟨0, fun fuel _ => ⟨t', ?_, g2⟩⟩
    rw [onego_remove hc]
    simp only [el, List.getD_cons_zero, asS, g1, ofOption, resize_put, finish_three]
    rfl
  | checkpoint seq c more hc => exact ⟨0, fun fuel _ => ⟨t, onego_checkpoint hc, h⟩⟩

/-- Conversely the server gives no other answers. -/
theorem answers {R : Rows V} {E : Env} (hf : ∀ n, (E.fresh n).length = n) {fuel : Nat} {t t' : T V}
    {m : Bytes → Option V} (h : Holds 256 t m) {req reply : List Json} (hk : (storedKey req).length ≤ 256)
    (ho : onego R E fuel t req = .done true reply t') :
    ∃ m', Answer R E.ts m req reply m' ∧ Holds 256 t' m' := by
  cases hc1 : asI (el req 1) with
  | none => simp [onego, hc1] at ho
  | some x =>
    obtain ⟨seq, c, rest, rfl⟩ := shape2 (asI_el hc1)
    have hx : asI c = some x := hc1
    have key : ∀ {k}, asS (el rest 0) = some k → ∃ args, rest = .str k :: args := by
      intro k hs
      have := el_asS hs
      cases rest with
      | nil => simp at this
      | cons a args => simp only [List.getElem?_cons_zero, Option.some.injEq] at this; exact ⟨args, by rw [this]⟩
    have stored : ∀ {k : Bytes} {args : List Json}, int32 x = 6 ∨ int32 x = 8 → rest = .str k :: args → k.length ≤ 256 := by
      intro k args h6 e
      subst e
      simpa [storedKey, el, hx, asS, h6] using hk
    by_cases h2 : int32 x = 2
    · have hc : Command c 2 := ⟨x, hx, h2⟩
      rw [onego_get hc] at ho
      cases hs : asS (el rest 0) with
      | none =>
        have e : asS (el (seq :: c :: rest) 2) = none := hs
        unfold runGet at ho
        rw [e] at ho
        simp [ofOption] at ho
      | some k =>
        obtain ⟨args, rfl⟩ := key hs
        rcases live_or_absent R m k with hab | ⟨v, hl⟩
        · rw [runGet_absent h hab] at ho
          simp only [ofOption, finish, put, List.length_cons, Out.done.injEq, true_and] at ho
          obtain ⟨rfl, rfl⟩ := ho
          exact ⟨m, by simpa using Answer.missing seq c k args hc hab, h⟩
        · rw [runGet_live h hl] at ho
          cases hcs : allSome (args.map asI) with
          | none => rw [hcs] at ho; simp [ofOption] at ho
          | some cs =>
            rw [hcs] at ho
            cases hcol : columns R v (cs.map R.index) with
            | none => simp [hcol, ofOption] at ho
            | some vs =>
              obtain ⟨vals, h3, rfl⟩ := cols_iff.1 hcol
              simp only [hcol, Option.map_some, ofOption, finish, put, List.length_cons, Out.done.injEq, true_and] at ho
              obtain ⟨rfl, rfl⟩ := ho
              exact ⟨m, by simpa using Answer.get seq c k v args cs vals hc hl (allSome_eq.1 hcs) h3, h⟩
    by_cases h4 : int32 x = 4
    · have hc : Command c 4 := ⟨x, hx, h4⟩
      rw [onego_scan hc] at ho
      cases hr : runScanReq R E fuel t (seq :: c :: rest) with
      | none => rw [hr] at ho; simp [ofOption] at ho
      | some r =>
        rw [hr] at ho
        have hr' := hr
        unfold runScanReq at hr'
        split at hr'
        case h_2 => simp at hr'
        case h_1 n first cs e1 e2 e3 =>
        split at hr'
        case isTrue => simp at hr'
        case isFalse hn =>
        clear hr'
        obtain ⟨args', rfl⟩ := key (k := first) e2
        have e1' : asI (el args' 0) = some n := e1
        cases args' with
        | nil => simp [el, asI] at e1'
        | cons lim args =>
          have e1'' : asI lim = some n := e1'
          have e3' : args.map asI = cs.map some := allSome_eq.1 e3
          have hl : first.length ≤ 256 := by omega
          obtain ⟨L, q, cnt, N, g1, g2, g3⟩ := scan_spec h R E hf (emitFields1 R (cs.map R.index)) hl (int32 n)
          rw [runScanReq_eq seq c lim first args e1'' e3' (by omega) hl] at hr
          split at hr
          case h_2 => simp at hr
          case h_1 q' cnt' hq =>
          have hq' := exec_more (Nat.le_max_left fuel N) hq
          have := g2 (max fuel N) (Nat.le_max_right _ _)
          unfold Scan.runScan at this
          rw [hq', Scan.Res.fin.injEq] at this
          obtain ⟨rfl, rfl⟩ := this
          rw [g3, List.map_map, Option.map_eq_some_iff] at hr
          obtain ⟨l, g4, rfl⟩ := hr
          simp only [ofOption, finish, put, List.length_cons, Out.done.injEq, true_and] at ho
          obtain ⟨rfl, rfl⟩ := ho
          exact ⟨m, by
            simpa using Answer.scan seq c lim first args n cs L _ hc e1'' (by omega) hl e3' g1 (pairs_iff.1 ⟨l, g4, rfl⟩), h⟩
    by_cases h6 : int32 x = 6 ∧ 1 < rest.length ∧ rest.length % 2 = 1
    · obtain ⟨h6, hlen, hodd⟩ := h6
      have hc : Command c 6 := ⟨x, hx, h6⟩
      rw [onego_put hc hlen hodd] at ho
      cases hs : asS (el rest 0) with
      | none => rw [hs] at ho; simp at ho
      | some k =>
        rw [hs] at ho
        obtain ⟨args, rfl⟩ := key hs
        have hne : args ≠ [] := by
          intro e; subst e; simp at hlen
        have hev : args.length % 2 = 0 := by simp only [List.length_cons] at hodd; omega
        simp only [List.drop_succ_cons, List.drop_zero] at ho
        obtain ⟨g0, g⟩ := runUpdate_spec h (stored (.inl h6) rfl) fun old => applyPut R old args E.ts
        cases hp : applyPut R (m k) args E.ts with
        | none => rw [g0 hp] at ho; simp [ofOption] at ho
        | some r =>
          obtain ⟨i, v⟩ := r
          obtain ⟨t1, g1, g2⟩ := g i v hp
          rw [g1] at ho
          simp only [ofOption, resize_put, finish_three, Out.done.injEq, true_and] at ho
          obtain ⟨rfl, rfl⟩ := ho
          rcases live_or_absent R m k with hab | ⟨old, hl⟩
          · rw [applyPut_absent hab, Option.map_eq_some_iff] at hp
            obtain ⟨v', hv, e⟩ := hp
            simp only [Prod.mk.injEq] at e
            obtain ⟨rfl, rfl⟩ := e
            exact ⟨_, .insert seq c k v' args hc hne hev hab hv, g2⟩
          · rw [applyPut_live hl, Option.map_eq_some_iff] at hp
            obtain ⟨v', hv, e⟩ := hp
            simp only [Prod.mk.injEq] at e
            obtain ⟨rfl, rfl⟩ := e
            exact ⟨_, .update seq c k old v' args hc hne hev hl hv, g2⟩
    by_cases h8 : int32 x = 8
    · have hc : Command c 8 := ⟨x, hx, h8⟩
      rw [onego_replace hc] at ho
      cases hs : asS (el rest 0) with
      | none => rw [hs] at ho; simp at ho
      | some k =>
        obtain ⟨args, rfl⟩ := key hs
        cases args with
        | nil => simp [el, asS] at ho
        | cons a more =>
          cases ha : asS a with
          | none =>
            rw [show asS (el (.str k :: a :: more) 1) = none from ha] at ho
            simp at ho
          | some s =>
            obtain rfl := asS_some ha
            simp only [el, List.getD_cons_zero, List.getD_cons_succ, asS] at ho
            obtain ⟨g0, g⟩ := runUpdate_spec h (stored (.inr h8) rfl) fun old => applyReplace R old s E.ts
            cases hp : applyReplace R (m k) s E.ts with
            | none => rw [g0 hp] at ho; simp [ofOption] at ho
            | some r =>
              obtain ⟨i, v⟩ := r
              obtain ⟨t1, g1, g2⟩ := g i v hp
              rw [g1] at ho
              simp only [ofOption, resize_put, finish_three, Out.done.injEq, true_and] at ho
              obtain ⟨rfl, rfl⟩ := ho
              rcases live_or_absent R m k with hab | ⟨old, hl⟩
              · rw [applyReplace_absent hab, Option.map_eq_some_iff] at hp
                obtain ⟨v', hv, e⟩ := hp
                simp only [Prod.mk.injEq] at e
                obtain ⟨rfl, rfl⟩ := e
                exact ⟨_, .replaceNew seq c k s v' more hc hab hv, g2⟩
              · rw [applyReplace_live hl, Option.map_eq_some_iff] at hp
                obtain ⟨v', hv, e⟩ := hp
                simp only [Prod.mk.injEq] at e
                obtain ⟨rfl, rfl⟩ := e
                exact ⟨_, .replaceOld seq c k s old v' more hc hl hv, g2⟩
    by_cases h10 : int32 x = 10
    · have hc : Command c 10 := ⟨x, hx, h10⟩
      rw [onego_remove hc] at ho
      cases hs : asS (el rest 0) with
      | none => rw [hs] at ho; simp at ho
      | some k =>
        obtain ⟨args, rfl⟩ := key hs
        obtain ⟨t1, gc, g1, g2⟩ := remove_spec h k
        simp only [el, List.getD_cons_zero, asS, g1, ofOption, resize_put, finish_three, Out.done.injEq, true_and] at ho
        obtain ⟨rfl, rfl⟩ := ho
        exact ⟨_, .remove seq c k args hc, g2⟩
    by_cases h12 : int32 x = 12
    · have hc : Command c 12 := ⟨x, hx, h12⟩
      rw [onego_checkpoint hc, Out.done.injEq] at ho
      obtain ⟨_, rfl, rfl⟩ := ho
      exact ⟨_, .checkpoint seq c rest hc, h⟩
    · rw [onego_refused ⟨seq, c, rest, int32 x, rfl, ⟨x, hx, rfl⟩, h2, h4, h8, h10, h12, fun e => by
        have := fun a b => h6 ⟨e, a, b⟩
        omega⟩] at ho
      simp at ho

/-- A refused request is answered with its sequence number and -1, and the table is not touched; no
other request gets a negative answer. -/
theorem refused {R : Rows V} {E : Env} {fuel : Nat} {t t' : T V} {req reply : List Json} :
    onego R E fuel t req = .done false reply t' ↔
      Refused req ∧ (∃ seq c rest, req = seq :: c :: rest ∧ reply = [seq, .int (-1)]) ∧ t' = t := by
  constructor
  · intro ho
    cases hc1 : asI (el req 1) with
    | none => simp [onego, hc1] at ho
    | some x =>
      obtain ⟨seq, c, rest, rfl⟩ := shape2 (asI_el hc1)
      have hx : asI c = some x := hc1
      have no : ∀ {α : Type} (f : α → Out V) (o : Option α), (∀ a r, f a ≠ .done false r t') →
          ofOption f o ≠ .done false reply t' := by
        intro α f o hf
        cases o with
        | none => simp [ofOption]
        | some a => exact hf a reply
      by_cases hR : Refused (seq :: c :: rest)
      · rw [onego_refused hR, Out.done.injEq] at ho
        exact ⟨hR, ⟨seq, c, rest, rfl, ho.2.1.symm⟩, ho.2.2.symm⟩
      · exfalso
        by_cases h2 : int32 x = 2
        · rw [onego_get ⟨x, hx, h2⟩] at ho
          exact no _ _ (by simp [finish]) ho
        by_cases h4 : int32 x = 4
        · rw [onego_scan ⟨x, hx, h4⟩] at ho
          exact no _ _ (by simp [finish]) ho
        by_cases h8 : int32 x = 8
        · rw [onego_replace ⟨x, hx, h8⟩] at ho
          split at ho
          · exact no _ _ (by simp [finish]) ho
          · simp at ho
        by_cases h10 : int32 x = 10
        · rw [onego_remove ⟨x, hx, h10⟩] at ho
          split at ho
          · simp at ho
          · exact no _ _ (by simp [finish]) ho
        by_cases h12 : int32 x = 12
        · rw [onego_checkpoint ⟨x, hx, h12⟩] at ho
          simp at ho
        by_cases h6 : int32 x = 6 ∧ 1 < rest.length ∧ rest.length % 2 = 1
        · rw [onego_put ⟨x, hx, h6.1⟩ h6.2.1 h6.2.2] at ho
          split at ho
          · simp at ho
          · exact no _ _ (by simp [finish]) ho
        · refine hR ⟨seq, c, rest, int32 x, rfl, ⟨x, hx, rfl⟩, h2, h4, h8, h10, h12, fun e => ?_⟩
          have := fun a b => h6 ⟨e, a, b⟩
          omega
  · rintro ⟨hR, ⟨seq, c, rest, rfl, rfl⟩, rfl⟩
    exact onego_refused hR

end Verif.Props.C35
