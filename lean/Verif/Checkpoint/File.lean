import Verif.Checkpoint.Rows
import Verif.Scan.Initial

/-!
# Checkpoints: part files
-/
namespace Verif.Checkpoint
open Verif.Key (Byte Bytes LexLt)
open Verif.Msgpack
variable {H R A : Type}

theorem before_spec (endkey key : Bytes) : before endkey key = true ↔ endkey = [] ∨ LexLt key endkey := by
  have h := Scan.cmpBytes_spec key endkey
  unfold before
  cases endkey with
  | nil => simp
  | cons b bs =>
    simp only [List.isEmpty_cons, Bool.not_false, Bool.true_and, Bool.not_eq_true', decide_eq_false_iff_not, reduceCtorEq,
      false_or]
    rw [← h.1]; omega

/-- The entries that belong in the file: those before the end key that are not markers. -/
def picked (f : Format H R) (endkey : Bytes) (l : List (Bytes × R)) : List (Bytes × R) :=
  l.filter fun e => before endkey e.1 && !isMarker (f.ts e.2)

theorem picked_cons (f : Format H R) (endkey : Bytes) (e : Bytes × R) (l : List (Bytes × R)) :
    picked f endkey (e :: l) = if before endkey e.1 && !isMarker (f.ts e.2) then e :: picked f endkey l else picked f endkey l := by
  unfold picked
  rw [List.filter_cons]

/-- The bytes of an entry. -/
def entryBytes (f : Format H R) (h : H) (e : Bytes × R) : Bytes :=
  writeString e.1 ++ writeWide (f.ts e.2) ++ (f.write h e.2).getD []

theorem visits {f : Format H R} {view : H → R → A} {good : H → R → Prop} (hf : Lawful f view good) (h : H) (endkey : Bytes) :
    ∀ (l : List (Bytes × R)) (vals : Bytes) (count : Nat), (∀ e ∈ l, good h e.2) →
      l.foldl (fun s e => (visit f h endkey s e.1 e.2).1) (some (vals, count)) =
        some (vals ++ (picked f endkey l).flatMap (entryBytes f h), count + (picked f endkey l).length)
  | [], vals, count, _ => by simp [picked]
  | e :: l, vals, count, hg => by
    have ih := fun v c => visits hf h endkey l v c (fun x hx => hg x (by simp [hx]))
    rw [List.foldl_cons, picked_cons]
    by_cases hb : before endkey e.1 = true
    · by_cases hm : isMarker (f.ts e.2) = true
      · have hv : (visit f h endkey (some (vals, count)) e.1 e.2).1 = some (vals, count) := by
          unfold visit; rw [if_pos hb, if_pos hm]
        rw [hv, ih, hb, hm]; rfl
      · obtain ⟨w, hw, _⟩ := hf.round h e.2 (hg e (by simp))
        have he : entryBytes f h e = writeString e.1 ++ writeWide (f.ts e.2) ++ w := by unfold entryBytes; rw [hw]; rfl
        have hv : (visit f h endkey (some (vals, count)) e.1 e.2).1 = some (vals ++ entryBytes f h e, count + 1) := by
          unfold visit; rw [if_pos hb, if_neg hm, he]
          dsimp only [Option.bind_some]
          rw [hw]; rfl
        rw [hv, ih, hb, Bool.not_eq_true _ |>.mp hm]
        simp only [Bool.not_false, Bool.and_self, if_true, List.flatMap_cons, List.length_cons, List.append_assoc]
        congr 2; omega
    · have hv : (visit f h endkey (some (vals, count)) e.1 e.2).1 = some (vals, count) := by
        unfold visit; rw [if_neg hb]
      rw [hv, ih, Bool.not_eq_true _ |>.mp hb]; rfl

theorem readInt_writeWide (x : BitVec 64) (rest : Bytes) : readInt (writeWide x ++ rest) = some ((x.toNat : Int), rest) := by
  have h := readInt_writeU64 (x := x.toNat) x.isLt rest
  unfold writeWide
  show (takeN 8 (be 8 x.toNat ++ rest)).map (fun (v, r) => ((unbe v : Int), r)) = _
  have := readLen_be (k := 8) (x := x.toNat) x.isLt rest
  unfold readLen at this
  cases ht : takeN 8 (be 8 x.toNat ++ rest) with
  | none => rw [ht] at this; cases this
  | some p =>
    rw [ht] at this
    simp only [Option.map_some, Option.some.injEq, Prod.mk.injEq] at this ⊢
    exact ⟨by rw [this.1], this.2⟩

theorem reads {f : Format H R} {view : H → R → A} {good : H → R → Prop} (hf : Lawful f view good) (h : H) :
    ∀ (l : List (Bytes × R)) (h' : H) (rest : Bytes), (∀ e ∈ l, good h e.2 ∧ e.1.length < 2147483648) →
      ∃ l' h'', readEntries f l.length h' (l.flatMap (entryBytes f h) ++ rest) = some (l', h'', rest) ∧
        l'.map (fun e => (e.1, view h'' e.2)) = l.map (fun e => (e.1, view h e.2)) ∧ (∀ e ∈ l', good h'' e.2) ∧
        ∀ x, good h' x → good h'' x ∧ view h'' x = view h' x
  | [], h', rest, _ => ⟨[], h', rfl, rfl, fun _ he => by simp at he, fun x hx => ⟨hx, rfl⟩⟩
  | e :: l, h', rest, hg => by
    obtain ⟨ge, gk⟩ := hg e (by simp)
    obtain ⟨w, hw, hr⟩ := hf.round h e.2 ge
    obtain ⟨r, h1, r1, r2, r3, r4⟩ := hr h' (l.flatMap (entryBytes f h) ++ rest)
    obtain ⟨l', h'', i1, i2, i3, i4⟩ := reads hf h l h1 rest (fun x hx => hg x (by simp [hx]))
    refine ⟨(e.1, r) :: l', h'', ?_, ?_, ?_, fun x hx => ⟨(i4 x (r4 x hx).1).1, by rw [(i4 x (r4 x hx).1).2, (r4 x hx).2]⟩⟩
    · have he : entryBytes f h e = writeString e.1 ++ (writeWide (f.ts e.2) ++ w) := by
        unfold entryBytes; rw [hw, List.append_assoc]; rfl
      rw [List.flatMap_cons, he, List.length_cons]
      unfold readEntries readEntry
      rw [List.append_assoc, List.append_assoc, List.append_assoc, readStr_writeString gk]
      dsimp only [Option.bind_some]
      rw [readInt_writeWide]
      dsimp only [Option.bind_some]
      rw [BitVec.ofInt_natCast, BitVec.ofNat_toNat, BitVec.setWidth_eq, r1]
      dsimp only [Option.bind_some, Option.map_some]
      rw [i1]; rfl
    · rw [List.map_cons, List.map_cons, i2]
      congr 2
      rw [(i4 r r3).2, r2]
    · intro x hx
      rcases List.mem_cons.mp hx with rfl | hx
      · exact (i4 r r3).1
      · exact i3 x hx

/-- Reading by blocks of 4096 bytes gives what feeding the whole input to the parser gives. -/
theorem readJsonFrom_feed : ∀ (n : Nat) {sp : SP} {bs left : Bytes} {j : Json} {st : List Frame}, sp.Ok →
    sp.mode.done = false → bs.length < n → sp.feed bs = (⟨.final j, st⟩, left) → readJsonFrom n sp bs = some (j, left)
  | 0, _, _, _, _, _, _, _, hn, _ => absurd hn (Nat.not_lt_zero _)
  | n + 1, sp, bs, left, j, st, hok, hnd, hn, hf => by
    have hne : bs ≠ [] := by
      rintro rfl
      rw [feed_nil] at hf
      have h1 := congrArg (fun x : SP × Bytes => x.1.mode.done) hf
      rw [hnd] at h1; cases h1
    have hne' : bs.take 4096 ≠ [] := by
      cases bs with
      | nil => exact absurd rfl hne
      | cons b bs => rw [List.take_succ_cons]; simp
    obtain ⟨ok', pr⟩ := consume_facts hok hnd (bs.take 4096) hne'
    have hb := feed_append hok (bs.take 4096) (bs.drop 4096)
    rw [List.take_append_drop, feed_step hok hnd hne', ← feed_append ok', hf] at hb
    unfold readJsonFrom
    generalize hc : sp.consume (bs.take 4096) = c at ok' pr hb
    obtain ⟨⟨m, st'⟩, l'⟩ := c
    dsimp only at ok' pr hb
    have hlen : (bs.take 4096).length + (bs.drop 4096).length = bs.length := by
      rw [← List.length_append, List.take_append_drop]
    have go (hm : (⟨m, st'⟩ : SP).mode.done = false) : readJsonFrom n ⟨m, st'⟩ (l' ++ bs.drop 4096) = some (j, left) := by
      rcases pr with pr | pr
      · exact readJsonFrom_feed n ok' hm (by rw [List.length_append]; omega) hb.symm
      · rw [hm] at pr; cases pr
    cases m with
    | final j' =>
      rw [feed_done rfl] at hb
      cases hb
      rfl
    | error => rw [feed_done rfl] at hb; cases hb
    | ub => rw [feed_done rfl] at hb; cases hb
    | normal => dsimp only; rw [if_neg (by rintro (h | h); cases h; exact hne h)]; exact go rfl
    | part b => dsimp only; rw [if_neg (by rintro (h | h); cases h; exact hne h)]; exact go rfl
    | string k b => dsimp only; rw [if_neg (by rintro (h | h); cases h; exact hne h)]; exact go rfl

/-- A value is read back from its encoding, however many blocks the encoding takes. -/
theorem readJson_enc {j : Json} (hj : j.Fits) (rest : Bytes) : readJson (enc j ++ rest) = some (j.back, rest) := by
  have hi : SP.init.Ok := trivial
  have hne : enc j ++ rest ≠ [] := by
    intro h
    have h1 : run [] (enc j ++ rest) = _ := consume_enc hj rest
    rw [h, run_nil] at h1
    cases h1
  refine readJsonFrom_feed _ (st := []) hi rfl (Nat.lt_succ_self _) ?_
  rw [feed_step hi rfl hne, consume_enc hj, feed_done rfl]

theorem asU64_back {x : Nat} (h : x < 18446744073709551616) : asU64 (Json.uint x).back = some x := by
  show asU64 (readUint x) = some x
  unfold readUint
  split
  · show some ((x : Int) % 18446744073709551616).toNat = some x
    congr 1; omega
  · show some (x % 18446744073709551616) = some x
    rw [Nat.mod_eq_of_lt h]

theorem header_fits {gen count : Nat} {startkey : Bytes} (hg : gen < 18446744073709551616) (hc : count < 18446744073709551616)
    (hs : startkey.length < 2147483648) : (header gen count startkey).Fits := by
  simp only [header, Json.Fits, FitsItems]
  refine ⟨(by decide : 3 < 2147483648), (by decide : [ascii "generation", ascii "size", ascii "firstkey"].Nodup), ⟨by decide, hg, by decide, hc, by decide, by omega, trivial⟩⟩

/-- What is read back from a part file. -/
theorem readPart_partFile {f : Format H R} {view : H → R → A} {good : H → R → Prop} (hf : Lawful f view good) (h h' : H)
    {gen : Nat} (hg : gen < 18446744073709551616) {startkey : Bytes} (hs : startkey.length < 2147483648)
    {l : List (Bytes × R)} (hl : ∀ e ∈ l, good h e.2 ∧ e.1.length < 2147483648) (hn : l.length < 18446744073709551616) :
    ∃ l' h'', readPart f h' (partFile gen startkey (l.flatMap (entryBytes f h), l.length)) = some (gen, l', h'') ∧
        l'.map (fun e => (e.1, view h'' e.2)) = l.map (fun e => (e.1, view h e.2)) ∧ (∀ e ∈ l', good h'' e.2) ∧
        ∀ x, good h' x → good h'' x ∧ view h'' x = view h' x := by
  have g1 := header_fits hg hn hs
  obtain ⟨l', h'', r1, r2⟩ := reads hf h l h' [] hl
  rw [List.append_nil] at r1
  refine ⟨l', h'', ?_, r2⟩
  unfold readPart partFile
  rw [readJson_enc g1]
  dsimp only [Option.bind_some]
  have e1 : field (header gen l.length startkey).back (ascii "generation") = (Json.uint gen).back := rfl
  have e2 : field (header gen l.length startkey).back (ascii "size") = (Json.uint l.length).back := rfl
  rw [e1, e2, asU64_back hg]
  dsimp only [Option.bind_some]
  rw [asU64_back hn]
  dsimp only [Option.bind_some]
  rw [r1]; rfl

end Verif.Checkpoint
