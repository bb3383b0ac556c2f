import Verif.Msgpack.Parser
import Mathlib.Tactic.IntervalCases

/-!
# What the decoder accepts

The wire format as a grammar: which byte strings are a message, and the value of each.  An integer or a length may be
sent in more bytes than it needs.  The theorems say that the streaming parser accepts exactly these messages.
-/
namespace Verif.Msgpack
open Verif.Key (Byte Bytes)

/-- The bytes of an item up to the end of its number or length. -/
inductive Header : Tok → Bytes → Prop where
  | pos (x : Nat) (h : x < 128) : Header (.prim (.int x)) [UInt8.ofNat x]
  | neg (x : Nat) (h : 0 < x) (h' : x ≤ 32) : Header (.prim (.int (-x))) [UInt8.ofNat (256 - x)]
  | null : Header (.prim .null) [0xC0]
  | no : Header (.prim (.bool false)) [0xC2]
  | yes : Header (.prim (.bool true)) [0xC3]
  | fixmap (n : Nat) (h : n < 16) : Header (.map n) [UInt8.ofNat (0x80 + n)]
  | fixarr (n : Nat) (h : n < 16) : Header (.arr n) [UInt8.ofNat (0x90 + n)]
  | fixstr (n : Nat) (h : n < 32) : Header (.raw n) [UInt8.ofNat (0xA0 + n)]
  | f32 (b : Bytes) (h : b.length = 4) : Header (.prim (.dbl (widen (unbe b)))) (0xCA :: b)
  | f64 (b : Bytes) (h : b.length = 8) : Header (.prim (.dbl (unbe b))) (0xCB :: b)
  | u8 (b : Bytes) (h : b.length = 1) : Header (.prim (.int (unbe b))) (0xCC :: b)
  | u16 (b : Bytes) (h : b.length = 2) : Header (.prim (.int (unbe b))) (0xCD :: b)
  | u32 (b : Bytes) (h : b.length = 4) : Header (.prim (.uint (unbe b))) (0xCE :: b)
  | u64 (b : Bytes) (h : b.length = 8) : Header (.prim (.uint (unbe b))) (0xCF :: b)
  | i8 (b : Bytes) (h : b.length = 1) : Header (.prim (.int (sunbe b))) (0xD0 :: b)
  | i16 (b : Bytes) (h : b.length = 2) : Header (.prim (.int (sunbe b))) (0xD1 :: b)
  | i32 (b : Bytes) (h : b.length = 4) : Header (.prim (.int (sunbe b))) (0xD2 :: b)
  | i64 (b : Bytes) (h : b.length = 8) : Header (.prim (.int (sunbe b))) (0xD3 :: b)
  | bin8 (b : Bytes) (h : b.length = 1) : Header (.raw (unbe b)) (0xC4 :: b)
  | bin16 (b : Bytes) (h : b.length = 2) : Header (.raw (unbe b)) (0xC5 :: b)
  | bin32 (b : Bytes) (h : b.length = 4) : Header (.raw (unbe b)) (0xC6 :: b)
  | str8 (b : Bytes) (h : b.length = 1) : Header (.raw (unbe b)) (0xD9 :: b)
  | str16 (b : Bytes) (h : b.length = 2) : Header (.raw (unbe b)) (0xDA :: b)
  | str32 (b : Bytes) (h : b.length = 4) : Header (.raw (unbe b)) (0xDB :: b)
  | arr16 (b : Bytes) (h : b.length = 2) : Header (.arr (unbe b)) (0xDC :: b)
  | arr32 (b : Bytes) (h : b.length = 4) : Header (.arr (unbe b)) (0xDD :: b)
  | map16 (b : Bytes) (h : b.length = 2) : Header (.map (unbe b)) (0xDE :: b)
  | map32 (b : Bytes) (h : b.length = 4) : Header (.map (unbe b)) (0xDF :: b)

/-- An object key: a string, or an integer in decimal. -/
inductive KeyWire : Bytes → Bytes → Prop where
  | str (hd k : Bytes) (h : Header (.raw k.length) hd) (hk : k.length < 2 ^ 31) : KeyWire k (hd ++ k)
  | int (x : Int) (hd : Bytes) (h : Header (.prim (.int x)) hd) : KeyWire (intString x) hd
  | uint (x : Nat) (hd : Bytes) (h : Header (.prim (.uint x)) hd) : KeyWire (digits x) hd

mutual
/-- `Wire j bs`: the bytes are a message with value `j`. -/
inductive Wire : Json → Bytes → Prop where
  | prim (j : Json) (hd : Bytes) (h : Header (.prim j) hd) : Wire j hd
  | str (hd s : Bytes) (h : Header (.raw s.length) hd) (hs : s.length < 2 ^ 31) : Wire (.str s) (hd ++ s)
  | arr (l : List Json) (hd bs : Bytes) (h : Header (.arr l.length) hd) (hl : l.length < 2 ^ 31) (hb : WireList l bs) :
      Wire (.arr l) (hd ++ bs)
  | obj (n : Nat) (l : List (Bytes × Json)) (hd bs : Bytes) (h : Header (.map n) hd) (hl : n < 2 ^ 31)
      (hb : WireItems [] n l bs) : Wire (.obj l) (hd ++ bs)
/-- The elements of an array. -/
inductive WireList : List Json → Bytes → Prop where
  | nil : WireList [] []
  | cons (j : Json) (l : List Json) (b bs : Bytes) (h : Wire j b) (hl : WireList l bs) : WireList (j :: l) (b ++ bs)
/-- `n` further items of an object that has the items `l`.  An item with a key seen before replaces the earlier one. -/
inductive WireItems : List (Bytes × Json) → Nat → List (Bytes × Json) → Bytes → Prop where
  | nil (l : List (Bytes × Json)) : WireItems l 0 l []
  | cons (l l' : List (Bytes × Json)) (n : Nat) (k kb : Bytes) (v : Json) (vb bs : Bytes) (hk : KeyWire k kb) (hv : Wire v vb)
      (hr : WireItems (setKey l k v) n l' bs) : WireItems l (n + 1) l' (kb ++ vb ++ bs)
end

/-! ### Headers -/

theorem ofNat_toNat (b : Byte) : UInt8.ofNat b.toNat = b := by simp

theorem short_header {b : Byte} {t : Tok} (h : short b = some t) : Header t [b] := by
  have hb : b.toNat < 256 := b.toNat_lt
  unfold short at h
  dsimp only at h
  have e := ofNat_toNat b
  generalize hx : b.toNat = x at h hb e
  subst e
  split at h
  · cases h; exact .pos x ‹_›
  split at h
  · cases h
    have := Header.neg (256 - x) (by omega) (by omega)
    rw [show (256 - (256 - x)) = x by omega] at this
    rw [show ((x : Int) - 256) = -((256 - x : Nat) : Int) by omega]
    exact this
  split at h
  · cases h; subst_vars; exact .null
  split at h
  · cases h; subst_vars; exact .no
  split at h
  · cases h; subst_vars; exact .yes
  split at h
  · cases h
    have := Header.fixmap (x - 0x80) (by omega)
    rwa [show 0x80 + (x - 0x80) = x by omega] at this
  split at h
  · cases h
    have := Header.fixarr (x - 0x90) (by omega)
    rwa [show 0x90 + (x - 0x90) = x by omega] at this
  split at h
  · cases h
    have := Header.fixstr (x - 0xA0) (by omega)
    rwa [show 0xA0 + (x - 0xA0) = x by omega] at this
  · cases h

theorem len_of {a x k : Nat} (h : a + 1 = x) (e : x = k + 1) : a = k := by omega

theorem long_header : ∀ (b : Byte), short b = none → nbytes b ≠ 0 → ∀ bs : Bytes, bs.length + 1 = nbytes b →
    Header (long b bs) (b :: bs) := by
  intro b h1 h2 bs h3
  have hb : b.toNat < 256 := b.toNat_lt
  have hlo : 0xC4 ≤ b.toNat ∧ b.toNat ≤ 0xDF := by
    constructor
    · by_contra hc
      unfold short at h1
      dsimp only at h1
      split at h1; · cases h1
      split at h1; · cases h1
      split at h1; · cases h1
      split at h1; · cases h1
      split at h1; · cases h1
      split at h1; · cases h1
      split at h1; · cases h1
      split at h1; · cases h1
      have : b.toNat = 0xC1 := by omega
      apply h2
      unfold nbytes
      rw [this]
      rfl
    · by_contra hc
      unfold short at h1
      dsimp only at h1
      rw [if_neg (by omega), if_pos (by omega)] at h1
      cases h1
  have e := ofNat_toNat b
  generalize hx : b.toNat = x at hb e hlo
  subst e
  have hxx : x ∈ List.range' 0xC4 28 := by rw [List.mem_range'_1]; omega
  clear hx h1
  rcases List.mem_range'.1 hxx with ⟨i, hi, rfl⟩
  interval_cases i
  all_goals first
    | (exfalso; apply h2; decide)
    | skip
  · exact .bin8 bs (len_of h3 (by decide))
  · exact .bin16 bs (len_of h3 (by decide))
  · exact .bin32 bs (len_of h3 (by decide))
  · exact .f32 bs (len_of h3 (by decide))
  · exact .f64 bs (len_of h3 (by decide))
  · exact .u8 bs (len_of h3 (by decide))
  · exact .u16 bs (len_of h3 (by decide))
  · exact .u32 bs (len_of h3 (by decide))
  · exact .u64 bs (len_of h3 (by decide))
  · exact .i8 bs (len_of h3 (by decide))
  · exact .i16 bs (len_of h3 (by decide))
  · exact .i32 bs (len_of h3 (by decide))
  · exact .i64 bs (len_of h3 (by decide))
  · exact .str8 bs (len_of h3 (by decide))
  · exact .str16 bs (len_of h3 (by decide))
  · exact .str32 bs (len_of h3 (by decide))
  · exact .arr16 bs (len_of h3 (by decide))
  · exact .arr32 bs (len_of h3 (by decide))
  · exact .map16 bs (len_of h3 (by decide))
  · exact .map32 bs (len_of h3 (by decide))

/-- Every header has the effect the parser gives it. -/
theorem head_of_header {t : Tok} {hd : Bytes} (h : Header t hd) :
    ∃ b tl, hd = b :: tl ∧ ∀ rest : Bytes, head b (tl ++ rest) = .tok t tl.length := by
  have sh : ∀ {b : Byte} {t : Tok}, short b = some t → ∀ rest : Bytes, head b ([] ++ rest) = .tok t ([] : Bytes).length := by
    intro b t hs rest
    unfold head
    rw [hs]; rfl
  have lo : ∀ (b : Byte) (bs : Bytes), short b = none → nbytes b = bs.length + 1 → bs ≠ [] →
      ∀ rest : Bytes, head b (bs ++ rest) = .tok (long b bs) bs.length := fun b bs hs hn hne rest => by
    exact head_long hs hn hne rest
  cases h with
  | pos x h => exact ⟨_, [], rfl, sh (short_fix h)⟩
  | neg x h h' =>
    refine ⟨_, [], rfl, sh ?_⟩
    rw [short_neg (by omega) (by omega)]
    congr 3; omega
  | null => exact ⟨_, [], rfl, sh rfl⟩
  | no => exact ⟨_, [], rfl, sh rfl⟩
  | yes => exact ⟨_, [], rfl, sh rfl⟩
  | fixmap n h =>
    refine ⟨_, [], rfl, sh ?_⟩
    interval_cases n <;> rfl
  | fixarr n h =>
    refine ⟨_, [], rfl, sh ?_⟩
    interval_cases n <;> rfl
  | fixstr n h =>
    refine ⟨_, [], rfl, sh ?_⟩
    interval_cases n <;> rfl
  | _ b h => exact ⟨_, b, rfl, lo _ b (by decide) (by rw [h]; decide) (by intro e; rw [e] at h; cases h)⟩

theorem header_of_head {b : Byte} {bs : Bytes} {t : Tok} {k : Nat} (h : head b bs = .tok t k) :
    Header t (b :: bs.take k) ∧ k ≤ bs.length := by
  unfold head at h
  split at h
  · rename_i t' hs
    cases h
    exact ⟨by simpa using short_header hs, Nat.zero_le _⟩
  · rename_i hs
    split at h
    · cases h
    split at h
    · cases h
    rename_i h1 h2
    cases h
    refine ⟨long_header b hs h1 _ ?_, by omega⟩
    rw [List.length_take]
    omega

/-! ### Messages are accepted -/

/-- What the parser does with the string after a header. -/
def rawStep (st : List Frame) (n : Nat) (rest : Bytes) : SP × Bytes :=
  if rest.length < n then (⟨.string n rest, st⟩, []) else cont (deliver st (.str (rest.take n))) (rest.drop n)

theorem run_tok {b : Byte} {bs : Bytes} {t : Tok} {k : Nat} (h : head b bs = .tok t k) (st : List Frame) :
    run st (b :: bs) = match act st t with
      | some sp => cont sp (bs.drop k)
      | none => rawStep st (rawLen t) (bs.drop k) := by
  rw [run_cons, h]
  rfl

theorem run_header {t : Tok} {hd : Bytes} (h : Header t hd) (st : List Frame) (rest : Bytes) :
    run st (hd ++ rest) =
      match act st t with
      | some sp => cont sp rest
      | none => rawStep st (rawLen t) rest := by
  obtain ⟨b, tl, rfl, hh⟩ := head_of_header h
  rw [List.cons_append, run_tok (hh rest), List.drop_left]

theorem run_raw {n : Nat} {hd s : Bytes} (h : Header (.raw n) hd) (hs : s.length = n) (hn : n < 2 ^ 31) (st : List Frame) (rest : Bytes) :
    run st (hd ++ s ++ rest) = cont (deliver st (.str s)) rest := by
  rw [List.append_assoc, run_header h]
  have : act st (.raw n) = none := if_pos hn
  rw [this]
  show rawStep st n (s ++ rest) = _
  subst hs
  unfold rawStep
  rw [if_neg (by simp), List.take_left, List.drop_left]

theorem run_key {k kb : Bytes} (h : KeyWire k kb) (done : List (Bytes × Json)) (left : Nat) (st : List Frame) (rest : Bytes) :
    run (.key done left :: st) (kb ++ rest) = run (.val done k left :: st) rest := by
  cases h with
  | str hd k h hk => exact run_raw h rfl hk _ rest
  | int x hd h => exact run_header h _ rest
  | uint x hd h => exact run_header h _ rest

theorem cont_openArr {st : List Frame} (hk : NotKey st) {n : Nat} (hn : n ≠ 0) (rest : Bytes) :
    cont (openArr st n) rest = run (.arr [] (n - 1) :: st) rest := by
  rw [openArr_notKey hk]
  cases n with
  | zero => exact absurd rfl hn
  | succ n => rfl

theorem cont_openMap {st : List Frame} (hk : NotKey st) {n : Nat} (hn : n ≠ 0) (rest : Bytes) :
    cont (openMap st n) rest = run (.key [] (n - 1) :: st) rest := by
  rw [openMap_notKey hk]
  cases n with
  | zero => exact absurd rfl hn
  | succ n => rfl

theorem cont_place_arr {n : Nat} (hn : n ≠ 0) (done : List Json) (st : List Frame) (j : Json) (rest : Bytes) :
    cont (place (.arr done n :: st) j) rest = run (.arr (done ++ [j]) (n - 1) :: st) rest := by
  cases n with
  | zero => exact absurd rfl hn
  | succ n => rfl

theorem cont_place_val {n : Nat} (hn : n ≠ 0) (done : List (Bytes × Json)) (k : Bytes) (st : List Frame) (j : Json) (rest : Bytes) :
    cont (place (.val done k n :: st) j) rest = run (.key (setKey done k j) (n - 1) :: st) rest := by
  cases n with
  | zero => exact absurd rfl hn
  | succ n => rfl

mutual
theorem run_wire : ∀ {j : Json} {bs : Bytes}, Wire j bs → ∀ (st : List Frame), NotKey st → ∀ rest : Bytes,
    run st (bs ++ rest) = cont (place st j) rest
  | _, _, .prim j hd h, st, hk, rest => by
    rw [run_header h, ← deliver_notKey hk]; rfl
  | _, _, .str hd s h hs, st, hk, rest => by
    rw [run_raw h rfl hs, deliver_notKey hk]
  | _, _, .arr l hd bs h hl hb, st, hk, rest => by
    rw [List.append_assoc, run_header h]
    have ha : act st (.arr l.length) = some (openArr st l.length) := congrArg some (if_pos hl)
    rw [ha]
    simp only
    by_cases hne : l = []
    · subst hne
      cases hb
      rw [openArr_notKey hk]
      rfl
    · rw [cont_openArr hk (by simpa using hne)]
      exact run_wires hb hne [] st rest
  | _, _, .obj n l hd bs h hl hb, st, hk, rest => by
    rw [List.append_assoc, run_header h]
    have ha : act st (.map n) = some (openMap st n) := congrArg some (if_pos hl)
    rw [ha]
    simp only
    by_cases hne : n = 0
    · subst hne
      cases hb
      rw [openMap_notKey hk]
      rfl
    · rw [cont_openMap hk hne]
      exact run_items hb (by omega) st rest
theorem run_wires : ∀ {l : List Json} {bs : Bytes}, WireList l bs → l ≠ [] → ∀ (done : List Json) (st : List Frame) (rest : Bytes),
    run (.arr done (l.length - 1) :: st) (bs ++ rest) = cont (place st (.arr (done ++ l))) rest
  | _, _, .nil, hne, _, _, _ => absurd rfl hne
  | _, _, .cons j l b bs h hl, _, done, st, rest => by
    have h1 := run_wire h (.arr done l.length :: st) trivial (bs ++ rest)
    rw [List.append_assoc]
    refine Eq.trans h1 ?_
    by_cases hne : l = []
    · subst hne
      cases hl
      rfl
    · have h2 := run_wires hl hne (done ++ [j]) st rest
      rw [cont_place_arr (by simpa using hne)]
      refine Eq.trans h2 ?_
      rw [List.append_assoc]; rfl
theorem run_items : ∀ {done l : List (Bytes × Json)} {m : Nat} {bs : Bytes}, WireItems done m l bs → ∀ {n : Nat}, m = n + 1 →
    ∀ (st : List Frame) (rest : Bytes), run (.key done n :: st) (bs ++ rest) = cont (place st (.obj l)) rest
  | _, _, _, _, .nil _, _, hm, _, _ => by cases hm
  | _, _, _, _, .cons done l n k kb v vb bs hk hv hr, n', hm, st, rest => by
    obtain rfl : n = n' := by omega
    rw [List.append_assoc, List.append_assoc, run_key hk]
    have h1 := run_wire hv (.val done k n :: st) trivial (bs ++ rest)
    refine Eq.trans h1 ?_
    by_cases hne : n = 0
    · subst hne
      cases hr
      rfl
    · rw [cont_place_val hne]
      exact run_items hr (by omega) st rest
end

/-! ### Nothing else is -/

/-- A parser that ends well. -/
def Ends (r : SP × Bytes) (j : Json) (rest : Bytes) : Prop := r.1.mode = .final j ∧ r.2 = rest

theorem run_nil_ends {st : List Frame} {j : Json} {rest : Bytes} (h : Ends (run st []) j rest) : False := by
  rw [run_nil] at h
  cases h.1

/-- If a run from a stack that waits for a value ends well, it begins with a message. -/
theorem run_splits : ∀ (n : Nat) (st : List Frame) (bs : Bytes) (j : Json) (rest : Bytes), bs.length ≤ n → NotKey st →
    Ends (run st bs) j rest →
    ∃ v pre bs', bs = pre ++ bs' ∧ 0 < pre.length ∧ Wire v pre ∧ Ends (cont (place st v) bs') j rest
  | n, st, [], j, rest, _, _, h => (run_nil_ends h).elim
  | 0, st, b :: bs, j, rest, hn, _, h => by simp at hn
  | n + 1, st, b :: bs, j, rest, hn, hk, h => by
    have hbs : bs.length ≤ n := by simpa using hn
    -- the elements of an array
    have harr : ∀ (m : Nat) (done : List Json) (st : List Frame) (bs : Bytes), bs.length ≤ n → Ends (run (.arr done m :: st) bs) j rest →
        ∃ l pre bs', bs = pre ++ bs' ∧ l.length = m + 1 ∧ WireList l pre ∧ Ends (cont (place st (.arr (done ++ l))) bs') j rest := by
      intro m
      induction m with
      | zero =>
        intro done st bs hb he
        obtain ⟨v, pre, bs', e, _, hw, he'⟩ := run_splits n (.arr done _ :: st) bs j rest hb trivial he
        exact ⟨[v], pre, bs', e, rfl, by simpa using WireList.cons v [] pre [] hw .nil, he'⟩
      | succ m ih =>
        intro done st bs hb he
        obtain ⟨v, pre, bs', e, _, hw, he'⟩ := run_splits n (.arr done _ :: st) bs j rest hb trivial he
        obtain ⟨l, pre', bs'', e', hl, hw', he''⟩ := ih (done ++ [v]) st bs' (by subst e; rw [List.length_append] at hb; omega) he'
        refine ⟨v :: l, pre ++ pre', bs'', by rw [e, e', List.append_assoc], by rw [List.length_cons, hl], .cons v l pre pre' hw hw', ?_⟩
        rw [List.append_assoc] at he''
        exact he''
    -- an object key
    have hkey : ∀ (done : List (Bytes × Json)) (m : Nat) (st : List Frame) (bs : Bytes), Ends (run (.key done m :: st) bs) j rest →
        ∃ k pre bs', bs = pre ++ bs' ∧ KeyWire k pre ∧ Ends (run (.val done k m :: st) bs') j rest := by
      intro done m st bs he
      cases bs with
      | nil => exact (run_nil_ends he).elim
      | cons b bs =>
        rw [run_cons] at he
        cases hh : head b bs with
        | bad => rw [hh] at he; cases he.1
        | need => rw [hh] at he; cases he.1
        | tok t k =>
          obtain ⟨hd, hkl⟩ := header_of_head hh
          have e : b :: bs = (b :: bs.take k) ++ bs.drop k := by simp
          rw [hh] at he
          simp only at he
          cases t with
          | prim v =>
            cases v with
            | int x => exact ⟨_, _, _, e, .int x _ hd, he⟩
            | uint x => exact ⟨_, _, _, e, .uint x _ hd, he⟩
            | null => cases he.1
            | bool _ => cases he.1
            | dbl _ => cases he.1
            | str _ => cases hd
            | arr _ => cases hd
            | obj _ => cases hd
          | arr i =>
            simp only [act] at he
            split at he
            · cases he.1
            · cases he.1
          | map i =>
            simp only [act] at he
            split at he
            · cases he.1
            · cases he.1
          | raw i =>
            simp only [act] at he
            by_cases hi : i < 2147483648
            · rw [if_pos hi] at he
              change Ends (rawStep _ i (bs.drop k)) j rest at he
              unfold rawStep at he
              by_cases hl : (bs.drop k).length < i
              · rw [if_pos hl] at he
                cases he.1
              · rw [if_neg hl] at he
                have hlen : ((bs.drop k).take i).length = i := by rw [List.length_take]; omega
                refine ⟨(bs.drop k).take i, (b :: bs.take k) ++ (bs.drop k).take i, (bs.drop k).drop i, ?_, .str _ _ ?_ ?_, he⟩
                · rw [List.append_assoc, List.take_append_drop]; exact e
                · rw [hlen]; exact hd
                · rw [hlen]; exact hi
            · rw [if_neg hi] at he
              cases he.1
    -- the items of an object
    have hobj : ∀ (m : Nat) (done : List (Bytes × Json)) (st : List Frame) (bs : Bytes), bs.length ≤ n → Ends (run (.key done m :: st) bs) j rest →
        ∃ l pre bs', bs = pre ++ bs' ∧ WireItems done (m + 1) l pre ∧ Ends (cont (place st (.obj l)) bs') j rest := by
      intro m
      induction m with
      | zero =>
        intro done st bs hb he
        obtain ⟨k, kb, bs1, e1, hkw, he1⟩ := hkey done 0 st bs he
        obtain ⟨v, pre, bs', e, _, hw, he'⟩ := run_splits n (.val done k _ :: st) bs1 j rest (by subst e1; rw [List.length_append] at hb; omega) trivial he1
        refine ⟨setKey done k v, kb ++ pre ++ [], bs', ?_, .cons done _ 0 k kb v pre [] hkw hw (.nil _), he'⟩
        rw [e1, e]; simp
      | succ m ih =>
        intro done st bs hb he
        obtain ⟨k, kb, bs1, e1, hkw, he1⟩ := hkey done (m + 1) st bs he
        obtain ⟨v, pre, bs', e, _, hw, he'⟩ := run_splits n (.val done k _ :: st) bs1 j rest (by subst e1; rw [List.length_append] at hb; omega) trivial he1
        obtain ⟨l, pre', bs'', e', hw', he''⟩ := ih (setKey done k v) st bs' (by subst e1 e; rw [List.length_append, List.length_append] at hb; omega) he'
        refine ⟨l, kb ++ pre ++ pre', bs'', ?_, .cons done l (m + 1) k kb v pre pre' hkw hw hw', he''⟩
        rw [e1, e, e', List.append_assoc, List.append_assoc]
    rw [run_cons] at h
    cases hh : head b bs with
    | bad => rw [hh] at h; cases h.1
    | need => rw [hh] at h; cases h.1
    | tok t k =>
      obtain ⟨hd, hkl⟩ := header_of_head hh
      have e : b :: bs = (b :: bs.take k) ++ bs.drop k := by simp
      have hdl : (bs.drop k).length ≤ n := by rw [List.length_drop]; omega
      rw [hh] at h
      simp only at h
      cases t with
      | prim v =>
        simp only [act] at h
        rw [deliver_notKey hk] at h
        exact ⟨v, _, _, e, by simp, .prim v _ hd, h⟩
      | arr i =>
        simp only [act] at h
        by_cases hi : i < 2147483648
        · rw [if_pos hi, openArr_notKey hk] at h
          cases i with
          | zero =>
            exact ⟨.arr [], (b :: bs.take k) ++ [], _, by rw [List.append_nil]; exact e, by simp, .arr [] _ [] hd (by simp) .nil, h⟩
          | succ i =>
            obtain ⟨l, pre, bs', e', hl, hw, he⟩ := harr i [] st _ hdl h
            refine ⟨.arr l, (b :: bs.take k) ++ pre, bs', ?_, by simp, .arr l _ pre (by rw [hl]; exact hd) (by omega) hw, he⟩
            rw [List.append_assoc, ← e']; exact e
        · rw [if_neg hi] at h
          cases h.1
      | map i =>
        simp only [act] at h
        by_cases hi : i < 2147483648
        · rw [if_pos hi, openMap_notKey hk] at h
          cases i with
          | zero =>
            exact ⟨.obj [], (b :: bs.take k) ++ [], _, by rw [List.append_nil]; exact e, by simp, .obj 0 [] _ [] hd (by simp) (.nil _), h⟩
          | succ i =>
            obtain ⟨l, pre, bs', e', hw, he⟩ := hobj i [] st _ hdl h
            refine ⟨.obj l, (b :: bs.take k) ++ pre, bs', ?_, by simp, .obj (i + 1) l _ pre hd hi hw, he⟩
            rw [List.append_assoc, ← e']; exact e
        · rw [if_neg hi] at h
          cases h.1
      | raw i =>
        simp only [act] at h
        by_cases hi : i < 2147483648
        · rw [if_pos hi] at h
          change Ends (rawStep _ i (bs.drop k)) j rest at h
          unfold rawStep at h
          by_cases hl : (bs.drop k).length < i
          · rw [if_pos hl] at h
            cases h.1
          · rw [if_neg hl, deliver_notKey hk] at h
            have hlen : ((bs.drop k).take i).length = i := by rw [List.length_take]; omega
            refine ⟨.str ((bs.drop k).take i), (b :: bs.take k) ++ (bs.drop k).take i, (bs.drop k).drop i, ?_, by simp, .str _ _ ?_ ?_, h⟩
            · rw [List.append_assoc, List.take_append_drop]; exact e
            · rw [hlen]; exact hd
            · rw [hlen]; exact hi
        · rw [if_neg hi] at h
          cases h.1
termination_by n => n

/-- The streaming parser accepts exactly the messages. -/
theorem accepts_iff (bs : Bytes) (j : Json) (rest : Bytes) :
    Ends (SP.init.consume bs) j rest ↔ ∃ pre, bs = pre ++ rest ∧ Wire j pre := by
  constructor
  · intro h
    obtain ⟨v, pre, bs', e, _, hw, he⟩ := run_splits bs.length [] bs j rest (Nat.le_refl _) trivial h
    obtain ⟨h1, h2⟩ := he
    cases h1
    cases h2
    exact ⟨pre, e, hw⟩
  · rintro ⟨pre, rfl, hw⟩
    show Ends (run [] (pre ++ rest)) j rest
    rw [run_wire hw [] trivial rest]
    exact ⟨rfl, rfl⟩

/-! ### The other reader of the same bytes -/

/-- The value of an integer. -/
def Json.num? : Json → Option Int
  | .int x => some x
  | .uint x => some x
  | _ => none

theorem readInt_wire {j : Json} {pre : Bytes} (h : Wire j pre) {x : Int} (hx : j.num? = some x) (rest : Bytes) :
    readInt (pre ++ rest) = some (x, rest) := by
  cases h with
  | prim _ _ hd =>
    cases hd <;> simp only [Json.num?, Option.some.injEq, reduceCtorEq] at hx <;> subst hx
    case pos y h => exact readInt_fix h rest
    case neg y h h' =>
      show readInt (UInt8.ofNat (256 - y) :: rest) = _
      unfold readInt
      dsimp only
      rw [toNat_ofNat (by omega), if_neg (by omega), if_pos (by omega)]
      congr 2; omega
    all_goals
      rename_i b h
      first
        | exact congrArg (Option.map _) (takeN_append h rest)
  | str => cases hx
  | arr => cases hx
  | obj => cases hx

theorem readStrHeader_wire {n : Nat} {hd : Bytes} (h : Header (.raw n) hd) (rest : Bytes) : readStrHeader (hd ++ rest) = some (n, rest) := by
  cases h
  case fixstr h =>
    show readStrHeader (UInt8.ofNat (0xA0 + n) :: rest) = _
    unfold readStrHeader
    dsimp only
    rw [toNat_ofNat (by omega), if_pos (by omega), Nat.add_sub_cancel_left]
  all_goals
    rename_i b h
    exact congrArg (Option.map _) (takeN_append h rest)

theorem readStr_wire {s pre : Bytes} (h : Wire (.str s) pre) (rest : Bytes) : readStr (pre ++ rest) = some (s, rest) := by
  cases h with
  | prim _ _ h => cases h
  | str hd s h hs =>
    unfold readStr
    rw [List.append_assoc, readStrHeader_wire h]
    exact takeN_append rfl rest

theorem skipArraySize_wire {n : Nat} {hd : Bytes} (h : Header (.arr n) hd) (rest : Bytes) : skipArraySize (hd ++ rest) = some rest := by
  cases h
  case fixarr h =>
    show skipArraySize (UInt8.ofNat (0x90 + n) :: rest) = _
    unfold skipArraySize
    dsimp only
    rw [toNat_ofNat (by omega), if_pos (by omega)]
  all_goals
    rename_i b h
    exact congrArg (Option.map _) (takeN_append h rest)

/-- The message is a primitive that `skip_primitives` knows: not a 64-bit integer, a double, an array or a map. -/
def Narrow : Bytes → Prop
  | [] => False
  | b :: _ => b.toNat ≠ 0xCB ∧ b.toNat ≠ 0xCF ∧ b.toNat ≠ 0xD3 ∧ (b.toNat < 0x80 ∨ 0xA0 ≤ b.toNat) ∧ (b.toNat < 0xDC ∨ 0xDF < b.toNat)

theorem skip_wire {j : Json} {pre : Bytes} (h : Wire j pre) (hn : Narrow pre) (rest : Bytes) : skipPrimitive (pre ++ rest) = some rest := by
  cases h with
  | prim _ _ hd =>
    cases hd with
    | pos y h =>
      show skipPrimitive (UInt8.ofNat y :: rest) = _
      unfold skipPrimitive
      dsimp only
      rw [toNat_ofNat (by omega), if_pos (by omega)]
    | neg y h h' =>
      show skipPrimitive (UInt8.ofNat (256 - y) :: rest) = _
      unfold skipPrimitive
      dsimp only
      rw [toNat_ofNat (by omega), if_pos (by omega)]
    | null => rfl
    | no => rfl
    | yes => rfl
    | f64 b h => exact absurd rfl hn.1
    | u64 b h => exact absurd rfl hn.2.1
    | i64 b h => exact absurd rfl hn.2.2.1
    | _ b h => exact congrArg (Option.map _) (takeN_append h rest)
  | str hd s h hs =>
    have hs' : (takeN s.length (s ++ rest)).map Prod.snd = some rest := by rw [takeN_append rfl]; rfl
    rw [List.append_assoc]
    generalize hm : s.length = m at h hs'
    cases h
    case fixstr h =>
      show skipPrimitive (UInt8.ofNat (0xA0 + m) :: (s ++ rest)) = _
      unfold skipPrimitive
      dsimp only
      rw [toNat_ofNat (by omega), if_neg (by omega), if_pos (by omega), Nat.add_sub_cancel_left, hs']
    all_goals
      rename_i b h
      refine Eq.trans (congrArg (Option.bind · _) (congrArg (Option.map _) (takeN_append h (s ++ rest)))) ?_
      exact hs'
  | arr l hd bs h hl hb =>
    generalize l.length = m at h
    cases h with
    | fixarr n h =>
      have := hn.2.2.2.1
      rw [toNat_ofNat (by omega)] at this
      omega
    | arr16 b h => exact absurd hn.2.2.2.2 (by decide)
    | arr32 b h => exact absurd hn.2.2.2.2 (by decide)
  | obj n l hd bs h hl hb =>
    cases h with
    | fixmap n h =>
      have := hn.2.2.2.1
      rw [toNat_ofNat (by omega)] at this
      omega
    | map16 b h => exact absurd hn.2.2.2.2 (by decide)
    | map32 b h => exact absurd hn.2.2.2.2 (by decide)

end Verif.Msgpack
