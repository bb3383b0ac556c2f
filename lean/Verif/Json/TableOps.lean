import Verif.Json.TableInv

/-!
# The operations on `Json` objects keep the table sound

What each operation of `Verif/Json/Table.lean` does to the contents.
-/
namespace Verif.Json.Table
open Verif.Key (Bytes)

variable {β : Type}

theorem contents_congr {o o' : Obj β} (hn : o'.n = o.n) (hx : ∀ j < o.n, (o'.next j = -2 ↔ o.next j = -2))
    (hk : ∀ j < o.n, o'.key j = o.key j) (hv : ∀ j < o.n, o'.val j = o.val j) : o'.contents = o.contents := by
  unfold Obj.contents
  rw [hn]
  refine List.filterMap_congr fun j hj => ?_
  have hj := List.mem_range.mp hj
  simp only [hx j hj, hk j hj, hv j hj]

/-! ### rehash -/

/-- The items from `i` on are linked. -/
structure Linked (hc : Bytes → Nat) (o : Obj β) (i : Nat) : Prop where
  pow : ∃ e, o.hsize = 2 ^ e
  low : ∀ j < o.n, -2 ≤ o.next j
  chains : ∀ b < o.hsize, ∃ l, Chain o.next o.n (o.hash b) l ∧ l.Nodup ∧
    ∀ j, j ∈ l ↔ i ≤ j ∧ o.Live j ∧ o.bucket hc (o.key j) = b

/-- Only links differ. -/
structure Same (o o' : Obj β) : Prop where
  n : o'.n = o.n
  key : o'.key = o.key
  val : o'.val = o.val
  size : o'.size = o.size
  cap : o'.cap = o.cap
  hsize : o'.hsize = o.hsize
  holes : ∀ j < o.n, (o'.next j = -2 ↔ o.next j = -2)

theorem Same.refl (o : Obj β) : Same o o := ⟨rfl, rfl, rfl, rfl, rfl, rfl, fun _ _ => Iff.rfl⟩

theorem Same.trans {a b c : Obj β} (h : Same a b) (h' : Same b c) : Same a c :=
  ⟨h'.n.trans h.n, h'.key.trans h.key, h'.val.trans h.val, h'.size.trans h.size, h'.cap.trans h.cap, h'.hsize.trans h.hsize,
    fun j hj => (h'.holes j (by rw [h.n]; exact hj)).trans (h.holes j hj)⟩

theorem Same.contents {o o' : Obj β} (h : Same o o') : o'.contents = o.contents :=
  contents_congr h.n h.holes (fun _ _ => by rw [h.key]) (fun _ _ => by rw [h.val])

theorem Same.live {o o' : Obj β} (h : Same o o') (j : Nat) : o'.Live j ↔ o.Live j := by
  unfold Obj.Live
  rw [h.n]
  exact and_congr_right fun hj => not_congr (h.holes j hj)

theorem link_one {hc : Bytes → Nat} {o : Obj β} {i : Nat} (h : Linked hc o (i + 1)) (hi : i < o.n) :
    let o' := if -2 < o.next i then
      { o with
        next := Function.update o.next i (o.hash (o.bucket hc (o.key i)))
        hash := Function.update o.hash (o.bucket hc (o.key i)) i }
      else o
    Linked hc o' i ∧ Same o o' := by
  intro o'
  by_cases hl : -2 < o.next i
  · have ho : o' = { o with
        next := Function.update o.next i (o.hash (o.bucket hc (o.key i)))
        hash := Function.update o.hash (o.bucket hc (o.key i)) i } := if_pos hl
    rw [ho]
    obtain ⟨e, he⟩ := h.pow
    have hb := Obj.bucket_lt (hc := hc) he (o.key i)
    obtain ⟨l0, c1, c2, c3⟩ := h.chains _ hb
    have hge := c1.ge
    have hlive : ∀ j, (Obj.Live { o with
        next := Function.update o.next i (o.hash (o.bucket hc (o.key i)))
        hash := Function.update o.hash (o.bucket hc (o.key i)) i } j ↔ o.Live j) := by
      intro j
      simp only [Obj.Live]
      by_cases hj : j = i
      · subst hj; simp only [Function.update_self]; omega
      · rw [Function.update_of_ne hj]
    refine ⟨⟨⟨e, he⟩, ?_, ?_⟩, ⟨rfl, rfl, rfl, rfl, rfl, rfl, ?_⟩⟩
    · intro j hj
      show -2 ≤ Function.update o.next i (o.hash (o.bucket hc (o.key i))) j
      by_cases hj' : j = i
      · subst hj'; rw [Function.update_self]; omega
      · rw [Function.update_of_ne hj']; exact h.low j hj
    · intro b hb'
      show ∃ l, Chain (Function.update o.next i (o.hash (o.bucket hc (o.key i)))) o.n
        (Function.update o.hash (o.bucket hc (o.key i)) (i : Int) b) l ∧ l.Nodup ∧ _
      by_cases hbb : b = o.bucket hc (o.key i)
      · subst hbb
        have hni : i ∉ l0 := fun hm => by have := ((c3 i).mp hm).1; omega
        refine ⟨i :: l0, ?_, List.nodup_cons.mpr ⟨hni, c2⟩, ?_⟩
        · rw [Function.update_self]
          refine ⟨rfl, hi, ?_⟩
          rw [Function.update_self]
          refine c1.congr (Nat.le_refl _) fun j hj => Function.update_of_ne (show j ≠ i from fun hh => hni (hh ▸ hj)) ..
        · intro j
          rw [List.mem_cons, c3 j, hlive j]
          show _ ↔ _ ∧ _ ∧ o.bucket hc (o.key j) = _
          constructor
          · rintro (rfl | ⟨h1, h2, h3⟩)
            · exact ⟨Nat.le_refl _, ⟨hi, by omega⟩, rfl⟩
            · exact ⟨by omega, h2, h3⟩
          · rintro ⟨h1, h2, h3⟩
            by_cases hj : j = i
            · exact .inl hj
            · exact .inr ⟨by omega, h2, h3⟩
      · obtain ⟨l, d1, d2, d3⟩ := h.chains b hb'
        rw [Function.update_of_ne hbb]
        have hni : i ∉ l := fun hm => by have := ((d3 i).mp hm).1; omega
        refine ⟨l, d1.congr (Nat.le_refl _) fun j hj => Function.update_of_ne (show j ≠ i from fun hh => hni (hh ▸ hj)) .., d2, ?_⟩
        intro j
        rw [d3 j, hlive j]
        show _ ↔ _ ∧ _ ∧ o.bucket hc (o.key j) = _
        constructor
        · rintro ⟨h1, h2, h3⟩; exact ⟨by omega, h2, h3⟩
        · rintro ⟨h1, h2, h3⟩
          refine ⟨?_, h2, h3⟩
          by_cases hj : j = i
          · subst hj; exact absurd h3.symm hbb
          · omega
    · intro j hj
      show Function.update o.next i (o.hash (o.bucket hc (o.key i))) j = -2 ↔ _
      by_cases hj' : j = i
      · subst hj'; rw [Function.update_self]; omega
      · rw [Function.update_of_ne hj']
  · have ho : o' = o := if_neg hl
    rw [ho]
    refine ⟨⟨h.pow, h.low, ?_⟩, Same.refl o⟩
    intro b hb
    obtain ⟨l, d1, d2, d3⟩ := h.chains b hb
    refine ⟨l, d1, d2, fun j => ?_⟩
    rw [d3 j]
    have := h.low i hi
    constructor
    · rintro ⟨h1, h2, h3⟩; exact ⟨by omega, h2, h3⟩
    · rintro ⟨h1, h2, h3⟩
      refine ⟨?_, h2, h3⟩
      by_cases hj : j = i
      · subst hj; have := h2.2; omega
      · omega

theorem relink_spec {hc : Bytes → Nat} : ∀ {i : Nat} {o : Obj β}, i ≤ o.n → Linked hc o i →
    Linked hc (o.relink hc i) 0 ∧ Same o (o.relink hc i)
  | 0, o, _, h => ⟨h, Same.refl o⟩
  | i + 1, o, hi, h => by
    obtain ⟨h1, h2⟩ := link_one h (by omega)
    obtain ⟨h3, h4⟩ := relink_spec (i := i) (by rw [h2.n]; omega) h1
    exact ⟨h3, h2.trans h4⟩

theorem Inv.rehash {hc : Bytes → Nat} {o : Obj β} (h : Inv hc o) (h0 : o.hsize ≠ 0) :
    Inv hc (o.rehash hc) ∧ Same { o with hsize := o.hsize * 2 } (o.rehash hc) := by
  obtain ⟨e, he⟩ : ∃ e, o.hsize = 2 ^ e := h.pow.resolve_left fun hh => h0 hh.1
  have hL : Linked hc { o with hsize := o.hsize * 2, hash := fun _ => -1 } o.n := by
    refine ⟨⟨e + 1, by simp [he, Nat.pow_succ]⟩, h.low, ?_⟩
    intro b _
    refine ⟨[], rfl, List.nodup_nil, fun j => ?_⟩
    simp only [List.not_mem_nil, false_iff]
    rintro ⟨h1, h2, _⟩
    exact absurd h2.1 (by simpa using h1)
  obtain ⟨h1, h2⟩ := relink_spec (i := o.n) (o := { o with hsize := o.hsize * 2, hash := fun _ => -1 }) (Nat.le_refl _) hL
  have hs : Same { o with hsize := o.hsize * 2 } (o.rehash hc) := ⟨h2.n, h2.key, h2.val, h2.size, h2.cap, h2.hsize, h2.holes⟩
  refine ⟨⟨.inr h1.pow, h1.low, ?_, ?_, ?_, ?_⟩, hs⟩
  · intro b hb
    obtain ⟨l, d1, d2, d3⟩ := h1.chains b hb
    exact ⟨l, d1, d2, fun j => (d3 j).trans ⟨fun hh => hh.2, fun hh => ⟨Nat.zero_le _, hh⟩⟩⟩
  · intro i j hi hj hk
    rw [hs.key] at hk
    exact h.keys i j ((hs.live i).mp hi) ((hs.live j).mp hj) hk
  · rw [hs.size, hs.contents]; exact h.size
  · rw [hs.n, hs.cap]; exact h.cap

/-! ### find_insert -/

theorem Inv.init {hc : Bytes → Nat} {o : Obj β} (h : Inv hc o) :
    Inv hc (if o.hsize = 0 then { o with hsize := 8, hash := fun _ => -1 } else o) := by
  split
  · rename_i h0
    have hn : o.n = 0 := by
      rcases h.pow with ⟨_, hn⟩ | ⟨e, he⟩
      · exact hn
      · have := Nat.two_pow_pos e; omega
    refine ⟨.inr ⟨3, rfl⟩, h.low, ?_, h.keys, h.size, h.cap⟩
    intro b _
    refine ⟨[], rfl, List.nodup_nil, fun j => ?_⟩
    simp only [List.not_mem_nil, false_iff]
    rintro ⟨h1, _⟩
    have : j < o.n := h1.1
    omega
  · exact h

/-- `find_insert` after the table is allocated, up to the rehashing: the key is put into the slot after the last. -/
def Obj.push (o : Obj β) (b : Loc) (k : Bytes) (v : β) : Obj β :=
  let o := o.write o.n b
  let o := if o.n = o.cap then o.grow else o
  { o with
    key := Function.update o.key o.n k
    val := Function.update o.val o.n v
    next := Function.update o.next o.n (-1)
    n := o.n + 1
    size := o.size + 1 }

theorem push_eq (o : Obj β) (b : Loc) (k : Bytes) (v : β) (hb : ∀ j, b = .next j → j < o.n) :
    ∃ c, (c = o.cap ∧ o.n ≠ o.cap ∨ c = (if o.cap = 0 then 8 else o.cap * 2) ∧ o.n = o.cap) ∧
    o.push b k v = { o with
      key := Function.update o.key o.n k
      val := Function.update o.val o.n v
      next := Function.update o.next o.n (-1)
      n := o.n + 1
      size := o.size + 1
      cap := c : Obj β }.write o.n b := by
  cases b with
  | head b =>
    by_cases hc : o.n = o.cap
    · exact ⟨_, .inr ⟨rfl, hc⟩, by simp [Obj.push, Obj.write, Obj.grow, hc]⟩
    · exact ⟨_, .inl ⟨rfl, hc⟩, by simp [Obj.push, Obj.write, hc]⟩
  | next j =>
    have hj : j ≠ o.n := by have := hb j rfl; omega
    have hu := Function.update_comm hj (o.n : Int) (-1 : Int) o.next
    by_cases hc : o.n = o.cap
    · refine ⟨_, .inr ⟨rfl, hc⟩, ?_⟩
      have : (o.write o.n (.next j)).n = (o.write o.n (.next j)).cap := hc
      simp only [Obj.push, this, if_true]
      simp only [Obj.write, Obj.grow]
      rw [hu]
      rfl
    · refine ⟨_, .inl ⟨rfl, hc⟩, ?_⟩
      have : ¬ (o.write o.n (.next j)).n = (o.write o.n (.next j)).cap := hc
      simp only [Obj.push, this, if_false]
      simp only [Obj.write]
      rw [hu]

theorem endLoc_head_lt {o : Obj β} {b : Nat} {l : List Nat} (h : Chain o.next o.n (o.hash b) l) :
    ∀ j, endLoc (.head b) l = .next j → j < o.n := by
  intro j hj
  cases l with
  | nil => simp [endLoc] at hj
  | cons i l =>
    obtain ⟨y, hy, e⟩ := endLoc_next l i
    rw [endLoc, e] at hj
    cases hj
    exact h.lt _ hy

theorem Inv.push {hc : Bytes → Nat} {o : Obj β} (h : Inv hc o) (h0 : o.hsize ≠ 0) {k : Bytes} {v : β} {l : List Nat}
    (c1 : Chain o.next o.n (o.hash (o.bucket hc k)) l) (c2 : l.Nodup)
    (c3 : ∀ j, j ∈ l ↔ o.Live j ∧ o.bucket hc (o.key j) = o.bucket hc k) (hk : ∀ j, o.Live j → o.key j ≠ k) :
    let o' := o.push (endLoc (.head (o.bucket hc k)) l) k v
    Inv hc o' ∧ o'.n = o.n + 1 ∧ o'.hsize = o.hsize ∧ o'.Live o.n ∧ o'.key o.n = k ∧ o'.val o.n = v ∧
      o'.contents = o.contents ++ [(k, v)] ∧ ∀ j < o.n, (o'.next j = -2 ↔ o.next j = -2) := by
  intro o'
  obtain ⟨c, hcap, hpe⟩ := push_eq o (endLoc (.head (o.bucket hc k)) l) k v (endLoc_head_lt c1)
  set o1 : Obj β := { o with
      key := Function.update o.key o.n k
      val := Function.update o.val o.n v
      next := Function.update o.next o.n (-1)
      n := o.n + 1
      size := o.size + 1
      cap := c } with ho1
  have ho' : o' = o1.write o.n (endLoc (.head (o.bucket hc k)) l) := hpe
  have hlt := c1.lt
  -- where the link is written
  have hloc : (l = [] ∧ endLoc (.head (o.bucket hc k)) l = .head (o.bucket hc k)) ∨
      ∃ y ∈ l, endLoc (.head (o.bucket hc k)) l = .next y := by
    cases l with
    | nil => exact .inl ⟨rfl, rfl⟩
    | cons i l => obtain ⟨y, hy, e⟩ := endLoc_next l i; exact .inr ⟨y, hy, e⟩
  have hn : o'.n = o.n + 1 := by rw [ho']; rcases hloc with ⟨_, e⟩ | ⟨y, _, e⟩ <;> rw [e] <;> rfl
  have hkey : o'.key = Function.update o.key o.n k := by rw [ho']; rcases hloc with ⟨_, e⟩ | ⟨y, _, e⟩ <;> rw [e] <;> rfl
  have hval : o'.val = Function.update o.val o.n v := by rw [ho']; rcases hloc with ⟨_, e⟩ | ⟨y, _, e⟩ <;> rw [e] <;> rfl
  have hsize : o'.size = o.size + 1 := by rw [ho']; rcases hloc with ⟨_, e⟩ | ⟨y, _, e⟩ <;> rw [e] <;> rfl
  have hhs : o'.hsize = o.hsize := by rw [ho']; rcases hloc with ⟨_, e⟩ | ⟨y, _, e⟩ <;> rw [e] <;> rfl
  have hcap' : o'.cap = c := by rw [ho']; rcases hloc with ⟨_, e⟩ | ⟨y, _, e⟩ <;> rw [e] <;> rfl
  -- the new links
  have hnext : ∀ j < o.n, o'.next j = o.next j ∨ (j ∈ l ∧ o'.next j = o.n) := by
    intro j hj
    rw [ho']
    rcases hloc with ⟨_, e⟩ | ⟨y, hy, e⟩
    · left; rw [e]; exact Function.update_of_ne (by omega) ..
    · rw [e]
      show Function.update (Function.update o.next o.n (-1)) y (o.n : Int) j = _ ∨ _ ∧ Function.update (Function.update o.next o.n (-1)) y (o.n : Int) j = _
      by_cases hjy : j = y
      · subst hjy; right; exact ⟨hy, Function.update_self ..⟩
      · left; rw [Function.update_of_ne hjy, Function.update_of_ne (by omega)]
  have hlast : o'.next o.n = -1 := by
    rw [ho']
    rcases hloc with ⟨_, e⟩ | ⟨y, hy, e⟩
    · rw [e]; exact Function.update_self ..
    · rw [e]
      show Function.update (Function.update o.next o.n (-1)) y (o.n : Int) o.n = _
      rw [Function.update_of_ne (by have := hlt y hy; omega), Function.update_self]
  have hhole : ∀ j < o.n, (o'.next j = -2 ↔ o.next j = -2) := by
    intro j hj
    rcases hnext j hj with e | ⟨hm, e⟩
    · rw [e]
    · have := ((c3 j).mp hm).1.2
      rw [e]; omega
  have hlive : ∀ j, o'.Live j ↔ o.Live j ∨ j = o.n := by
    intro j
    simp only [Obj.Live, hn]
    by_cases hj : j < o.n
    · have := hhole j hj
      constructor
      · rintro ⟨_, h2⟩; exact .inl ⟨hj, fun hh => h2 (this.mpr hh)⟩
      · rintro (⟨_, h2⟩ | h2)
        · exact ⟨by omega, fun hh => h2 (this.mp hh)⟩
        · omega
    · constructor
      · rintro ⟨h1, _⟩; right; omega
      · rintro (⟨h1, _⟩ | rfl)
        · omega
        · rw [hlast]; omega
  have hbk : ∀ x, o'.bucket hc x = o.bucket hc x := fun x => by simp only [Obj.bucket, hhs]
  have hkj : ∀ j < o.n, o'.key j = o.key j := fun j hj => by rw [hkey, Function.update_of_ne (by omega)]
  have hcont : o'.contents = o.contents ++ [(k, v)] := by
    unfold Obj.contents
    rw [hn, List.range_succ, List.filterMap_append]
    congr 1
    · refine List.filterMap_congr fun j hj => ?_
      have hj := List.mem_range.mp hj
      simp only [hhole j hj, hkj j hj, hval, Function.update_of_ne (show j ≠ o.n by omega)]
    · simp [hlast, hkey, hval]
  refine ⟨⟨?_, ?_, ?_, ?_, ?_, ?_⟩, hn, hhs, (hlive _).mpr (.inr rfl), by rw [hkey, Function.update_self],
    by rw [hval, Function.update_self], hcont, hhole⟩
  · rw [hhs]; exact .inr (h.pow.resolve_left fun hh => h0 hh.1)
  · intro j hj
    rw [hn] at hj
    by_cases hj' : j < o.n
    · rcases hnext j hj' with e | ⟨_, e⟩
      · rw [e]; exact h.low j hj'
      · rw [e]; omega
    · have : j = o.n := by omega
      subst this; rw [hlast]; omega
  · intro b hb
    rw [hhs] at hb
    by_cases hbb : b = o.bucket hc k
    · subst hbb
      refine ⟨l ++ [o.n], ?_, ?_, ?_⟩
      · have hw := write_chain (o := o1) (x := (o.n : Int)) (N := o.n + 1) (a := l) (r := []) (c := [o.n])
          (L := .head (o.bucket hc k)) (fun j hj => by cases hj) c2
          (by rw [List.append_nil]
              exact c1.congr (Nat.le_succ _) fun j hj => Function.update_of_ne (by have := hlt j hj; omega) ..)
          ⟨rfl, Nat.lt_succ_self _, by rw [← ho']; exact hlast⟩
        rw [← ho'] at hw
        rw [hn]
        exact hw
      · refine List.nodup_append.mpr ⟨c2, List.nodup_singleton _, ?_⟩
        intro j hj i hi
        have := hlt j hj
        simp only [List.mem_singleton] at hi
        omega
      · intro j
        rw [hlive, List.mem_append, c3 j, List.mem_singleton, hbk]
        constructor
        · rintro (⟨h1, h2⟩ | rfl)
          · exact ⟨.inl h1, by rw [hkj j h1.1]; exact h2⟩
          · exact ⟨.inr rfl, by rw [hkey, Function.update_self]⟩
        · rintro ⟨h1 | h1, h2⟩
          · left; exact ⟨h1, by rw [hkj j h1.1] at h2; exact h2⟩
          · exact .inr h1
    · obtain ⟨m, d1, d2, d3⟩ := h.chains b hb
      refine ⟨m, ?_, d2, ?_⟩
      · have hh : o'.hash b = o.hash b := by
          rw [ho']
          rcases hloc with ⟨_, e⟩ | ⟨y, hy, e⟩
          · rw [e]; exact Function.update_of_ne hbb ..
          · rw [e]; rfl
        rw [hh, hn]
        refine d1.congr (Nat.le_succ _) fun j hj => ?_
        have hd := (d3 j).mp hj
        rcases hnext j hd.1.1 with e | ⟨hm, _⟩
        · exact e
        · exact absurd (hd.2.symm.trans ((c3 j).mp hm).2) hbb
      · intro j
        rw [hlive, d3 j, hbk]
        constructor
        · rintro ⟨h1, h2⟩; exact ⟨.inl h1, by rw [hkj j h1.1]; exact h2⟩
        · rintro ⟨h1 | h1, h2⟩
          · exact ⟨h1, by rw [hkj j h1.1] at h2; exact h2⟩
          · subst h1; rw [hkey, Function.update_self] at h2; exact absurd h2.symm hbb
  · intro i j hi hj hij
    rw [hlive] at hi hj
    rcases hi with hi | rfl <;> rcases hj with hj | rfl
    · rw [hkj i hi.1, hkj j hj.1] at hij; exact h.keys i j hi hj hij
    · rw [hkj i hi.1, hkey, Function.update_self] at hij; exact absurd hij (hk i hi)
    · rw [hkj j hj.1, hkey, Function.update_self] at hij; exact absurd hij.symm (hk j hj)
    · rfl
  · rw [hsize, hcont, h.size]; simp
  · have := h.cap
    rw [hn, hcap']
    rcases hcap with ⟨rfl, hne⟩ | ⟨rfl, he⟩
    · omega
    · split <;> omega

/-- The table with which an insertion works. -/
def Obj.tableSize (o : Obj β) : Nat := if o.hsize = 0 then 8 else o.hsize

theorem findInsert_spec {hc : Bytes → Nat} {o : Obj β} (h : Inv hc o) (k : Bytes) (v : β) :
    ∃ o' p, o.findInsert hc k v = some (o', p) ∧ Inv hc o' ∧ o'.hsize ≠ 0 ∧ o'.Live p ∧ o'.key p = k ∧
      (∀ j < o.n, (o'.next j = -2 ↔ o.next j = -2)) ∧ (∀ j < o.n, o'.key j = o.key j) ∧
      (((∃ j, o.Live j ∧ o.key j = k) ∧ o'.n = o.n ∧ o'.contents = o.contents ∧ p < o.n ∧ o'.val = o.val) ∨
       ((∀ j, o.Live j → o.key j ≠ k) ∧ o'.n = o.n + 1 ∧ o'.contents = o.contents ++ [(k, v)] ∧ p = o.n ∧
        ∃ l : List Nat, l.Nodup ∧
          (∀ j, j ∈ l ↔ o.Live j ∧ hc (o.key j) &&& (o.tableSize - 1) = hc k &&& (o.tableSize - 1)) ∧
          o'.hsize = if 4 < l.length then o.tableSize * 2 else o.tableSize)) := by
  have hi := h.init
  have e1 : (if o.hsize = 0 then { o with hsize := 8, hash := fun _ => -1 } else o).n = o.n := by split <;> rfl
  have e2 : (if o.hsize = 0 then { o with hsize := 8, hash := fun _ => -1 } else o).next = o.next := by split <;> rfl
  have e3 : (if o.hsize = 0 then { o with hsize := 8, hash := fun _ => -1 } else o).key = o.key := by split <;> rfl
  have e4 : (if o.hsize = 0 then { o with hsize := 8, hash := fun _ => -1 } else o).val = o.val := by split <;> rfl
  have e5 : (if o.hsize = 0 then { o with hsize := 8, hash := fun _ => -1 } else o).hsize ≠ 0 := by
    split
    · simp
    · assumption
  have e6 : (if o.hsize = 0 then { o with hsize := 8, hash := fun _ => -1 } else o).hsize = o.tableSize := by
    unfold Obj.tableSize; split <;> rfl
  unfold Obj.findInsert
  generalize (if o.hsize = 0 then ({ o with hsize := 8, hash := fun _ => -1 } : Obj β) else o) = q at hi e1 e2 e3 e4 e5 e6 ⊢
  have hlive : ∀ j, q.Live j ↔ o.Live j := fun j => by simp only [Obj.Live, e1, e2]
  have hcont : q.contents = o.contents := by simp only [Obj.contents, e1, e2, e3, e4]
  obtain ⟨l, c1, c2, c3, hw⟩ := hi.walk e5 k
  rcases hw with ⟨a, j, r, _, w2, w3, w4, w5⟩ | ⟨w2, w4, w5⟩
  · refine ⟨q, j, ?_, hi, e5, w2, w3, fun _ _ => by rw [e2], fun _ _ => by rw [e3],
      .inl ⟨⟨j, (hlive j).mp w2, by rw [← e3]; exact w3⟩, e1, hcont, e1 ▸ w2.1, e4⟩⟩
    simp only [w4, w5]
    simp
  · have hp := hi.push e5 (v := v) c1 c2 c3 w2
    have hpk := push_eq q (endLoc (.head (q.bucket hc k)) l) k v (endLoc_head_lt c1)
    obtain ⟨p1, p2, p3, p4, p5, p6, p7, p8⟩ := hp
    have p9 : ∀ j < o.n, (q.push (endLoc (.head (q.bucket hc k)) l) k v).key j = o.key j := by
      intro j hj
      obtain ⟨c, _, e⟩ := hpk
      rw [e, ← e3]
      have : j ≠ q.n := by omega
      generalize endLoc (.head (q.bucket hc k)) l = L
      cases L <;> exact Function.update_of_ne this ..
    have hnew : ∀ j, o.Live j → o.key j ≠ k := fun j hj => by rw [← e3]; exact w2 j ((hlive j).mpr hj)
    have hl : ∀ j, j ∈ l ↔ o.Live j ∧ hc (o.key j) &&& (o.tableSize - 1) = hc k &&& (o.tableSize - 1) := by
      intro j
      rw [c3 j, hlive j, e3]
      simp only [Obj.bucket, e6]
    by_cases hch : 4 < l.length
    · have hr := p1.rehash (by rw [p3]; exact e5)
      refine ⟨_, _, ?_, hr.1, ?_, ?_, ?_, ?_, ?_, .inr ⟨hnew, ?_, ?_, rfl, l, c2, hl, ?_⟩⟩
      · simp only [w4, w5]
        rw [if_neg (by omega)]
        simp only [hch, if_true, Option.some.injEq]
        refine Prod.ext rfl ?_
        show (Obj.rehash hc (q.push _ k v)).n - 1 = o.n
        rw [hr.2.n, p2, e1]; simp
      · rw [hr.2.hsize]; simp only [p3]; omega
      · rw [hr.2.live]; rw [← e1]; exact p4
      · rw [hr.2.key, ← e1]; exact p5
      · intro j hj
        rw [hr.2.holes j (by simp only [p2]; omega)]
        show (q.push _ k v).next j = -2 ↔ _
        rw [p8 j (by omega), e2]
      · intro j hj
        rw [hr.2.key]; exact p9 j hj
      · rw [hr.2.n]; simp only [p2, e1]
      · rw [hr.2.contents]
        show (q.push _ k v).contents = _
        rw [p7, hcont]
      · rw [hr.2.hsize, if_pos hch]; simp only [p3, e6]
    · refine ⟨q.push (endLoc (.head (q.bucket hc k)) l) k v, o.n, ?_, p1, ?_, ?_, ?_, ?_, p9, .inr ⟨hnew, ?_, ?_, rfl, l, c2, hl, ?_⟩⟩
      · simp only [w4, w5]
        rw [if_neg (by omega)]
        simp only [hch, if_false, Option.some.injEq]
        refine Prod.ext rfl ?_
        show (q.push _ k v).n - 1 = o.n
        rw [p2, e1]; simp
      · rw [p3]; exact e5
      · rw [← e1]; exact p4
      · rw [← e1]; exact p5
      · intro j hj
        rw [p8 j (by omega), e2]
      · rw [p2, e1]
      · rw [p7, hcont]
      · rw [if_neg hch, p3, e6]

/-! ### find and erase -/

theorem find_spec {hc : Bytes → Nat} {o : Obj β} (h : Inv hc o) (k : Bytes) :
    (∃ j : Nat, o.find hc k = some (j : Int) ∧ o.Live j ∧ o.key j = k) ∨ (o.find hc k = some (-1) ∧ ∀ j, o.Live j → o.key j ≠ k) := by
  unfold Obj.find
  by_cases h0 : o.hsize = 0
  · right
    refine ⟨if_pos h0, fun j hj => ?_⟩
    rcases h.pow with ⟨_, hn⟩ | ⟨e, he⟩
    · have := hj.1; omega
    · have := Nat.two_pow_pos e; omega
  · rw [if_neg h0]
    obtain ⟨l, c1, c2, c3, hw⟩ := h.walk h0 k
    rcases hw with ⟨a, j, r, _, w2, w3, w4, w5⟩ | ⟨w2, w4, w5⟩
    · left; exact ⟨j, by simp [w4, w5], w2, w3⟩
    · right; exact ⟨by simp [w4, w5], w2⟩

theorem Inv.cut {hc : Bytes → Nat} {o : Obj β} (h : Inv hc o) {b p : Nat} {a r : List Nat} (hb : b < o.hsize)
    (c1 : Chain o.next o.n (o.hash b) (a ++ p :: r)) (c2 : (a ++ p :: r).Nodup)
    (c3 : ∀ j, j ∈ a ++ p :: r ↔ o.Live j ∧ o.bucket hc (o.key j) = b) :
    let o' := o.cut (endLoc (.head b) a) p
    Inv hc o' ∧ o'.n = o.n ∧ o'.hsize = o.hsize ∧ (∀ j, j ≠ p → (o'.next j = -2 ↔ o.next j = -2 )) ∧
      o'.contents = o.contents.filter (fun x => decide (x.1 ≠ o.key p)) ∧ o'.key = o.key ∧ o'.val = o.val := by
  intro o'
  have hlt := c1.lt
  have hlv := c1.live
  obtain ⟨n1, n2, n3⟩ := List.nodup_append.mp c2
  have n4 := List.nodup_cons.mp n2
  have hpl := ((c3 p).mp (by simp)).1
  have hpa : p ∉ a := fun hh => n3 p hh p (by simp) rfl
  have hloc : (a = [] ∧ endLoc (.head b) a = .head b) ∨ ∃ y ∈ a, endLoc (.head b) a = .next y := by
    cases a with
    | nil => exact .inl ⟨rfl, rfl⟩
    | cons i l => obtain ⟨y, hy, e⟩ := endLoc_next l i; exact .inr ⟨y, hy, e⟩
  have hwn : o'.n = o.n ∧ o'.key = o.key ∧ o'.val = o.val ∧ o'.size = o.size - 1 ∧ o'.hsize = o.hsize ∧ o'.cap = o.cap ∧
      o'.next = Function.update (o.write (o.next p) (endLoc (.head b) a)).next p (-2) ∧
      o'.hash = (o.write (o.next p) (endLoc (.head b) a)).hash := by
    show (o.cut _ p).n = _ ∧ (o.cut _ p).key = _ ∧ (o.cut _ p).val = _ ∧ (o.cut _ p).size = _ ∧ (o.cut _ p).hsize = _ ∧
      (o.cut _ p).cap = _ ∧ (o.cut _ p).next = _ ∧ (o.cut _ p).hash = _
    rcases hloc with ⟨_, e⟩ | ⟨y, _, e⟩ <;> rw [e] <;> exact ⟨rfl, rfl, rfl, rfl, rfl, rfl, rfl, rfl⟩
  obtain ⟨hn, hkey, hval, hsize, hhs, hcap, hnx, hhash⟩ := hwn
  -- the tail
  have ht := (endLoc_ok (o := o) (L := .head b) (l := a) (c := p :: r) hb c1).2
  obtain ⟨_, hpn, ht⟩ := ht
  have hw : ∀ j, j ∉ a → (o.write (o.next p) (endLoc (.head b) a)).next j = o.next j := by
    intro j hj
    rcases hloc with ⟨_, e⟩ | ⟨y, hy, e⟩
    · rw [e]; rfl
    · rw [e]; exact Function.update_of_ne (show j ≠ y from fun hh => hj (hh ▸ hy)) ..
  have hwa : ∀ j, (o.write (o.next p) (endLoc (.head b) a)).next j = o.next j ∨
      j ∈ a ∧ (o.write (o.next p) (endLoc (.head b) a)).next j = o.next p := by
    intro j
    rcases hloc with ⟨_, e⟩ | ⟨y, hy, e⟩
    · rw [e]; exact .inl rfl
    · rw [e]
      by_cases hjy : j = y
      · subst hjy; exact .inr ⟨hy, Function.update_self ..⟩
      · exact .inl (Function.update_of_ne hjy ..)
  have hnp : o'.next p = -2 := by rw [hnx, Function.update_self]
  have hno : ∀ j, j ≠ p → o'.next j = (o.write (o.next p) (endLoc (.head b) a)).next j :=
    fun j hj => by rw [hnx, Function.update_of_ne hj]
  have hpge := hlv p (by simp)
  have hhole : ∀ j, j ≠ p → (o'.next j = -2 ↔ o.next j = -2) := by
    intro j hj
    rw [hno j hj]
    rcases hwa j with e | ⟨hm, e⟩
    · rw [e]
    · have := hlv j (by simp [hm])
      rw [e]; omega
  have hlive : ∀ j, o'.Live j ↔ o.Live j ∧ j ≠ p := by
    intro j
    simp only [Obj.Live, hn]
    by_cases hj : j = p
    · subst hj; simp [hnp]
    · simp [hj, hhole j hj]
  have hbk : ∀ x, o'.bucket hc x = o.bucket hc x := fun x => by simp only [Obj.bucket, hhs]
  have hcont : o'.contents = o.contents.filter (fun x => decide (x.1 ≠ o.key p)) := by
    unfold Obj.contents
    rw [hn, hkey, hval, List.filter_filterMap]
    refine List.filterMap_congr fun j hj => ?_
    have hj := List.mem_range.mp hj
    by_cases hjp : j = p
    · subst hjp; simp [hnp, hpl.2, Option.filter_some]
    · rw [if_congr (hhole j hjp) rfl rfl]
      by_cases hh : o.next j = -2
      · simp [hh]
      · have : o.key j ≠ o.key p := fun he => hjp (h.keys j p ⟨hj, hh⟩ hpl he)
        simp [hh, this, Option.filter_some]
  refine ⟨⟨?_, ?_, ?_, ?_, ?_, ?_⟩, hn, hhs, hhole, hcont, hkey, hval⟩
  · rw [hhs, hn]; exact h.pow
  · intro j hj
    rw [hn] at hj
    by_cases hjp : j = p
    · subst hjp; omega
    · rw [hno j hjp]
      rcases hwa j with e | ⟨_, e⟩
      · rw [e]; exact h.low j hj
      · rw [e]; exact h.low p hpn
  · intro b' hb'
    rw [hhs] at hb'
    by_cases hbb : b' = b
    · subst hbb
      refine ⟨a ++ r, ?_, ?_, ?_⟩
      · have hwc := write_chain (o := o) (x := o.next p) (N := o.n) (a := a) (r := p :: r) (c := r) (L := .head b')
          (fun j hj => by cases hj) n1 c1
          (ht.congr (Nat.le_refl _) fun j hj => hw j (fun hja => n3 j hja j (by simp [hj]) rfl))
        rw [hn, hhash]
        refine Chain.congr (Nat.le_refl _) (fun j hj => hno j ?_) hwc
        rintro rfl
        rcases List.mem_append.mp hj with hj | hj
        · exact hpa hj
        · exact n4.1 hj
      · exact List.nodup_append.mpr ⟨n1, n4.2, fun x hx y hy => n3 x hx y (by simp [hy])⟩
      · intro j
        have := c3 j
        rw [hlive, hbk, hkey]
        simp only [List.mem_append, List.mem_cons] at this ⊢
        constructor
        · rintro hj
          have hjj := this.mp (by tauto)
          refine ⟨⟨hjj.1, ?_⟩, hjj.2⟩
          rintro rfl
          rcases hj with hj | hj
          · exact hpa hj
          · exact n4.1 hj
        · rintro ⟨⟨h1, h2⟩, h3⟩
          rcases this.mpr ⟨h1, h3⟩ with hj | hj | hj
          · exact .inl hj
          · exact absurd hj h2
          · exact .inr hj
    · obtain ⟨m, d1, d2, d3⟩ := h.chains b' hb'
      refine ⟨m, ?_, d2, ?_⟩
      · have hh : o'.hash b' = o.hash b' := by
          rw [hhash]
          rcases hloc with ⟨_, e⟩ | ⟨y, hy, e⟩
          · rw [e]; exact Function.update_of_ne hbb ..
          · rw [e]; rfl
        rw [hh, hn]
        refine d1.congr (Nat.le_refl _) fun j hj => ?_
        have hd := (d3 j).mp hj
        have hnot : j ∉ a ++ p :: r := fun hm => hbb (hd.2.symm.trans ((c3 j).mp hm).2)
        rw [hno j (fun hh => hnot (by simp [hh])), hw j (fun hh => hnot (by simp [hh]))]
      · intro j
        rw [hlive, d3 j, hbk, hkey]
        constructor
        · rintro ⟨h1, h2⟩
          refine ⟨⟨h1, ?_⟩, h2⟩
          rintro rfl
          exact hbb (h2.symm.trans ((c3 j).mp (by simp)).2)
        · rintro ⟨⟨h1, _⟩, h2⟩; exact ⟨h1, h2⟩
  · intro i j hi hj hij
    rw [hkey] at hij
    exact h.keys i j ((hlive i).mp hi).1 ((hlive j).mp hj).1 hij
  · rw [hsize, hcont, h.size]
    have hmem : (o.key p, o.val p) ∈ o.contents := mem_contents.mpr ⟨p, hpl, rfl, rfl⟩
    have hnd := h.nodup
    have key : ∀ (l : List (Bytes × β)), (l.map Prod.fst).Nodup → ∀ x ∈ l,
        (l.filter (fun y => decide (y.1 ≠ x.1))).length + 1 = l.length := by
      intro l
      induction l with
      | nil => intro _ x hx; simp at hx
      | cons y l ih =>
        intro hnd x hx
        rw [List.map_cons, List.nodup_cons] at hnd
        rcases List.mem_cons.mp hx with rfl | hx
        · have : l.filter (fun y => decide (y.1 ≠ x.1)) = l := by
            refine List.filter_eq_self.mpr fun z hz => ?_
            have : z.1 ≠ x.1 := fun hh => hnd.1 (hh ▸ List.mem_map_of_mem hz)
            simp [this]
          rw [List.filter_cons, this]
          simp
        · have hne : y.1 ≠ x.1 := fun hh => hnd.1 (hh ▸ List.mem_map_of_mem hx)
          rw [List.filter_cons]
          simp only [ne_eq, hne, not_false_eq_true, decide_true, if_true, List.length_cons]
          have := ih hnd.2 x hx
          simp only [ne_eq] at this
          omega
    have := key _ hnd _ hmem
    simp only [ne_eq] at this ⊢
    omega
  · rw [hn, hcap]; exact h.cap

theorem erase_spec {hc : Bytes → Nat} {o : Obj β} (h : Inv hc o) (h0 : o.hsize ≠ 0) (k : Bytes) :
    ∃ o', Inv hc o' ∧ o'.n = o.n ∧ o'.hsize = o.hsize ∧ o'.contents = o.contents.filter (fun x => decide (x.1 ≠ k)) ∧
      o.erase hc k = some (o', if k ∈ o.contents.map Prod.fst then 1 else 0) := by
  obtain ⟨l, c1, c2, c3, hw⟩ := h.walk h0 k
  unfold Obj.erase
  rcases hw with ⟨a, j, r, rfl, w2, w3, w4, w5⟩ | ⟨w2, w4, w5⟩
  · obtain ⟨h1, h2, h3, _, h4, _⟩ := h.cut (h.bucket_lt h0 k) c1 c2 c3
    refine ⟨_, h1, h2, h3, by rw [h4, w3], ?_⟩
    rw [if_pos (mem_keys.mpr ⟨j, w2, w3⟩)]
    simp [w4, w5]
  · refine ⟨o, h, rfl, rfl, ?_, ?_⟩
    · refine (List.filter_eq_self.mpr fun x hx => ?_).symm
      obtain ⟨j, hj, hk, _⟩ := mem_contents.mp (show (x.1, x.2) ∈ o.contents from hx)
      have := w2 j hj
      simp [← hk, this]
    · rw [if_neg (by rw [mem_keys]; rintro ⟨j, h1, h2⟩; exact w2 j h1 h2)]
      simp [w4, w5]

theorem eraseAt_spec {hc : Bytes → Nat} {o : Obj β} (h : Inv hc o) {p : Nat} (hp : o.Live p) :
    ∃ o', o.eraseAt hc p = some o' ∧ Inv hc o' ∧ o'.n = o.n ∧ (∀ j, j ≠ p → (o'.next j = -2 ↔ o.next j = -2)) ∧
      o'.contents = o.contents.filter (fun x => decide (x.1 ≠ o.key p)) ∧ o'.key = o.key ∧ o'.val = o.val := by
  have h0 : o.hsize ≠ 0 := by
    intro h0
    rcases h.pow with ⟨_, hn⟩ | ⟨e, he⟩
    · have := hp.1; omega
    · have := Nat.two_pow_pos e; omega
  have hb := h.bucket_lt h0 (o.key p)
  obtain ⟨l, c1, c2, c3⟩ := h.chains _ hb
  have hL : o.ok (.head (o.bucket hc (o.key p))) := hb
  unfold Obj.eraseAt
  rcases walk_spec (stop := fun j => j == p) (L := .head (o.bucket hc (o.key p))) (f := o.n + 1) (c := 0) hL c1
    (Nat.lt_succ_of_le (nodup_length c2 c1.lt)) with ⟨a, j, r, rfl, e2, e3, e4⟩ | ⟨e3, e4⟩
  · have e2 : j = p := by simpa using e2
    subst e2
    obtain ⟨h1, h2, h3, h5, h4, h6, h7⟩ := h.cut hb c1 c2 c3
    obtain ⟨g1, g2, _⟩ := endLoc_ok (l := a) (c := j :: r) hL c1
    refine ⟨_, ?_, h1, h2, h5, h4, h6, h7⟩
    simp only [e4, Obj.read_eq g1, g2, if_true]
  · have := e3 p ((c3 p).mpr ⟨hp, rfl⟩)
    simp at this

/-! ### Values -/

theorem Inv.setVal {hc : Bytes → Nat} {o : Obj β} (h : Inv hc o) {p : Nat} (hp : o.Live p) (v : β) :
    Inv hc { o with val := Function.update o.val p v } ∧
    Obj.contents { o with val := Function.update o.val p v } =
      o.contents.map (fun x => if x.1 = o.key p then (x.1, v) else x) := by
  have hcont : Obj.contents { o with val := Function.update o.val p v } =
      o.contents.map (fun x => if x.1 = o.key p then (x.1, v) else x) := by
    unfold Obj.contents
    rw [List.map_filterMap]
    refine List.filterMap_congr fun j hj => ?_
    have hj := List.mem_range.mp hj
    by_cases hh : o.next j = -2
    · simp [hh]
    · by_cases hjp : j = p
      · subst hjp; simp [hh]
      · have : o.key j ≠ o.key p := fun he => hjp (h.keys j p ⟨hj, hh⟩ hp he)
        simp [hh, this, Function.update_of_ne hjp]
  refine ⟨⟨h.pow, h.low, h.chains, h.keys, ?_, h.cap⟩, hcont⟩
  rw [hcont, List.length_map]
  exact h.size

end Verif.Json.Table
