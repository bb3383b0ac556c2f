import Verif.Tree.Full
import Verif.Props.C05

/-!
# Split points of a parallel checkpoint

Model of `findpv` (/repo/query_masstree.cc:95-151) on a tree that does not change meanwhile, so that every version
check succeeds.  The products of `pvi`, `nbranch` and `size` are taken to fit an `int`: they are below 16 times the
square of the number of checkpoint threads.  `none` is a null node pointer followed or an array index out of bounds.
-/
namespace Verif.Tree
open Verif.Permuter (Word size)
open Verif.Key (Bytes slice LexLt unparseTrim)
variable {α : Type}

/-- `pv_offset`, /repo/query_masstree.cc:118-120. -/
def pvOffset (pvi npv nbranch branchid size : Nat) : Int :=
  ((pvi * (nbranch * size) / npv : Nat) : Int) - ((branchid * size : Nat) : Int)

/-- The bytes returned for a slice, /repo/query_masstree.cc:145-147. -/
def pvBytes (ikey : Nat) : Bytes := unparseTrim 8 (BitVec.ofNat 64 ikey)

mutual
/-- The loop of `findpv`, /repo/query_masstree.cc:108-150. -/
def findpv (pvi npv nbranch branchid : Nat) : Node α → Option Bytes
  | .null => none
  | .leaf perm slots =>
    if size perm = 0 then some []
    else
      let off := min (max (pvOffset pvi npv nbranch branchid (size perm)) 0) ((size perm : Int) - 1)
      some (pvBytes (slotAt slots (Permuter.get perm off.toNat)).ikey)
  | .inode _ keys kids =>
    let sz := keys.length + 1
    let off := pvOffset pvi npv nbranch branchid sz
    if nbranch * sz < npv then
      let o := (min (max off 0) ((sz : Int) - 1)).toNat
      findpvNth pvi npv (nbranch * sz) (branchid * sz + o) kids o
    else
      let o := min (max off 0) ((sz : Int) - 2)
      if o < 0 then none else (keys[o.toNat]?).map pvBytes
/-- `findpv` from `child_[i]` on. -/
def findpvNth (pvi npv nbranch branchid : Nat) : List (Node α) → Nat → Option Bytes
  | [], _ => none
  | c :: _, 0 => findpv pvi npv nbranch branchid c
  | _ :: cs, i + 1 => findpvNth pvi npv nbranch branchid cs i
end

/-- `pv[i]` for `i < n`, `n` the number of checkpoint threads, /repo/query_masstree.cc:155-164 and
/repo/mtd.cc:1654.  `pv[n]` is not used. -/
def pivot (n i : Nat) (t : Node α) : Option Bytes := if i = 0 then some [] else findpv i n 1 0 t

theorem findpvNth_eq (pvi npv nbranch branchid : Nat) (kids : List (Node α)) (i : Nat) :
    findpvNth pvi npv nbranch branchid kids i = (kids[i]?).bind (findpv pvi npv nbranch branchid) := by
  induction kids generalizing i with
  | nil => simp [findpvNth]
  | cons c cs ih =>
    cases i with
    | zero => simp [findpvNth]
    | succ i => simp [findpvNth, ih]

/-! ### Slices and their bytes -/

theorem exists_leNat (n : Nat) : ∀ v, v < 256 ^ n → ∃ bs : Bytes, bs.length = n ∧ Key.leNat bs = v := by
  induction n with
  | zero => intro v hv; exact ⟨[], rfl, by simp [Key.leNat]; omega⟩
  | succ n ih =>
    intro v hv
    obtain ⟨bs, h1, h2⟩ := ih (v / 256) (by rw [Nat.pow_succ] at hv; omega)
    refine ⟨UInt8.ofNat (v % 256) :: bs, by simp [h1], ?_⟩
    simp only [Key.leNat, h2]
    have : (UInt8.ofNat (v % 256)).toNat = v % 256 := by simp
    omega

theorem exists_slice {v : Nat} (h : v < 2 ^ 64) : ∃ k : Bytes, k.length = 8 ∧ slice k = v := by
  obtain ⟨bs, h1, h2⟩ := exists_leNat 8 v (by simpa using h)
  refine ⟨bs.reverse, by simp [h1], ?_⟩
  unfold slice Key.beNat
  have : Key.pad8 bs.reverse = bs.reverse := by
    unfold Key.pad8
    rw [List.take_of_length_le (by simp [h1])]
    simp [h1]
  rw [this, List.reverse_reverse, h2]

theorem slice_pvBytes {v : Nat} (h : v < 2 ^ 64) : slice (pvBytes v) = v := by
  obtain ⟨k, h1, rfl⟩ := exists_slice h
  unfold pvBytes
  rw [Props.C05.unparse_trim]
  have hk : Key.pad8 k = k := by unfold Key.pad8; rw [List.take_of_length_le (by omega)]; simp [h1]
  rw [hk]
  have key : ∀ (z : Bytes), (∀ b ∈ z, b = 0) → ∀ a : Bytes, (a ++ z).length = 8 → slice (a ++ z) = slice a := by
    intro z hz a hl
    unfold slice
    congr 1
    have hz' : z = List.replicate z.length 0 := List.eq_replicate_iff.mpr ⟨rfl, hz⟩
    unfold Key.pad8
    rw [List.length_append] at hl
    rw [List.take_of_length_le (by rw [List.length_append]; omega), List.take_of_length_le (by omega),
      List.length_append, hl, Nat.sub_self, List.replicate_zero, List.append_nil, hz',
      show z.length = 8 - a.length by omega]
  have hsplit : k = (k.reverse.dropWhile (· == 0)).reverse ++ (k.reverse.takeWhile (· == 0)).reverse := by
    rw [← List.reverse_append, List.takeWhile_append_dropWhile, List.reverse_reverse]
  conv => rhs; rw [hsplit]
  refine (key _ ?_ _ (by rw [← hsplit, h1])).symm
  intro b hb
  rw [List.mem_reverse] at hb
  have := List.all_takeWhile (l := k.reverse) (p := (· == 0))
  rw [List.all_eq_true] at this
  simpa using this b hb

theorem pvBytes_zero : pvBytes 0 = [] := by decide +kernel

theorem pvBytes_ne {v : Nat} (h : v < 2 ^ 64) (h0 : v ≠ 0) : pvBytes v ≠ [] := by
  intro e
  have := slice_pvBytes h
  rw [e] at this
  exact h0 (by rw [← this]; decide)

/-- The order of the bytes is that of the slices. -/
theorem pvBytes_mono {a b : Nat} (ha : a ≤ b) (hb : b < 2 ^ 64) : ¬ LexLt (pvBytes b) (pvBytes a) := by
  rcases Nat.lt_or_eq_of_le ha with h | rfl
  · apply Key.lexLt_asymm
    apply Key.lexLt_of_slice_lt
    rw [slice_pvBytes (by omega), slice_pvBytes hb]
    exact h
  · exact Key.lexLt_irrefl _

/-! ### Pivots are increasing -/

/-- A child of an internode is missing, or it is responsible for the interval between its separators. -/
theorem Chain.nth {hi : Option Nat} {ht : Nat} : ∀ {keys : List Nat} {kids : List (Node α)} {b : Bool} {lo : Option Nat},
    Chain b lo hi ht keys kids → ∀ (p : Nat) (c : Node α), kids[p]? = some c → c ≠ .null →
    Inv (if p = 0 then lo else keys[p - 1]?) ((keys[p]?).or hi) c := by
  intro keys
  induction keys with
  | nil =>
    intro kids b lo h p c hp hn
    match kids, h with
    | [d], h =>
      simp only [Chain] at h
      cases p with
      | zero => simp only [List.getElem?_cons_zero, Option.some.injEq] at hp; subst hp; simpa using h.1
      | succ p => simp at hp
  | cons k ks ih =>
    intro kids b lo h p c hp hn
    cases kids with
    | nil => simp at hp
    | cons d ds =>
      simp only [Chain] at h
      cases p with
      | zero =>
        simp only [List.getElem?_cons_zero, Option.some.injEq] at hp
        subst hp
        rcases h.1 with ⟨h1, _⟩ | ⟨h1, _⟩
        · exact absurd h1 hn
        · simpa using h1
      | succ p =>
        rw [List.getElem?_cons_succ] at hp
        have := ih h.2.2 p c hp hn
        rw [if_neg (by omega), Nat.add_sub_cancel, List.getElem?_cons_succ]
        cases p with
        | zero => simpa using this
        | succ q => simpa using this

theorem fullL_nth {lm : Bool} : ∀ {kids : List (Node α)}, FullL lm kids → ∀ (p : Nat) (c : Node α), kids[p]? = some c →
    Full (lm && p == 0) c := by
  intro kids h p c hp
  cases kids with
  | nil => simp at hp
  | cons d ds =>
    cases p with
    | zero => simp at hp; subst hp; simpa using h.1
    | succ p =>
      simp only [Nat.add_eq_zero_iff, Nat.one_ne_zero, and_false, beq_iff_eq, Bool.and_false, 
        show (p + 1 == 0) = false from rfl]
      rw [List.getElem?_cons_succ] at hp
      have h2 := h.2
      clear h
      induction ds generalizing p with
      | nil => simp at hp
      | cons e es ih =>
        cases p with
        | zero => simp at hp; subst hp; exact h2.1
        | succ p => rw [List.getElem?_cons_succ] at hp; exact ih p hp h2.2

/-- The pivot comes from a slice in the node's interval. -/
theorem findpv_range {pvi npv : Nat} (n : Node α) : ∀ (lo hi : Option Nat) (lm : Bool) (nbranch branchid : Nat) (b : Bytes),
    Inv lo hi n → (lm = true → lo = none) → Full lm n → findpv pvi npv nbranch branchid n = some b →
    ∃ v, b = pvBytes v ∧ loLe lo v ∧ (v = 0 ∨ ltHi v hi) := by
  induction n using Node.ind with
  | h0 => intro lo hi lm nb bi b h; simp [Inv] at h
  | h1 perm slots =>
    intro lo hi lm nb bi b h hlm hfull hf
    simp only [Inv] at h
    simp only [findpv] at hf
    have hlen := leafEntries_length perm slots
    by_cases c : size perm = 0
    · rw [if_pos c] at hf
      simp only [Option.some.injEq] at hf
      rcases hfull with hl | hl
      · refine ⟨0, by rw [pvBytes_zero, hf], by rw [hlm hl]; trivial, .inl rfl⟩
      · exact absurd c hl
    · rw [if_neg c] at hf
      simp only [Option.some.injEq] at hf
      generalize ho : (min (max (pvOffset pvi npv nb bi (size perm)) 0) ((size perm : Int) - 1)).toNat = o at hf
      have hlt : o < (leafEntries perm slots).length := by omega
      have hm := h.range _ (List.getElem_mem hlt)
      rw [leafEntries_get perm slots o hlt] at hm
      exact ⟨_, hf.symm, hm.1, .inr hm.2⟩
  | h2 ht keys kids ih =>
    intro lo hi lm nb bi b h hlm hfull hf
    simp only [Inv] at h
    simp only [Full] at hfull
    simp only [findpv] at hf
    have hks := h.2.keys_sorted
    have widen : ∀ {v o : Nat}, v = 0 ∨ ltHi v ((keys[o]?).or hi) → v = 0 ∨ ltHi v hi := by
      intro v o h3
      refine h3.imp_right fun h3 => ?_
      cases hk : keys[o]? with
      | none => rw [hk, Option.none_or] at h3; exact h3
      | some k =>
        rw [hk] at h3
        exact ((hks.2.1 k (List.mem_of_getElem? hk)).1).mono (Nat.le_of_lt h3)
    split at hf
    · generalize ho : (min (max (pvOffset pvi npv nb bi (keys.length + 1)) 0) (((keys.length + 1 : Nat) : Int) - 1)).toNat = o at hf
      rw [findpvNth_eq] at hf
      cases hc : kids[o]? with
      | none => rw [hc] at hf; simp at hf
      | some c =>
        rw [hc] at hf
        simp only [Option.bind_some] at hf
        have hn : c ≠ .null := by rintro rfl; simp [findpv] at hf
        have hinv := h.2.nth o c hc hn
        obtain ⟨v, h1, h2, h3⟩ := ih c (List.mem_of_getElem? hc) _ _ (lm && o == 0) _ _ b hinv
          (by
            intro hl
            simp only [Bool.and_eq_true, beq_iff_eq] at hl
            rw [if_pos hl.2]; exact hlm hl.1) (fullL_nth hfull o c hc) hf
        refine ⟨v, h1, ?_, ?_⟩
        · by_cases ho0 : o = 0
          · rw [if_pos ho0] at h2; exact h2
          · rw [if_neg ho0] at h2
            cases hk : keys[o - 1]? with
            | none =>
              have := List.getElem?_eq_none_iff.mp hk
              have := h.2.length
              obtain ⟨hlt, _⟩ := List.getElem?_eq_some_iff.mp hc
              omega
            | some k =>
              rw [hk] at h2
              exact (hks.2.1 k (List.mem_of_getElem? hk)).2.mono h2
        · exact widen h3
    · split at hf
      · cases hf
      · generalize (min (max (pvOffset pvi npv nb bi (keys.length + 1)) 0) (((keys.length + 1 : Nat) : Int) - 2)).toNat = o at hf
        cases hk : keys[o]? with
        | none => rw [hk] at hf; simp at hf
        | some k =>
          rw [hk] at hf
          simp only [Option.map_some, Option.some.injEq] at hf
          obtain ⟨h4, h5⟩ := hks.2.1 k (List.mem_of_getElem? hk)
          exact ⟨k, hf.symm, h5, .inr h4⟩

theorem pvOffset_mono {i j npv nb bi sz : Nat} (h : i ≤ j) : pvOffset i npv nb bi sz ≤ pvOffset j npv nb bi sz := by
  unfold pvOffset
  have : i * (nb * sz) / npv ≤ j * (nb * sz) / npv := Nat.div_le_div_right (Nat.mul_le_mul_right _ h)
  omega

/-- Later pivots come from larger slices. -/
theorem findpv_mono {npv i j : Nat} (hij : i ≤ j) (n : Node α) : ∀ (lo hi : Option Nat) (lm : Bool) (nbranch branchid : Nat)
    (a b : Bytes), Inv lo hi n → (lm = true → lo = none) → Full lm n → findpv i npv nbranch branchid n = some a →
    findpv j npv nbranch branchid n = some b → ∃ u v, a = pvBytes u ∧ b = pvBytes v ∧ u ≤ v ∧ (v = 0 ∨ ltHi v hi) := by
  induction n using Node.ind with
  | h0 => intro lo hi lm nb bi a b h; simp [Inv] at h
  | h1 perm slots =>
    intro lo hi lm nb bi a b h hlm hfull ha hb
    simp only [Inv] at h
    simp only [findpv] at ha hb
    have hlen := leafEntries_length perm slots
    by_cases c : size perm = 0
    · rw [if_pos c] at ha hb
      simp only [Option.some.injEq] at ha hb
      exact ⟨0, 0, by rw [pvBytes_zero, ha], by rw [pvBytes_zero, hb], Nat.le_refl _, .inl rfl⟩
    · rw [if_neg c] at ha hb
      simp only [Option.some.injEq] at ha hb
      have hm := pvOffset_mono (npv := npv) (nb := nb) (bi := bi) (sz := size perm) hij
      generalize pvOffset i npv nb bi (size perm) = p at ha hm
      generalize pvOffset j npv nb bi (size perm) = q at hb hm
      have hp : (min (max p 0) ((size perm : Int) - 1)).toNat ≤ (min (max q 0) ((size perm : Int) - 1)).toNat := by omega
      have hq : (min (max q 0) ((size perm : Int) - 1)).toNat < (leafEntries perm slots).length := by omega
      generalize (min (max p 0) ((size perm : Int) - 1)).toNat = p' at ha hp
      generalize (min (max q 0) ((size perm : Int) - 1)).toNat = q' at hb hp hq
      have hle := h.sorted.ikey_le hp hq
      have hr := (h.range _ (List.getElem_mem hq)).2
      rw [leafEntries_get perm slots p' (by omega), leafEntries_get perm slots q' hq] at hle
      rw [leafEntries_get perm slots q' hq] at hr
      exact ⟨_, _, ha.symm, hb.symm, hle, .inr hr⟩
  | h2 ht keys kids ih =>
    intro lo hi lm nb bi a b h hlm hfull ha hb
    simp only [Inv] at h
    simp only [Full] at hfull
    simp only [findpv] at ha hb
    have hks := h.2.keys_sorted
    have hlenC := h.2.length
    have widen : ∀ {v o : Nat}, v = 0 ∨ ltHi v ((keys[o]?).or hi) → v = 0 ∨ ltHi v hi := by
      intro v o h3
      refine h3.imp_right fun h3 => ?_
      cases hk : keys[o]? with
      | none => rw [hk, Option.none_or] at h3; exact h3
      | some k =>
        rw [hk] at h3
        exact ((hks.2.1 k (List.mem_of_getElem? hk)).1).mono (Nat.le_of_lt h3)
    have hsorted : ∀ (p q k k' : Nat), p ≤ q → keys[p]? = some k → keys[q]? = some k' → k ≤ k' := by
      intro p q k k' hpq hk hk'
      obtain ⟨h1, rfl⟩ := List.getElem?_eq_some_iff.mp hk
      obtain ⟨h2, rfl⟩ := List.getElem?_eq_some_iff.mp hk'
      rcases Nat.lt_or_eq_of_le hpq with c | rfl
      · exact Nat.le_of_lt (List.pairwise_iff_getElem.mp hks.1 p q h1 h2 c)
      · exact Nat.le_refl _
    have hm := pvOffset_mono (npv := npv) (nb := nb) (bi := bi) (sz := keys.length + 1) hij
    generalize pvOffset i npv nb bi (keys.length + 1) = p at ha hm
    generalize pvOffset j npv nb bi (keys.length + 1) = q at hb hm
    split at ha
    · next hlt =>
      rw [if_pos hlt] at hb
      have hp : (min (max p 0) (((keys.length + 1 : Nat) : Int) - 1)).toNat ≤ (min (max q 0) (((keys.length + 1 : Nat) : Int) - 1)).toNat := by omega
      generalize (min (max p 0) (((keys.length + 1 : Nat) : Int) - 1)).toNat = p' at ha hp
      generalize (min (max q 0) (((keys.length + 1 : Nat) : Int) - 1)).toNat = q' at hb hp
      rw [findpvNth_eq] at ha hb
      cases hc : kids[p']? with
      | none => rw [hc] at ha; simp at ha
      | some c =>
        cases hd : kids[q']? with
        | none => rw [hd] at hb; simp at hb
        | some d =>
          rw [hc] at ha
          rw [hd] at hb
          simp only [Option.bind_some] at ha hb
          have hn : c ≠ .null := by rintro rfl; simp [findpv] at ha
          have hn' : d ≠ .null := by rintro rfl; simp [findpv] at hb
          have hlmc : ∀ o, (lm && o == 0) = true → (if o = 0 then lo else keys[o - 1]?) = none := by
            intro o hl
            simp only [Bool.and_eq_true, beq_iff_eq] at hl
            rw [if_pos hl.2]; exact hlm hl.1
          by_cases he : p' = q'
          · subst he
            rw [hc] at hd
            simp only [Option.some.injEq] at hd
            subst hd
            obtain ⟨u, v, h1, h2, h3, h4⟩ := ih c (List.mem_of_getElem? hc) _ _ (lm && p' == 0) _ _ a b
              (h.2.nth p' c hc hn) (hlmc p') (fullL_nth hfull p' c hc) ha hb
            exact ⟨u, v, h1, h2, h3, widen h4⟩
          · obtain ⟨u, h1, _, h3⟩ := findpv_range c _ _ (lm && p' == 0) _ _ a (h.2.nth p' c hc hn) (hlmc p')
              (fullL_nth hfull p' c hc) ha
            obtain ⟨v, g1, g2, g3⟩ := findpv_range d _ _ (lm && q' == 0) _ _ b (h.2.nth q' d hd hn') (hlmc q')
              (fullL_nth hfull q' d hd) hb
            obtain ⟨hqlt, _⟩ := List.getElem?_eq_some_iff.mp hd
            have hk1 : keys[p']? = some (keys[p']'(by omega)) := List.getElem?_eq_getElem _
            have hk2 : keys[q' - 1]? = some (keys[q' - 1]'(by omega)) := List.getElem?_eq_getElem _
            rw [hk1] at h3
            rw [if_neg (by omega), hk2] at g2
            have e1 : u ≤ keys[p']'(by omega) := by
              rcases h3 with h3 | h3
              · omega
              · exact Nat.le_of_lt h3
            simp only [loLe_some] at g2
            have e2 := hsorted p' (q' - 1) _ _ (by omega) hk1 hk2
            exact ⟨u, v, h1, g1, by omega, widen g3⟩
    · next hlt =>
      rw [if_neg hlt] at hb
      split at ha
      · cases ha
      · split at hb
        · cases hb
        · have hp : (min (max p 0) (((keys.length + 1 : Nat) : Int) - 2)).toNat ≤ (min (max q 0) (((keys.length + 1 : Nat) : Int) - 2)).toNat := by omega
          generalize (min (max p 0) (((keys.length + 1 : Nat) : Int) - 2)).toNat = p' at ha hp
          generalize (min (max q 0) (((keys.length + 1 : Nat) : Int) - 2)).toNat = q' at hb hp
          cases hk1 : keys[p']? with
          | none => rw [hk1] at ha; simp at ha
          | some k1 =>
            cases hk2 : keys[q']? with
            | none => rw [hk2] at hb; simp at hb
            | some k2 =>
              rw [hk1] at ha
              rw [hk2] at hb
              simp only [Option.map_some, Option.some.injEq] at ha hb
              exact ⟨k1, k2, ha.symm, hb.symm, hsorted _ _ _ _ hp hk1 hk2, .inr (hks.2.1 k2 (List.mem_of_getElem? hk2)).1⟩

end Verif.Tree
