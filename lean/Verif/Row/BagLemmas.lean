import Verif.Row.Bag

/-!
# Rows in the bag layout: what updates build
-/
namespace Verif.Row.Bag
open Verif.Key (Bytes)

/-- Offsets of consecutive columns from offset `b` on. -/
def offs : Nat → List Bytes → List Nat
  | _, [] => []
  | b, c :: cs => b :: offs (b + c.length) cs

/-- The row with the given columns. -/
def ofCols (ts : BitVec 64) (cs : List Bytes) : Row :=
  { ts := ts
    ncol := cs.length
    pos := offs (hdr cs.length) cs ++ [hdr cs.length + cs.flatten.length]
    data := cs.flatten }

/-- The encoded row fits the offset type. -/
def Fits (cs : List Bytes) : Prop := hdr cs.length + cs.flatten.length < 65536

@[simp] theorem offs_length (b : Nat) (cs : List Bytes) : (offs b cs).length = cs.length := by
  induction cs generalizing b with
  | nil => rfl
  | cons c cs ih => simp [offs, ih]

theorem offs_append (b : Nat) (x y : List Bytes) : offs b (x ++ y) = offs b x ++ offs (b + x.flatten.length) y := by
  induction x generalizing b with
  | nil => simp [offs]
  | cons c x ih => simp [offs, ih, Nat.add_assoc]

theorem offs_nils (b n : Nat) : offs b (List.replicate n []) = List.replicate n b := by
  induction n with
  | zero => rfl
  | succ n ih => simp [List.replicate_succ, offs, ih]

theorem flatten_nils (n : Nat) : (List.replicate n ([] : Bytes)).flatten = [] := by
  induction n with
  | zero => rfl
  | succ n ih => simp [List.replicate_succ, ih]

theorem off16_of_lt {n : Nat} (h : n < 65536) : off16 (n : Int) = n := by
  unfold off16; omega

theorem at_ofCols (ts : BitVec 64) (cs : List Bytes) {i : Nat} (h : i ≤ cs.length) :
    (ofCols ts cs).at i = hdr cs.length + (cs.take i).flatten.length := by
  have key : ∀ (b : Nat) (cs : List Bytes) (i : Nat), i ≤ cs.length →
      (offs b cs ++ [b + cs.flatten.length]).getD i 0 = b + (cs.take i).flatten.length := by
    intro b cs
    induction cs generalizing b with
    | nil => intro i h; have : i = 0 := by simpa using h
             subst this; simp [offs]
    | cons c cs ih =>
      intro i h
      cases i with
      | zero => simp [offs]
      | succ i =>
        have := ih (b + c.length) i (by simpa using h)
        simp only [offs, List.cons_append, List.getD_cons_succ, List.take_succ_cons, List.flatten_cons,
          List.length_append]
        rw [← Nat.add_assoc, this, Nat.add_assoc]
  exact key _ _ _ h

theorem read_ofCols (ts : BitVec 64) (cs : List Bytes) {i j : Nat} (hij : i ≤ j) (hj : j ≤ cs.length) :
    (ofCols ts cs).read ((ofCols ts cs).at i) ((cs.drop i).take (j - i)).flatten.length =
      some ((cs.drop i).take (j - i)).flatten := by
  have hsplit : cs.flatten = (cs.take i).flatten ++ (((cs.drop i).take (j - i)).flatten ++ (cs.drop j).flatten) := by
    rw [← List.flatten_append, ← List.flatten_append]
    congr 1
    have : (cs.drop i).take (j - i) ++ cs.drop j = cs.drop i := by
      have h : cs.drop j = (cs.drop i).drop (j - i) := by rw [List.drop_drop]; congr 1; omega
      rw [h, List.take_append_drop]
    rw [this, List.take_append_drop]
  unfold Row.read
  split
  · rename_i h0
    rw [List.length_eq_zero_iff.1 h0]
  · rw [at_ofCols ts cs (by omega)]
    have hl : (ofCols ts cs).data.length = (cs.take i).flatten.length +
        (((cs.drop i).take (j - i)).flatten.length + (cs.drop j).flatten.length) := by
      show cs.flatten.length = _
      rw [hsplit, List.length_append, List.length_append]
    have hn : (ofCols ts cs).ncol = cs.length := rfl
    rw [if_pos ⟨by rw [hn]; omega, by rw [hl, hn]; omega⟩, hn]
    congr 1
    show (cs.flatten.drop _).take _ = _
    have e : hdr cs.length + (cs.take i).flatten.length - hdr cs.length = (cs.take i).flatten.length := by omega
    rw [e]
    conv => lhs; rw [hsplit]
    rw [List.drop_left, List.take_left]

theorem columnLength_ofCols (ts : BitVec 64) {cs : List Bytes} (hf : Fits cs) {i : Nat} (h : i < cs.length) :
    (ofCols ts cs).columnLength i = cs[i].length := by
  unfold Row.columnLength
  rw [at_ofCols ts cs (by omega), at_ofCols ts cs (by omega), List.take_succ_eq_append_getElem h]
  have hle : cs[i].length ≤ cs.flatten.length := by
    have h4 : cs.flatten.length = (cs.take i).flatten.length + (cs[i].length + (cs.drop (i + 1)).flatten.length) := by
      conv => lhs; rw [← List.take_append_drop i cs, List.drop_eq_getElem_cons h]
      simp only [List.flatten_append, List.flatten_cons, List.length_append]
    omega
  have : (((hdr cs.length + (cs.take i ++ [cs[i]]).flatten.length : Nat) : Int) -
      ((hdr cs.length + (cs.take i).flatten.length : Nat) : Int)) = (cs[i].length : Int) := by
    simp only [List.flatten_append, List.length_append, List.flatten_cons, List.flatten_nil, List.append_nil]
    omega
  rw [this]
  unfold Fits at hf
  exact off16_of_lt (by omega)

theorem col_ofCols (ts : BitVec 64) {cs : List Bytes} (hf : Fits cs) (i : Nat) :
    (ofCols ts cs).col i = some (cs.getD i []) := by
  unfold Row.col
  have hn : (ofCols ts cs).ncol = cs.length := rfl
  rw [hn]
  by_cases h : i < cs.length
  · rw [if_pos h, columnLength_ofCols ts hf h]
    have := read_ofCols ts cs (i := i) (j := i + 1) (by omega) (by omega)
    have e : (cs.drop i).take (i + 1 - i) = [cs[i]] := by
      rw [List.drop_eq_getElem_cons h, Nat.add_sub_cancel_left]; rfl
    rw [e] at this
    simpa [h] using this
  · rw [if_neg h]
    rw [List.getD_eq_getElem?_getD, List.getElem?_eq_none (by omega)]
    rfl

/-! ### Updates -/

/-- Overlay of the updates on the columns `cs`, which begin at column `k`. -/
def over : Nat → List Bytes → List (Nat × Bytes) → List Bytes
  | _, cs, [] => cs
  | k, cs, (i, v) :: ups =>
    cs.take (i - k) ++ List.replicate (i - k - cs.length) [] ++ v :: over (i + 1) (cs.drop (i - k + 1)) ups

/-- The updates' columns increase from `k` on. -/
def Incr : Nat → List (Nat × Bytes) → Prop
  | _, [] => True
  | k, (i, _) :: ups => k ≤ i ∧ Incr (i + 1) ups

theorem newSize_spec (ts : BitVec 64) {cs : List Bytes} (hf : Fits cs) : ∀ (ups : List (Nat × Bytes)) (k : Nat) (sz : Int),
    Incr k ups →
    newSize (ofCols ts cs) ups sz (max cs.length k) =
      (sz + (over k (cs.drop k) ups).flatten.length - (cs.drop k).flatten.length,
        k + (over k (cs.drop k) ups).length)
  | [], k, sz, _ => by
    simp only [newSize, over, List.length_drop]
    refine Prod.ext ?_ ?_
    · dsimp only; omega
    · dsimp only; omega
  | (i, v) :: ups, k, sz, h => by
    have hn : (ofCols ts cs).ncol = cs.length := rfl
    have hd : (cs.drop k).drop (i - k + 1) = cs.drop (i + 1) := by
      rw [List.drop_drop]; congr 1; have := h.1; omega
    simp only [newSize, hn, over, hd]
    have hki := h.1
    by_cases hi : i < cs.length
    · rw [if_pos hi]
      have e : max cs.length k = max cs.length (i + 1) := by omega
      rw [e, newSize_spec ts hf ups (i + 1) _ h.2, columnLength_ofCols ts hf hi]
      have hz : i - k - (cs.drop k).length = 0 := by rw [List.length_drop]; omega
      have hspl : cs.drop k = (cs.drop k).take (i - k) ++ cs[i] :: cs.drop (i + 1) := by
        have h2 := List.take_append_drop (i - k) (cs.drop k)
        rw [List.drop_drop] at h2
        have e3 : k + (i - k) = i := by omega
        rw [e3, List.drop_eq_getElem_cons hi] at h2
        exact h2.symm
      have hl : (cs.drop k).flatten.length = ((cs.drop k).take (i - k)).flatten.length +
          (cs[i].length + (cs.drop (i + 1)).flatten.length) := by
        conv => lhs; rw [hspl]
        simp only [List.flatten_append, List.flatten_cons, List.length_append]
      have hl2 : ((cs.drop k).take (i - k)).length = i - k := by
        rw [List.length_take, List.length_drop]; omega
      rw [hz]
      simp only [List.replicate_zero, List.append_nil, List.flatten_append, List.flatten_cons, List.length_append,
        List.length_cons]
      refine Prod.ext ?_ ?_
      · dsimp only
        rw [hl]
        simp only [Int.natCast_add]
        omega
      · dsimp only; omega
    · rw [if_neg hi]
      have e : i + 1 = max cs.length (i + 1) := by omega
      have := newSize_spec ts hf ups (i + 1) (sz + v.length) h.2
      rw [← e] at this
      rw [this]
      have h1 : (cs.drop k).take (i - k) = cs.drop k := List.take_of_length_le (by rw [List.length_drop]; omega)
      have h2 : cs.drop (i + 1) = [] := List.drop_eq_nil_of_le (by omega)
      rw [h1, h2]
      simp only [List.flatten_append, List.flatten_cons, List.length_append, List.length_cons, flatten_nils,
        List.length_nil, List.length_replicate, List.flatten_nil, List.length_drop]
      refine Prod.ext ?_ ?_
      · dsimp only
        simp only [Int.natCast_add]
        omega
      · dsimp only; omega

theorem advance_spec (ts : BitVec 64) (cs : List Bytes) (ncol : Nat) (cap : Int) (i : Nat) (done : List Bytes)
    (hk : done.length ≤ i) (hi : i ≤ ncol)
    (new : List Bytes) (hnew : new = done ++ ((cs.drop done.length).take (i - done.length) ++
      List.replicate (i - done.length - (cs.drop done.length).length) []))
    (hcap : (new.flatten.length : Int) ≤ cap) (hfit : hdr ncol + new.flatten.length < 65536) :
    advance (ofCols ts cs) ncol cap i done.length (offs (hdr ncol) done) done.flatten =
      some (offs (hdr ncol) new, new.flatten) := by
  have hnl : new.length = i := by
    rw [hnew]
    simp only [List.length_append, List.length_take, List.length_drop, List.length_replicate]
    omega
  have hn : (ofCols ts cs).ncol = cs.length := rfl
  generalize hm : (cs.drop done.length).take (i - done.length) = mid at *
  have hml : mid.length = min (i - done.length) (cs.length - done.length) := by
    rw [← hm, List.length_take, List.length_drop]
  have hnf : new.flatten = done.flatten ++ mid.flatten := by
    rw [hnew]; simp only [List.flatten_append, flatten_nils, List.append_nil]
  unfold advance
  -- the copy
  have hcopy : copyStep (ofCols ts cs) ncol i done.length (offs (hdr ncol) done) done.flatten =
      some (done.length + mid.length, offs (hdr ncol) (done ++ mid), (done ++ mid).flatten) := by
    unfold copyStep
    rw [hn]
    by_cases hc : done.length ≠ i ∧ done.length < cs.length
    · rw [if_pos hc]
      have e1 : min i cs.length = done.length + mid.length := by omega
      have hms : (cs.drop done.length).take (min i cs.length - done.length) = mid := by
        rw [← hm]
        by_cases hle : i ≤ cs.length
        · congr 1; omega
        · rw [List.take_of_length_le (by rw [List.length_drop]; omega),
            List.take_of_length_le (by rw [List.length_drop]; omega)]
      have hread := read_ofCols ts cs (i := done.length) (j := min i cs.length) (by omega) (by omega)
      rw [hms] at hread
      have htk : (cs.take (min i cs.length)).flatten.length = (cs.take done.length).flatten.length + mid.flatten.length := by
        have : cs.take (min i cs.length) = cs.take done.length ++ mid := by
          rw [← hms]
          rw [← List.take_append_drop done.length (cs.take (min i cs.length)), List.take_take,
            Nat.min_eq_left (by omega), List.drop_take]
        rw [this, List.flatten_append, List.length_append]
      have hamt : ((ofCols ts cs).at (min i cs.length) : Int) - (ofCols ts cs).at done.length = mid.flatten.length := by
        rw [at_ofCols ts cs (by omega), at_ofCols ts cs (by omega), htk]; omega
      unfold copyOld
      dsimp only
      rw [hamt, if_neg (by omega), Int.toNat_natCast, hread]
      dsimp only
      rw [List.take_of_length_le (by simp), e1]
      congr 2
      · rw [offs_append]
        congr 2
        have hpos : ((ofCols ts cs).pos.drop done.length).take (done.length + mid.length - done.length) =
            offs (hdr cs.length + (cs.take done.length).flatten.length) mid := by
          show ((offs (hdr cs.length) cs ++ _).drop done.length).take _ = _
          rw [List.drop_append_of_le_length (by simp; omega)]
          have h1 : offs (hdr cs.length) cs = offs (hdr cs.length) (cs.take done.length) ++
              offs (hdr cs.length + (cs.take done.length).flatten.length) (cs.drop done.length) := by
            rw [← offs_append, List.take_append_drop]
          rw [h1, List.drop_append_of_le_length (by simp; omega), List.drop_eq_nil_of_le (by simp; omega),
            List.nil_append]
          have h2 : cs.drop done.length = mid ++ (cs.drop done.length).drop mid.length := by
            have : (cs.drop done.length).take mid.length = mid := by
              rw [← hms]; congr 1; rw [hms]; omega
            conv => lhs; rw [← List.take_append_drop mid.length (cs.drop done.length), this]
          rw [h2, offs_append, List.append_assoc, Nat.add_sub_cancel_left,
            List.take_append_of_le_length (by simp), List.take_of_length_le (by simp)]
        rw [hpos, at_ofCols ts cs (by omega)]
        have hshift : ∀ (b c : Nat) (m : List Bytes), c + m.flatten.length < 65536 →
            (offs b m).map (fun (p : Nat) => off16 (p + ((c : Int) - b))) = offs c m := by
          intro b c m
          have gen : ∀ (m : List Bytes) (x : Nat), c + (x + m.flatten.length) < 65536 →
              (offs (b + x) m).map (fun (p : Nat) => off16 (p + ((c : Int) - b))) = offs (c + x) m := by
            intro m
            induction m with
            | nil => intro x _; rfl
            | cons a m ih =>
              intro x hx
              simp only [List.flatten_cons, List.length_append] at hx
              simp only [offs, List.map_cons]
              rw [Nat.add_assoc, ih (x + a.length) (by omega), Nat.add_assoc]
              congr 1
              have : ((b + x : Nat) : Int) + ((c : Int) - b) = ((c + x : Nat) : Int) := by omega
              rw [this]
              exact off16_of_lt (by omega)
          intro h
          simpa using gen m 0 (by omega)
        have hfit2 : hdr ncol + done.flatten.length + mid.flatten.length < 65536 := by
          rw [hnf, List.length_append] at hfit; omega
        have := hshift (hdr cs.length + (cs.take done.length).flatten.length) (hdr ncol + done.flatten.length) mid hfit2
        rw [← this]
        rw [List.flatten_append]
    · rw [if_neg hc]
      have hm0 : mid = [] := by
        apply List.length_eq_zero_iff.1
        omega
      rw [hm0]; simp
  rw [hcopy]
  dsimp only
  rw [if_neg (by
    rw [List.flatten_append, ← hnf]
    omega)]
  congr 2
  · rw [List.take_of_length_le (by simp)]
    have : i - (done.length + mid.length) = i - done.length - (cs.drop done.length).length := by
      rw [List.length_drop]; omega
    unfold fill
    rw [this, hnew, ← List.append_assoc, offs_append (hdr ncol) (done ++ mid), offs_nils]
    congr 2
    exact off16_of_lt (by rw [List.flatten_append, ← hnf]; exact hfit)
  · rw [List.flatten_append, hnf]

theorem build_spec (ts : BitVec 64) (cs : List Bytes) (ncol : Nat) (cap : Int) :
    ∀ (ups : List (Nat × Bytes)) (done new : List Bytes), Incr done.length ups →
      new = done ++ over done.length (cs.drop done.length) ups → ncol = new.length →
      (new.flatten.length : Int) ≤ cap → hdr ncol + new.flatten.length < 65536 →
      build (ofCols ts cs) ncol cap ups done.length (offs (hdr ncol) done) done.flatten =
        some (offs (hdr ncol) new ++ [hdr ncol + new.flatten.length], new.flatten)
  | [], done, new, _, hnew, hn, hcap, hfit => by
    simp only [over] at hnew
    unfold build
    have hlen : ncol = done.length + (cs.drop done.length).length := by rw [hn, hnew, List.length_append]
    rw [advance_spec ts cs ncol cap ncol done (by omega) (Nat.le_refl _) new
      (by
        rw [hnew]
        have h1 : (cs.drop done.length).take (ncol - done.length) = cs.drop done.length :=
          List.take_of_length_le (by omega)
        have h2 : ncol - done.length - (cs.drop done.length).length = 0 := by omega
        rw [h1, h2]; simp) hcap hfit]
    dsimp only
    rw [off16_of_lt hfit]
  | (i, v) :: ups, done, new, h, hnew, hn, hcap, hfit => by
    simp only [over] at hnew
    have hki := h.1
    generalize hpre : (cs.drop done.length).take (i - done.length) ++
      List.replicate (i - done.length - (cs.drop done.length).length) [] = pre at *
    have hprel : (done ++ pre).length = i := by
      rw [← hpre]
      simp only [List.length_append, List.length_take, List.length_drop, List.length_replicate]
      omega
    have hd1 : (done ++ pre ++ [v]).length = i + 1 := by rw [List.length_append, hprel]; rfl
    have hnew' : new = (done ++ pre ++ [v]) ++ over (done ++ pre ++ [v]).length (cs.drop (done ++ pre ++ [v]).length) ups := by
      rw [hnew, hd1, List.drop_drop]
      have : done.length + (i - done.length + 1) = i + 1 := by omega
      rw [this]
      simp
    have hnl : new.length = i + 1 + (over (done ++ pre ++ [v]).length (cs.drop (done ++ pre ++ [v]).length) ups).length := by
      conv => lhs; rw [hnew']
      rw [List.length_append, hd1]
    have hfl : new.flatten.length = ((done ++ pre).flatten ++ v).length +
        (over (done ++ pre ++ [v]).length (cs.drop (done ++ pre ++ [v]).length) ups).flatten.length := by
      conv => lhs; rw [hnew']
      rw [List.flatten_append, List.length_append, List.flatten_append, List.flatten_singleton]
    have hfl2 : ((done ++ pre).flatten ++ v).length = (done ++ pre).flatten.length + v.length := List.length_append
    unfold build
    rw [advance_spec ts cs ncol cap i done hki (by omega) (done ++ pre) (by rw [← hpre]) (by omega) (by omega)]
    dsimp only
    rw [if_neg (by omega), if_neg (by omega), off16_of_lt (by omega)]
    have := build_spec ts cs ncol cap ups (done ++ pre ++ [v]) new (by rw [hd1]; exact h.2) hnew' hn hcap hfit
    have e2 : (done ++ pre ++ [v]).flatten = (done ++ pre).flatten ++ v := by
      rw [List.flatten_append (L₁ := done ++ pre), List.flatten_singleton]
    rw [hd1, offs_append, e2] at this
    exact this

theorem over_single {cs : List Bytes} {i : Nat} {v : Bytes} (hi : i < cs.length) :
    over 0 cs [(i, v)] = cs.set i v := by
  simp only [over, Nat.sub_zero]
  have : i - cs.length = 0 := by omega
  rw [this, List.set_eq_take_append_cons_drop, if_pos hi]
  simp

/-- An update builds the row with the overlaid columns. -/
theorem update_ofCols (ts ts' : BitVec 64) {cs : List Bytes} (hf : Fits cs) {ups : List (Nat × Bytes)} (hi : Incr 0 ups)
    (hf' : Fits (over 0 cs ups)) :
    (ofCols ts cs).update ups ts' = some (ofCols ts' (over 0 cs ups)) := by
  have hns := newSize_spec ts hf ups 0 (ofCols ts cs).size hi
  have hmx : max cs.length 0 = (ofCols ts cs).ncol := by show _ = cs.length; omega
  rw [hmx, List.drop_zero, Nat.zero_add] at hns
  have hn : (ofCols ts cs).ncol = cs.length := rfl
  have hsize : (ofCols ts cs).size = 8 + hdr cs.length + cs.flatten.length := by
    unfold Row.size
    rw [hn, at_ofCols ts cs (Nat.le_refl _), List.take_length]; omega
  unfold Fits at hf hf'
  have hmono : cs.length ≤ (over 0 cs ups).length := by
    have hind : ∀ (ups : List (Nat × Bytes)) (k : Nat) (xs : List Bytes), Incr k ups → xs.length ≤ (over k xs ups).length := by
      intro ups
      induction ups with
      | nil => intro k xs _; exact Nat.le_refl _
      | cons u ups ih =>
        obtain ⟨i, v⟩ := u
        intro k xs h
        have := ih (i + 1) (xs.drop (i - k + 1)) h.2
        have hki := h.1
        simp only [over, List.length_append, List.length_take, List.length_replicate, List.length_cons]
        rw [List.length_drop] at this
        omega
    exact hind ups 0 cs hi
  generalize hnew : over 0 cs ups = new at *
  have hszv : (if new.length > cs.length then
      ((ofCols ts cs).size : Int) + (new.flatten.length : Int) - (cs.flatten.length : Int) + ((new.length - cs.length : Nat) : Int) * 2
      else ((ofCols ts cs).size : Int) + (new.flatten.length : Int) - (cs.flatten.length : Int)) =
      8 + hdr new.length + new.flatten.length := by
    rw [hsize]; unfold hdr
    split <;> omega
  have hgen : build (ofCols ts cs) new.length (new.flatten.length : Int) ups 0 [] [] =
      some (offs (hdr new.length) new ++ [hdr new.length + new.flatten.length], new.flatten) := by
    have := build_spec ts cs new.length new.flatten.length ups [] new hi (by rw [← hnew]; simp) rfl (Int.le_refl _) hf'
    simpa [offs] using this
  unfold Row.update
  rw [hns]
  dsimp only
  rw [hn, hszv]
  have hcap : ((8 + hdr new.length + new.flatten.length : Int) % 2 ^ 64 - 8 - hdr new.length) = new.flatten.length := by
    rw [Int.emod_eq_of_lt (by omega) (by omega)]; omega
  rw [hcap, hgen]
  dsimp only
  have hoff : off16 (new.length : Int) = new.length := off16_of_lt (by unfold hdr at hf'; omega)
  rw [hoff]
  match ups, hi, hnew with
  | [], _, _ => rfl
  | [(i, v)], _, hnew =>
    dsimp only
    split
    · rename_i hc
      have hil : i < cs.length := by
        have h1 : new.length = cs.length := hc.1
        rw [← hnew] at h1
        simp only [over, List.length_append, List.length_take, List.length_replicate, List.length_cons,
          List.length_drop] at h1
        omega
      rw [over_single hil] at hnew
      have hlen : cs[i].length = v.length := by
        have h2 := hc.2.1
        have h1 : new.length = cs.length := hc.1
        rw [hsize, h1] at h2
        have h3 : new.flatten.length = cs.flatten.length := by omega
        rw [← hnew, List.set_eq_take_append_cons_drop, if_pos hil] at h3
        have h4 : cs.flatten.length = (cs.take i).flatten.length + (cs[i].length + (cs.drop (i + 1)).flatten.length) := by
          conv => lhs; rw [← List.take_append_drop i cs, List.drop_eq_getElem_cons hil]
          simp only [List.flatten_append, List.flatten_cons, List.length_append]
        rw [h4] at h3
        simp only [List.flatten_append, List.flatten_cons, List.length_append] at h3
        omega
      have hat := at_ofCols ts cs (i := i) (by omega)
      have h4 : cs.flatten = (cs.take i).flatten ++ (cs[i] ++ (cs.drop (i + 1)).flatten) := by
        conv => lhs; rw [← List.take_append_drop i cs, List.drop_eq_getElem_cons hil]
        simp only [List.flatten_append, List.flatten_cons]
      have hdl : (ofCols ts cs).data = (cs.take i).flatten ++ (cs[i] ++ (cs.drop (i + 1)).flatten) := h4
      rw [hat, hdl]
      have hsub : hdr cs.length + (cs.take i).flatten.length - hdr cs.length = (cs.take i).flatten.length := by omega
      rw [if_pos ⟨by omega, by simp only [List.length_append]; omega⟩, hsub, List.take_left, ← List.drop_drop,
        List.drop_left, List.drop_append_of_le_length (by omega), List.drop_eq_nil_of_le (by omega), List.nil_append]
      have hnf : new.flatten = (cs.take i).flatten ++ v ++ (cs.drop (i + 1)).flatten := by
        rw [← hnew, List.set_eq_take_append_cons_drop, if_pos hil]
        simp only [List.flatten_append, List.flatten_cons, List.append_assoc]
      have hnl : new.length = cs.length := hc.1
      have hfl : new.flatten.length = cs.flatten.length := by
        rw [hnf, h4]; simp only [List.length_append]; omega
      unfold ofCols
      congr 2
      · exact hnl.symm
      · rw [hnl, hfl]
        congr 1
        have hset : ∀ (b : Nat), offs b cs = offs b new := by
          intro b
          rw [← hnew, List.set_eq_take_append_cons_drop, if_pos hil, offs_append]
          conv => lhs; rw [← List.take_append_drop i cs, List.drop_eq_getElem_cons hil, offs_append]
          simp only [offs]
          rw [hlen]
        show offs _ cs ++ [_] = _
        rw [hset]
      · exact hnf.symm
    · rfl
  | a :: b :: l, _, _ => rfl

end Verif.Row.Bag
