import Verif.StringBag.Lemmas
import Verif.Props.C33

/-!
# C29: key-suffix storage never corrupts a neighbour
-/
namespace Verif.Props.C29
open Verif.StringBag Verif.Key

/-- Perform the assignments in turn, recording which ones succeed.  `none` if one of them
writes outside the bag's data area. -/
def assigns {w : Nat} : Bag w → List (Nat × Bytes) → Option (List Bool × Bag w)
  | b, [] => some ([], b)
  | b, (p, s) :: ops =>
    match b.assign p s with
    | none => none
    | some none => (assigns b ops).map fun r => (false :: r.1, r.2)
    | some (some b') => (assigns b' ops).map fun r => (true :: r.1, r.2)

/-- The strings that should be stored: each slot holds the last string whose assignment to it
succeeded. -/
def expected : (Nat → Bytes) → List (Nat × Bytes) → List Bool → Nat → Bytes
  | m, (p, s) :: ops, ok :: oks => expected (if ok then fun q => if q = p then s else m q else m) ops oks
  | m, _, _ => m

theorem assigns_ok {w : Nat} : ∀ (ops : List (Nat × Bytes)) (b : Bag w), b.Ok → (∀ o ∈ ops, o.1 < width) →
    ∃ oks b', assigns b ops = some (oks, b') ∧ oks.length = ops.length ∧ b'.Ok ∧
      b'.mem.length = b.mem.length ∧ ∀ q, b'.get q = expected b.get ops oks q
  | [], b, hb, _ => ⟨[], b, rfl, rfl, hb, rfl, fun _ => rfl⟩
  | (p, s) :: ops, b, hb, h => by
    have hp : p < width := h (p, s) List.mem_cons_self
    have ht : ∀ o ∈ ops, o.1 < width := fun o ho => h o (List.mem_cons_of_mem _ ho)
    rcases assign_spec hb hp s with ⟨b1, e, ok1, g1, g2, ml, _⟩ | ⟨e, _, _⟩
    · obtain ⟨oks, b', e', hl, ok', ml', g⟩ := assigns_ok ops b1 ok1 ht
      refine ⟨true :: oks, b', by simp [assigns, e, e'], by simp [hl], ok', by omega, ?_⟩
      intro q
      have : b1.get = fun q => if q = p then s else b.get q := by
        funext q
        by_cases hq : q = p
        · subst hq; rw [if_pos rfl]; exact g1
        · rw [if_neg hq]; exact g2 q hq
      rw [g q, this]
      rfl
    · obtain ⟨oks, b', e', hl, ok', ml', g⟩ := assigns_ok ops b hb ht
      exact ⟨false :: oks, b', by simp [assigns, e, e'], by simp [hl], ok', ml', fun q => g q⟩

/-- Any sequence of assignments to a new bag, of any capacity below the largest, stays within
the bag's data area, and afterwards every slot reads back the last string whose assignment to
it succeeded. -/
theorem reads_back {w : Nat} (mem : Bytes) (h1 : overhead w ≤ mem.length) (h0 : 0 < mem.length)
    (h2 : mem.length < maxSize w) (ops : List (Nat × Bytes)) (hops : ∀ o ∈ ops, o.1 < width) :
    ∃ oks b, assigns (make w mem) ops = some (oks, b) ∧ oks.length = ops.length ∧
      ∀ q, b.get q = expected (fun _ => []) ops oks q := by
  obtain ⟨oks, b, e, hl, _, _, g⟩ := assigns_ok ops (make w mem) (make_ok h1 h2 h0) hops
  refine ⟨oks, b, e, hl, fun q => ?_⟩
  rw [g q]
  have : (make w mem).get = fun _ => [] := by funext q; exact make_get mem q
  rw [this]

/-- After any sequence of assignments, one more either stores its string, changing no other
slot, or fails; it fails only if the string is longer than the slot's present one and the free
space is smaller than the string or a word. -/
theorem one_assign {w : Nat} (mem : Bytes) (h1 : overhead w ≤ mem.length) (h0 : 0 < mem.length)
    (h2 : mem.length < maxSize w) (ops : List (Nat × Bytes)) (hops : ∀ o ∈ ops, o.1 < width)
    (oks : List Bool) (b : Bag w) (hb : assigns (make w mem) ops = some (oks, b))
    (p : Nat) (hp : p < width) (s : Bytes) :
    (∃ b', b.assign p s = some (some b') ∧ b'.get p = s ∧ ∀ q, q ≠ p → b'.get q = b.get q) ∨
    (b.assign p s = some none ∧ (b.get p).length < s.length ∧ mem.length < b.size + max s.length 8) := by
  obtain ⟨oks', b1, e, hl, ok, ml, g⟩ := assigns_ok ops (make w mem) (make_ok h1 h2 h0) hops
  rw [hb] at e
  cases e
  rcases assign_spec ok hp s with ⟨b1, e, ok1, g1, g2, ml, _⟩ | ⟨e, a, c⟩
  · exact .inl ⟨b1, e, g1, g2⟩
  · exact .inr ⟨e, a, by rw [ml] at c; exact c⟩

/-- A non-empty stored string can be compared a word at a time: the eight bytes at its start lie
within the bag's memory. -/
theorem word_readable {w : Nat} (mem : Bytes) (h1 : overhead w ≤ mem.length) (h0 : 0 < mem.length)
    (h2 : mem.length < maxSize w) (ops : List (Nat × Bytes)) (hops : ∀ o ∈ ops, o.1 < width)
    (oks : List Bool) (b : Bag w) (hb : assigns (make w mem) ops = some (oks, b)) (p : Nat) (hg : b.get p ≠ []) :
    b.pos p + max (b.get p).length 8 ≤ mem.length := by
  obtain ⟨oks', b1, e, hl, ok, ml, g⟩ := assigns_ok ops (make w mem) (make_ok h1 h2 h0) hops
  rw [hb] at e
  cases e
  have hgl := ok.get_length p
  have hpos := List.length_pos_iff.2 hg
  have hml : (make w mem).mem.length = mem.length := rfl
  have := ok.reg p (by omega)
  have := ok.hi
  omega

/-- A bag of the size the code computes holds the strings it is meant for: as long as the
strings assigned so far, together with the next one, total at most `n` bytes, a bag of size
`safe_size` for `n` bytes accepts the next one. -/
theorem safe_size_suffices {w n : Nat} (mem : Bytes) (h1 : safeSize w n ≤ mem.length)
    (h2 : mem.length < maxSize w) : ∀ (ops : List (Nat × Bytes)), (∀ o ∈ ops, o.1 < width) →
    (ops.map fun o => o.2.length).sum ≤ n →
    ∃ b, assigns (make w mem) ops = some (List.replicate ops.length true, b) := by
  have key : ∀ (ops : List (Nat × Bytes)) (b : Bag w), b.Ok → (∀ o ∈ ops, o.1 < width) →
      b.size + (ops.map fun o => o.2.length).sum + 7 ≤ b.mem.length →
      ∃ b', assigns b ops = some (List.replicate ops.length true, b') := by
    intro ops
    induction ops with
    | nil => exact fun b _ _ _ => ⟨b, rfl⟩
    | cons o ops ih =>
      obtain ⟨p, s⟩ := o
      intro b hb h hs
      rw [List.map_cons, List.sum_cons] at hs
      dsimp only at hs
      rcases assign_spec hb (h (p, s) List.mem_cons_self) s with ⟨b1, e, ok1, g1, g2, ml, _, sz, _⟩ | ⟨e, a, c⟩
      · obtain ⟨b', e'⟩ := ih b1 ok1 (fun o ho => h o (List.mem_cons_of_mem _ ho)) (by omega)
        exact ⟨b', by simp [assigns, e, e', List.replicate_succ]⟩
      · omega
  intro ops h hs
  have hov : safeSize w n = overhead w + n + 7 := rfl
  refine key ops _ (make_ok (by omega) h2 (by omega)) h ?_
  have : (make w mem).size = overhead w := Nat.mod_eq_of_lt (by unfold maxSize at h2; omega)
  rw [this]
  show _ ≤ mem.length
  omega

/-- The bound that excludes the largest capacity is needed: the constructor's assertion allows a
bag of capacity `max_size`, but once such a bag is full its `size_` has wrapped to zero, and
the next assignment overwrites the header. -/
theorem largest_capacity_overflows :
    (assigns (make 8 (List.replicate 256 0)) [(0, List.replicate 224 1)]).isSome = true ∧
    (assigns (make 8 (List.replicate 256 0)) [(0, List.replicate 224 1), (1, [2])]).isNone = true := by
  decide +kernel

/-- What assigning suffix `s` to slot `p` should achieve. -/
def Assigned (l : Suffixes) (p : Nat) (s : Bytes) (ini : Bool) (l' : Suffixes) : Prop :=
  l'.Ok ∧ l'.get p = s ∧ l'.used = l.used ∧ l'.has = l.has ∧
    (∀ q, q ≠ p → l.has q = true → (if ini then q < p else q ∈ l.used) → l'.get q = l.get q) ∧
    ∀ q, q ≠ p → l'.get q = l.get q ∨ l'.get q = []

theorem newSize_bounds {l : Suffixes} (hl : l.Ok) {p : Nat} {s : Bytes} {ini : Bool}
    (ht : ((copied l p ini).map fun q => (l.get q).length).sum + s.length ≤ 32697) :
    ((copied l p ini).map fun q => (l.get q).length).sum + s.length + 71 ≤ newSize l p s ini ∧
      newSize l p s ini ≤ 32768 := by
  unfold newSize
  dsimp only
  generalize ((copied l p ini).map fun q => (l.get q).length).sum + s.length = T at *
  have hS : safeSize 16 T = T + 71 := by unfold safeSize overhead width; omega
  have hx : (BitVec.ofNat 64 (safeSize 16 T)).toNat = T + 71 := by
    rw [hS, BitVec.toNat_ofNat, Nat.mod_eq_of_lt (by omega)]
  obtain ⟨e, he, hlo, hmin⟩ := C33.iceilLog2_spec (BitVec.ofNat 64 (safeSize 16 T))
    (by intro h; rw [h] at hx; simp at hx) (by omega)
  have hup : 2 ^ e ≤ 2 ^ 15 := hmin 15 (by omega)
  rw [hx] at hlo
  cases hk : l.ksuf with
  | none => dsimp only; omega
  | some b =>
    dsimp only
    have h1 := hl.cap b hk
    have h2 : b.capacity = b.mem.length := (hl.ext b hk).cap.symm
    omega

theorem moveKsuf_ok (fresh : Nat → Bytes) (hf : ∀ n, (fresh n).length = n) {l : Suffixes} (hl : l.Ok)
    (hu : l.used.Nodup ∧ ∀ q ∈ l.used, q < width) {p : Nat} (hp : p < width) {s : Bytes} {ini : Bool}
    (ht : ((copied l p ini).map fun q => (l.get q).length).sum + s.length ≤ 32697) :
    ∃ l', moveKsuf fresh l p s ini = some l' ∧ Assigned l p s ini l' ∧
      ∀ q, q ≠ p → q ∉ copied l p ini → l'.get q = [] := by
  have hmem : ∀ q, q ≠ p → l.has q = true → (if ini then q < p else q ∈ l.used) → q ∈ copied l p ini := by
    intro q h1 h2 h3
    unfold copied
    rw [List.mem_filter]
    refine ⟨?_, by simp [h1, h2]⟩
    cases ini
    · exact h3
    · exact List.mem_range.2 h3
  have hnd : (copied l p ini).Nodup := by
    unfold copied
    apply List.Pairwise.filter
    cases ini
    · exact hu.1
    · exact List.nodup_range
  have hlt : ∀ q ∈ copied l p ini, q < width := by
    intro q hq
    unfold copied at hq
    have := (List.mem_filter.1 hq).1
    cases ini
    · exact hu.2 q this
    · have := List.mem_range.1 this
      omega
  have hnp : p ∉ copied l p ini := by
    unfold copied
    simp [List.mem_filter]
  obtain ⟨b1, b2⟩ := newSize_bounds hl ht
  have hov : overhead 16 = 64 := rfl
  have hmx : maxSize 16 = 65536 := rfl
  unfold moveKsuf
  dsimp only
  generalize newSize l p s ini = sz at *
  rw [if_pos ⟨by omega, by omega⟩]
  have hm : (make 16 (fresh sz)).mem.length = sz := hf sz
  have hsize : (make 16 (fresh sz)).size = 64 := rfl
  obtain ⟨b, e1, ok1, k1, k2, ml, sz1⟩ := copyAll_spec l (copied l p ini) (make 16 (fresh sz))
    (make_ok (by rw [hf, hov]; omega) (by rw [hf]; omega) (by rw [hf]; omega)) hnd hlt (by omega)
  rw [e1]
  dsimp only
  rcases assign_spec ok1 hp s with ⟨b', e2, ok2, g1, g2, ml2, _⟩ | ⟨e2, a, c⟩
  · rw [e2]
    refine ⟨_, rfl, ⟨⟨by simp, ?_, .inr rfl, ?_⟩, g1, rfl, rfl, ?_, ?_⟩, ?_⟩
    · intro c hc; cases hc; exact ok2
    · intro c hc; cases hc; omega
    · intro q h1 h2 h3
      have hq := hmem q h1 h2 h3
      show b'.get q = l.get q
      rw [g2 q h1, k1 q hq]
    · intro q h1
      show b'.get q = l.get q ∨ b'.get q = []
      rw [g2 q h1]
      by_cases hq : q ∈ copied l p ini
      · exact .inl (k1 q hq)
      · exact .inr (by rw [k2 q hq, make_get])
    · intro q h1 hq
      show b'.get q = []
      rw [g2 q h1, k2 q hq, make_get]
  · omega

/-- Assigning a slot's suffix in a leaf whose suffixes total at most 32697 bytes always
succeeds, whether or not the suffixes must be moved to a new bag; the slot then reads back the
string, and every other live suffix (every one at a lower position, when initializing) is
unchanged. -/
theorem assign_ksuf (fresh : Nat → Bytes) (hf : ∀ n, (fresh n).length = n) (l : Suffixes) (hl : l.Ok)
    (hu : l.used.Nodup ∧ ∀ q ∈ l.used, q < width) (p : Nat) (hp : p < width) (s : Bytes) (ini : Bool)
    (ht : ((copied l p ini).map fun q => (l.get q).length).sum + s.length ≤ 32697) :
    ∃ l', assignKsuf fresh l p s ini = some l' ∧ Assigned l p s ini l' := by
  have hN : ∃ l', moveKsuf fresh l p s ini = some l' ∧ Assigned l p s ini l' := by
    obtain ⟨l', h1, h2, _⟩ := moveKsuf_ok fresh hf hl hu hp ht
    exact ⟨l', h1, h2⟩
  have hI : l.ksuf = none ∨ l.iksuf = none →
      ∃ l', assignInner fresh l p s ini = some l' ∧ Assigned l p s ini l' := by
    intro hk
    unfold assignInner
    cases hi : l.iksuf with
    | none => exact hN
    | some c =>
      have hk : l.ksuf = none := by
        rcases hk with h | h
        · exact h
        · rw [hi] at h; cases h
      rcases assign_spec (hl.int c hi) hp s with ⟨c', e2, ok2, g1, g2, ml2, _⟩ | ⟨e2, a, d⟩
      · dsimp only
        rw [e2]
        refine ⟨_, rfl, ⟨?_, hl.ext, .inl hk, hl.cap⟩, ?_, rfl, rfl, ?_, ?_⟩
        · intro d hd; cases hd; exact ok2
        · simp only [Suffixes.get, hk]; exact g1
        · intro q h1 _ _
          simp only [Suffixes.get, hk, hi]
          exact g2 q h1
        · intro q h1
          simp only [Suffixes.get, hk, hi]
          exact .inl (g2 q h1)
      · dsimp only
        rw [e2]
        exact hN
  unfold assignKsuf
  cases hk : l.ksuf with
  | none => exact hI hl.one
  | some c =>
    rcases assign_spec (hl.ext c hk) hp s with ⟨c', e2, ok2, g1, g2, ml2, _⟩ | ⟨e2, a, d⟩
    · dsimp only
      rw [e2]
      refine ⟨_, rfl, ⟨hl.int, ?_, ?_, ?_⟩, g1, rfl, rfl, ?_, ?_⟩
      · intro d hd; cases hd; exact ok2
      · rcases hl.one with h | h
        · rw [hk] at h; cases h
        · exact .inr h
      · intro d hd; cases hd; have := hl.cap c hk; omega
      · intro q h1 _ _
        simp only [Suffixes.get, hk]
        exact g2 q h1
      · intro q h1
        simp only [Suffixes.get, hk]
        exact .inl (g2 q h1)
    · dsimp only
      rw [e2]
      exact hI hl.one

/-- A move to a new bag takes no string along that is not in use: of the other slots, only those that have a suffix and
are in the permutation (at a lower position, when initializing) have bytes in the new bag. -/
theorem move_drops (fresh : Nat → Bytes) (hf : ∀ n, (fresh n).length = n) (l : Suffixes) (hl : l.Ok)
    (hu : l.used.Nodup ∧ ∀ q ∈ l.used, q < width) (p : Nat) (hp : p < width) (s : Bytes) (ini : Bool)
    (ht : ((copied l p ini).map fun q => (l.get q).length).sum + s.length ≤ 32697) {l' : Suffixes}
    (h : moveKsuf fresh l p s ini = some l') {q : Nat} (hq : q ≠ p)
    (hn : l.has q = false ∨ ¬ if ini then q < p else q ∈ l.used) : l'.get q = [] := by
  obtain ⟨l'', h1, _, h3⟩ := moveKsuf_ok fresh hf hl hu hp ht
  rw [h] at h1
  cases h1
  refine h3 q hq fun hm => ?_
  unfold copied at hm
  rw [List.mem_filter] at hm
  rcases hn with hn | hn
  · simp [hn] at hm
  · cases ini
    · exact hn hm.1
    · exact hn (List.mem_range.1 hm.1)

/-! ### Histories of a leaf's suffixes -/

/-- A leaf's suffixes as the code builds them: a new leaf has an internal bag of the size
`leaf::make` computes (at most 191 bytes, /repo/masstree_struct.hh:285-308), or none; suffixes
of at most 247 bytes (keys of at most 255) are assigned to slots; a slot becomes used or unused
as the permutation and `keylenx_` change. -/
inductive Made (fresh : Nat → Bytes) : Suffixes → Prop where
  | new (n : Nat) (hn : n = 0 ∨ 32 ≤ n ∧ n ≤ 191) :
      Made fresh
        { iksuf := if n = 0 then none else some (make 8 (fresh n))
          ksuf := none
          has := fun _ => false
          used := [] }
  | assign (l l' : Suffixes) (p : Nat) (s : Bytes) (ini : Bool) : Made fresh l → p < width → s.length ≤ 247 →
      assignKsuf fresh l p s ini = some l' → Made fresh l'
  | mark (l : Suffixes) (has : Nat → Bool) (used : List Nat) : Made fresh l → used.Nodup → (∀ q ∈ used, q < width) →
      Made fresh { l with has := has, used := used }

structure Good (l : Suffixes) : Prop where
  ok : l.Ok
  nodup : l.used.Nodup
  lt : ∀ q ∈ l.used, q < width
  short : ∀ q, (l.get q).length ≤ 247

theorem sum_le_of_all (f : Nat → Nat) (k : Nat) : ∀ l : List Nat, (∀ q ∈ l, f q ≤ k) → (l.map f).sum ≤ l.length * k
  | [], _ => by simp
  | a :: l, h => by
    have h1 := sum_le_of_all f k l (fun q hq => h q (List.mem_cons_of_mem _ hq))
    have h2 := h a List.mem_cons_self
    rw [List.map_cons, List.sum_cons, List.length_cons, Nat.add_mul]
    omega

theorem nodup_short : ∀ (n : Nat) (l : List Nat), l.Nodup → (∀ q ∈ l, q < n) → l.length ≤ n
  | 0, l, _, h => by
    cases l with
    | nil => simp
    | cons a l => exact absurd (h a List.mem_cons_self) (by omega)
  | n + 1, l, hd, h => by
    have h1 := nodup_short n (l.erase n) (hd.erase n) (by
      intro q hq
      have hq' := (List.Nodup.mem_erase_iff hd).1 hq
      have := h q hq'.2
      omega)
    have : l.length ≤ (l.erase n).length + 1 := by
      rw [List.length_erase]; split <;> omega
    omega

theorem total_le {l : Suffixes} (h : Good l) {p : Nat} (hp : p < width) {s : Bytes} (hs : s.length ≤ 247) (ini : Bool) :
    ((copied l p ini).map fun q => (l.get q).length).sum + s.length ≤ 32697 := by
  have h1 := sum_le_of_all (fun q => (l.get q).length) 247 (copied l p ini) (fun q _ => h.short q)
  have h2 : (copied l p ini).length ≤ width := by
    unfold copied
    refine Nat.le_trans (List.length_filter_le _ _) ?_
    cases ini
    · exact nodup_short _ _ h.nodup h.lt
    · show (List.range p).length ≤ _
      rw [List.length_range]; omega
  have h3 : (copied l p ini).length * 247 ≤ width * 247 := Nat.mul_le_mul_right _ h2
  have : width * 247 = 3705 := rfl
  omega

theorem Made.good (fresh : Nat → Bytes) (hf : ∀ n, (fresh n).length = n) {l : Suffixes} (h : Made fresh l) : Good l := by
  induction h with
  | new n hn =>
    refine ⟨⟨?_, by simp, .inl rfl, by simp⟩, List.nodup_nil, by simp, ?_⟩
    · intro b hb
      dsimp only at hb
      split at hb
      · cases hb
      · cases hb
        have : overhead 8 = 32 := rfl
        exact make_ok (by rw [hf]; omega) (by rw [hf]; omega) (by rw [hf]; omega)
    · intro q
      simp only [Suffixes.get]
      split
      · rename_i b hb
        split at hb
        · cases hb
        · cases hb; rw [make_get]; simp
      · simp
  | assign l l' p s ini _ hp hs e ih =>
    obtain ⟨l1, e1, a1, a2, a3, a4, a5, a6⟩ := assign_ksuf fresh hf l ih.ok ⟨ih.nodup, ih.lt⟩ p hp s ini (total_le ih hp hs ini)
    rw [e] at e1
    cases e1
    refine ⟨a1, by rw [a3]; exact ih.nodup, by rw [a3]; exact ih.lt, fun q => ?_⟩
    by_cases hq : q = p
    · subst hq; rw [a2]; exact hs
    · rcases a6 q hq with h | h
      · rw [h]; exact ih.short q
      · rw [h]; simp
  | mark l has used _ h1 h2 ih =>
    exact ⟨⟨ih.ok.int, ih.ok.ext, ih.ok.one, ih.ok.cap⟩, h1, h2, ih.short⟩

/-- In every leaf the code can build with keys of at most 255 bytes, assigning a suffix succeeds,
without failed assertions or writes outside the bag, reads back exactly, and keeps every other
live suffix. -/
theorem assign_ksuf_reachable (fresh : Nat → Bytes) (hf : ∀ n, (fresh n).length = n) (l : Suffixes)
    (h : Made fresh l) (p : Nat) (hp : p < width) (s : Bytes) (hs : s.length ≤ 247) (ini : Bool) :
    ∃ l', assignKsuf fresh l p s ini = some l' ∧ l'.get p = s ∧
      ∀ q, q ≠ p → l.has q = true → (if ini then q < p else q ∈ l.used) → l'.get q = l.get q := by
  have hg := Made.good fresh hf h
  obtain ⟨l', e, _, a2, _, _, a5, _⟩ := assign_ksuf fresh hf l hg.ok ⟨hg.nodup, hg.lt⟩ p hp s ini (total_le hg hp hs ini)
  exact ⟨l', e, a2, a5⟩

/-! ### Concrete cases -/

/-- Three assignments to a bag of 64 bytes: two fit, the third does not. -/
def demoOps : List (Nat × Bytes) :=
  [(3, List.replicate 10 1), (4, List.replicate 12 2), (3, List.replicate 11 3), (3, [7, 8])]

example : overhead 8 ≤ (List.replicate 64 (0 : UInt8)).length ∧ (List.replicate 64 (0 : UInt8)).length < maxSize 8 ∧
    (∀ o ∈ demoOps, o.1 < width) := by decide

example : (assigns (make 8 (List.replicate 64 0)) demoOps).map (fun r => (r.1, r.2.get 3, r.2.get 4)) =
    some ([true, true, false, true], [7, 8], List.replicate 12 2) := by decide +kernel

example : expected (fun _ => []) demoOps [true, true, false, true] 3 = [7, 8] := by decide

example : safeSize 16 22 ≤ (List.replicate 93 (0 : UInt8)).length := by decide

/-- A leaf with an internal bag of 64 bytes moves its suffixes to a new bag. -/
def demoLeaf : Suffixes :=
  { iksuf := some (make 8 (List.replicate 64 0))
    ksuf := none
    has := fun q => q == 3 || q == 4
    used := [4, 3] }

def demoFresh (n : Nat) : Bytes := List.replicate n 0xaa

example : Made demoFresh
    { iksuf := some (make 8 (demoFresh 64)), ksuf := none, has := fun q => q == 3 || q == 4, used := [4, 3] } :=
  .mark _ _ _ (.new 64 (by decide)) (by decide) (by decide)

example :
    ((assignKsuf demoFresh demoLeaf 3 (List.replicate 20 1) false).bind fun l =>
      assignKsuf demoFresh l 4 (List.replicate 30 2) false).map
        (fun l => (l.get 3, l.get 4, l.ksuf.isSome, (l.ksuf.map Bag.capacity))) =
      some (List.replicate 20 1, List.replicate 30 2, true, some 128) := by
  decide +kernel

/-- Slot 3 has lost its suffix when the suffixes move: its bytes are left behind. -/
example :
    ((assignKsuf demoFresh demoLeaf 3 (List.replicate 20 1) false).bind fun l =>
      moveKsuf demoFresh { l with has := fun q => q == 4 } 4 (List.replicate 30 2) false).map
        (fun l => (l.get 3, l.get 4, l.ksuf.map Bag.capacity)) = some ([], List.replicate 30 2, some 128) := by
  decide +kernel

end Verif.Props.C29
