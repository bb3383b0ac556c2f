import Verif.Range.Sys
import Verif.Props.C52

/-!
# C57: operations on the whole tree are linearizable while layers are created and collected

The layers run as in C11 and C47, with one clock (`Verif.Range.World`).  Threads insert and remove keys in them, put a key into a
new layer when another key with the same slice comes, and collect layers that have become empty.
-/
namespace Verif.Props.C57

open Verif.Key (Bytes slice LexLt)
open Verif.Range
open Verif.Props.C51 (Layer)

section
variable {W : Type} {L : Nat → Lay W}

/-- A lookup that has gone down through any number of layers, which others may have removed meanwhile, returns what the tree had
for its key at some time between its begin and its end. -/
theorem read (h : World L) {i a l b a' b' : Nat} {κ k : Bytes} (hd : Down L i a κ l k b) (ha : b ≤ a') {e : Option (Ent W)}
    (hl : (L l).Looks i k a' b' e) {v : Option W} (hv : value k e = some v) : ∃ t, a ≤ t ∧ t ≤ b' ∧ get L t κ = v := by
  obtain ⟨_, t, t1, t2, rfl⟩ := h.looks hl
  obtain ⟨u, u1, u2, u3⟩ := h.below hd (t := t) (by omega)
  exact ⟨u, u1, by omega, by rw [u3, value_find hv]⟩

theorem fit (h : World L) {t l : Nat} {k : Bytes} {e : Ent W} (he : at_ L t l (pos k) = some e) :
    (∃ w, e = .val w ∧ k.length ≤ 8) ∨ (∃ ρ w, e = .suf ρ w ∧ 8 < k.length) ∨ ∃ m, e = .link m := by
  cases (h.holds t).fits l _ _ he with
  | val k' w hk hp _ => obtain rfl := eq_of_pos hp.symm hk; exact Or.inl ⟨w, rfl, hk⟩
  | suf ρ w hp _ => exact Or.inr (Or.inl ⟨ρ, w, rfl, hp.long⟩)
  | link m _ _ => exact Or.inr (Or.inr ⟨m, rfl⟩)

/-- An insertion that has returned has, at one time in between, given its key the value and changed no other key; or the key had
that value already; or the entry is a link or another key's, which it has left alone, and the operation goes on. -/
theorem put (h : World L) {i a l b a' b' : Nat} {κ k : Bytes} (hd : Down L i a κ l k b) (ha : b ≤ a')
    {f : Option (Nat → Option (Ent W)) → Option (Nat → Option (Ent W))} {w : W} (hf : Edits k f (putting k w))
    (hu : (L l).Updates i k f a' b') :
    ∃ t, a ≤ t ∧ t < b' ∧
      (get L (t + 1) = Function.update (get L t) κ (some w) ∨ get L t κ = some w ∨
        (∃ m, at_ L t l (pos k) = some (.link m)) ∨ ∃ ρ w', at_ L t l (pos k) = some (.suf ρ w') ∧ ρ ≠ k.drop 8) := by
  obtain ⟨t, t1, t2, t3⟩ := hu.once (h.runs l) hf
  have ha := hd.le h
  refine ⟨t, by omega, t2, ?_⟩
  have t4 : at_ L (t + 1) l (pos k) = putting k w (at_ L t l (pos k)) := by
    have := t3 (pos k)
    rwa [if_pos rfl] at this
  have main : at_ L (t + 1) l (pos k) = some (ent k w) →
      get L (t + 1) = Function.update (get L t) κ (some w) ∨ get L t κ = some w := by
    intro h1
    by_cases hc : at_ L (t + 1) l (pos k) = at_ L t l (pos k)
    · right
      rw [h1] at hc
      obtain ⟨pre, rfl, hp⟩ := h.attached hd (x := t) (v := t) (by omega) (by omega) ⟨pos k, by rw [← hc]; simp⟩
      rw [h.path_find hp (hd.ne h), at_ent hc.symm rfl, if_pos rfl]
    · exact Or.inl (h.effect hd (by omega) (.put w h1) hc).2
  cases he : at_ L t l (pos k) with
  | none =>
    rcases main (by rw [t4, he]; rfl) with h1 | h1
    · exact Or.inl h1
    · exact Or.inr (Or.inl h1)
  | some e =>
    rcases fit h he with ⟨w', rfl, hk⟩ | ⟨ρ, w', rfl, hk⟩ | ⟨m, rfl⟩
    · rcases main (by rw [t4, he]; rfl) with h1 | h1
      · exact Or.inl h1
      · exact Or.inr (Or.inl h1)
    · by_cases hρ : ρ = k.drop 8
      · rcases main (by rw [t4, he]; exact if_pos hρ) with h1 | h1
        · exact Or.inl h1
        · exact Or.inr (Or.inl h1)
      · exact Or.inr (Or.inr (Or.inr ⟨ρ, w', rfl, hρ⟩))
    · exact Or.inr (Or.inr (Or.inl ⟨m, rfl⟩))

/-- A removal that has returned has found the key's entry, and has at one time in between removed the key, which had the entry's
value, and changed no other key; or it has found none, and the key was not in the tree at some time in between; or the entry is a
link, and the operation goes on. -/
theorem remove (h : World L) {i a l b a' b' : Nat} {κ k : Bytes} (hd : Down L i a κ l k b) (ha : b ≤ a')
    {f : Option (Nat → Option (Ent W)) → Option (Nat → Option (Ent W))} (hf : Edits k f (removing k))
    (hu : (L l).Updates i k f a' b') :
    ∃ t, a ≤ t ∧ t < b' ∧
      ((∃ w, at_ L t l (pos k) = some (ent k w) ∧ get L t κ = some w ∧ get L (t + 1) = Function.update (get L t) κ none) ∨
        ((∀ w, at_ L t l (pos k) ≠ some (ent k w)) ∧ ∃ u, a ≤ u ∧ u ≤ t ∧ get L u κ = none) ∨
        ∃ m, at_ L t l (pos k) = some (.link m)) := by
  obtain ⟨t, t1, t2, t3⟩ := hu.once (h.runs l) hf
  have ha := hd.le h
  refine ⟨t, by omega, t2, ?_⟩
  have t4 : at_ L (t + 1) l (pos k) = removing k (at_ L t l (pos k)) := by
    have := t3 (pos k)
    rwa [if_pos rfl] at this
  have main : ∀ w, at_ L t l (pos k) = some (ent k w) → at_ L (t + 1) l (pos k) = none →
      get L t κ = some w ∧ get L (t + 1) = Function.update (get L t) κ none := by
    intro w h1 h2
    have h3 := h.effect hd (by omega) (.remove w h1 h2) (by rw [h1, h2]; simp)
    rw [at_ent h1 rfl, if_pos rfl] at h3
    exact h3
  have absent : find (fun l => (L l).hist) t l k = none → ∃ u, a ≤ u ∧ u ≤ t ∧ get L u κ = none := by
    intro h1
    obtain ⟨u, u1, u2, u3⟩ := h.below hd (t := t) (by omega)
    exact ⟨u, u1, u2, u3.trans h1⟩
  cases he : at_ L t l (pos k) with
  | none => exact Or.inr (Or.inl ⟨fun w => by simp, absent (at_none he)⟩)
  | some e =>
    rcases fit h he with ⟨w', rfl, hk⟩ | ⟨ρ, w', rfl, hk⟩ | ⟨m, rfl⟩
    · have h1 : Ent.val w' = ent k w' := (if_pos hk).symm
      exact Or.inl ⟨w', by rw [h1], main w' (by rw [he, h1]) (by rw [t4, he]; rfl)⟩
    · have h2 : ∀ w : W, ent k w = Ent.suf (k.drop 8) w := fun w => if_neg (by omega)
      by_cases hρ : ρ = k.drop 8
      · subst hρ
        exact Or.inl ⟨w', by rw [h2], main w' (by rw [he, h2]) (by rw [t4, he]; exact if_pos rfl)⟩
      · refine Or.inr (Or.inl ⟨fun w h3 => ?_, absent (by rw [at_suf he, if_neg hρ])⟩)
        rw [h2] at h3
        cases h3
        exact hρ rfl
    · exact Or.inr (Or.inr ⟨m, rfl⟩)

/-- It is enough to know what threads publish: each one inserts or removes a key, replaces an entry with suffix by a link to a new
layer with the same key, removes the link to a layer that has been marked, or changes nothing. -/
theorem publications (h : Sys L) : World L := h.world

/-- The creation of a layer does not change what is in the tree. -/
theorem created (h : World L) {t m p l : Nat} (h0 : at_ L t m p ≠ some (.link l)) (he : at_ L (t + 1) m p = some (.link l)) :
    get L (t + 1) = get L t := h.created (by rw [he]; exact Ne.symm h0) he

/-- The removal of one does not. -/
theorem collected (h : World L) {t m p l : Nat} (he : at_ L t m p = some (.link l)) (h0 : at_ L (t + 1) m p ≠ some (.link l)) :
    get L (t + 1) = get L t := h.collected (by rw [he]; exact h0) he

/-- A layer that has been removed, or not yet added, may change as it likes. -/
theorem detached (h : World L) {t m p : Nat} (hc : at_ L (t + 1) m p ≠ at_ L t m p) (hd : ∀ pre, ¬ Path L t m pre) :
    get L (t + 1) = get L t := h.detached hc hd

/-- There is one way to every layer. -/
theorem way (h : World L) {t l : Nat} {pre pre' : Bytes} (h1 : Path L t l pre) (h2 : Path L t l pre') : pre = pre' :=
  h.path_unique h1 h2

/-- If what is in the tree changes, then it is one key that does, and a thread publishes an entry for that key, with the new
value, or removes it, in the layer where the key belongs. -/
theorem only (h : World L) {t : Nat} (hc : get L (t + 1) ≠ get L t) :
    ∃ l pre k v, Path L t l pre ∧ Writes L t l k v ∧ get L (t + 1) = Function.update (get L t) (pre ++ k) v ∧
      ∃ i n, match L l with
        | .blink r => (r t).pc i = .hold n ∧ (r (t + 1)).pc i = .pub n ∧ (r t).key i = slice k
        | .prune _ r => (r t).pc i = .hold n ∧ (r (t + 1)).pc i = .pub n ∧ (r t).key i = slice k := by
  have : ∃ κ, get L (t + 1) κ ≠ get L t κ := by
    by_contra h1
    exact hc (funext fun κ => by by_contra h2; exact h1 ⟨κ, h2⟩)
  obtain ⟨κ, hκ⟩ := this
  rcases h.find_change (t := t) .root κ with h1 | ⟨l, pre, k, h1, h2, h3, h4⟩
  · exact absurd h1 hκ
  · rcases h.kinds h3 with ⟨k', v, e1, e2, e3⟩ | ⟨m, e1⟩ | ⟨m, e1⟩
    · rw [e1] at h3
      have hk : k' ≠ [] ∨ l = 0 := by
        by_cases hl : l = 0
        · exact Or.inr hl
        · exact Or.inl (e2 hl)
      refine ⟨l, pre, k', v, h1, e3, h.written h3 h1 hk e3, ?_⟩
      obtain ⟨i, n, e4⟩ := Lay.published (h.runs l) h3
      rw [pos_div] at e4
      exact ⟨i, n, e4⟩
    · exact absurd (congrFun (h.created h3 e1) κ) hκ
    · exact absurd (congrFun (h.collected h3 e1) κ) hκ

theorem layer (h : World L) (l : Nat) : Layer (L l).hist := by
  have := h.runs l
  cases hL : L l with
  | blink r => rw [hL] at this; exact .blink this
  | prune up r => rw [hL] at this; exact .prune this

/-- A scan of the tree meanwhile visits every key that stays, and what it visits was there. -/
theorem scan (h : World L) {fwd : Bool} {k : Bytes} {e : Bool} {a t : Nat} {c : Conf W}
    (hs : Whole (fun l => (L l).hist) fwd k e a t c) :
    ((c.out.reverse.map Prod.fst).Pairwise fun x y => if fwd then LexLt x y else LexLt y x) ∧
    (∀ κ w, (κ, w) ∈ c.out → ((if fwd then LexLt k κ else LexLt κ k) ∨ κ = k ∧ e = true) ∧
      ∃ u, a ≤ u ∧ u ≤ t ∧ get L u κ = some w) ∧
    (C52.Ended c → ∀ κ, ((if fwd then LexLt k κ else LexLt κ k) ∨ κ = k ∧ e = true) →
      (∀ u, a ≤ u → u ≤ t → get L u κ ≠ none) → ∃ w, (κ, w) ∈ c.out) :=
  ⟨C52.ordered (layer h) h.tree hs, fun _ _ hκ => ⟨C52.from_start (layer h) h.tree hs hκ, C52.genuine (layer h) h.tree hs hκ⟩,
    fun he _ hw hp => C52.complete (layer h) h.tree hs he hw hp⟩

end

/-! ### Example: a layer is created, a key in it is changed and removed, and the layer is collected while a thread reads there -/

open Verif.Blink
open Verif.Props.C52 (byte base base_init)

abbrev G := Nat → Option (Ent Nat)

open Classical in
/-- The update of a slice by a change of one entry. -/
noncomputable def edit (q0 : Nat) (φ : Option (Ent Nat) → Option (Ent Nat)) (g : Option G) : Option G :=
  if ∀ q, (if q = q0 then φ (g.bind (· q)) else g.bind (· q)) = none then none
  else some fun q => if q = q0 then φ (g.bind (· q)) else g.bind (· q)

theorem edit_edits (k : Bytes) (φ : Option (Ent Nat) → Option (Ent Nat)) : Edits k (edit (min k.length 9) φ) φ := by
  intro g q
  unfold edit
  split
  · rename_i h; rw [h q]; rfl
  · rfl

def start (i k : Nat) (f : Option (Option G → Option G)) (s : State G) : State G :=
  State.to { s with key := Function.update s.key i k, base := Function.update s.base i s.root, fn := Function.update s.fn i f } i
    (.up s.root)
def rooted (i : Nat) (s : State G) : State G := s.to i (.at_ 0 (s.ins 0) (s.spl 0))
def look (i : Nat) (s : State G) : State G := s.to i (.read 0 0 0 (s.items 0 (s.key i)))
def found (i : Nat) (s : State G) : State G := s.to i (.done (s.items 0 (s.key i)))
def acquire (i : Nat) (s : State G) : State G := State.to { s with lock := Function.update s.lock 0 (some i) } i (.hold 0)
def publish (i : Nat) (f : Option G → Option G) (s : State G) : State G := State.to
  { s with
    items := Function.update s.items 0 (Function.update (s.items 0) (s.key i) (f (s.items 0 (s.key i))))
    m := Function.update s.m (s.key i) (f (s.m (s.key i))) } i (.pub 0)
def release (i : Nat) (s : State G) : State G := (s.unlock 0).to i .idle

/-- The two keys: `byte 1 ++ byte 2` has value 20 in the root layer, as an entry with suffix. -/
def m0 : Nat → Option G := fun k => if k = 1 then some fun q => if q = 9 then some (.suf (byte 2) 20) else none else none
/-- The new layer, which has the rest of that key. -/
def m1 : Nat → Option G := fun k => if k = 2 then some fun q => if q = 8 then some (.val 20) else none else none

noncomputable def mk : Option G → Option G := edit 9 (layering (byte 2) 1)
noncomputable def un : Option G → Option G := edit 9 (collecting 1)
noncomputable def to21 : Option G → Option G := edit 8 (putting (byte 2) 21)
noncomputable def rm : Option G → Option G := edit 8 (removing (byte 2))

/-- The root layer: thread 0 creates layer 1; threads 1, 2 and 3 look up; thread 4 scans; thread 0 collects the layer. -/
noncomputable def act0 : Nat → State G → State G
  | 0 => start 0 1 (some mk) | 1 => rooted 0 | 2 => look 0 | 3 => acquire 0 | 4 => publish 0 mk | 5 => release 0
  | 6 => start 1 1 none | 7 => rooted 1 | 8 => look 1 | 9 => found 1 | 10 => start 4 0 none
  | 11 => start 2 1 none | 12 => rooted 2 | 13 => look 2 | 14 => found 2 | 15 => rooted 4
  | 16 => start 3 1 none | 17 => rooted 3 | 18 => look 3 | 19 => found 3
  | 21 => start 0 1 (some un) | 22 => rooted 0 | 23 => look 0 | 24 => acquire 0 | 26 => publish 0 un | 27 => release 0
  | _ => id

/-- Layer 1: thread 1 changes the value; thread 2 removes the key; thread 0 locks the layer; thread 3 looks up;
thread 4 scans. -/
noncomputable def act1 : Nat → State G → State G
  | 0 => start 4 0 none | 1 => rooted 4
  | 10 => start 1 2 (some to21) | 11 => rooted 1 | 12 => look 1 | 13 => acquire 1 | 14 => publish 1 to21 | 15 => release 1
  | 16 => start 2 2 (some rm) | 17 => rooted 2 | 18 => look 2 | 19 => acquire 2 | 20 => publish 2 rm | 21 => release 2
  | 22 => start 0 2 (some rm) | 23 => rooted 0 | 24 => look 0 | 25 => acquire 0
  | 27 => start 3 2 none | 28 => rooted 3 | 29 => look 3 | 30 => found 3
  | _ => id

noncomputable def run (act : Nat → State G → State G) (m : Nat → Option G) : Nat → State G
  | 0 => base m
  | t + 1 => act t (run act m t)

noncomputable def r0 : Nat → State G := run act0 m0
noncomputable def r1 : Nat → State G := run act1 m1

theorem r0_step (t : Nat) : r0 (t + 1) = r0 t ∨ Step (r0 t) (r0 (t + 1)) := by
  match t with
  | 0 => exact Or.inr (.start (s := r0 0) 0 1 (some mk) (C51.small 1 (by omega)) rfl)
  | 1 => exact Or.inr (.rooted (s := r0 1) 0 0 rfl ⟨rfl, rfl⟩ rfl)
  | 2 => exact Or.inr (.look (s := r0 2) 0 0 0 0 _ rfl rfl fun _ => rfl)
  | 3 => exact Or.inr (.acquire (s := r0 3) 0 0 0 0 _ rfl (by rintro ⟨⟩) rfl rfl rfl)
  | 4 => exact Or.inr (.publish (s := r0 4) 0 0 mk rfl rfl)
  | 5 => exact Or.inr (.release (s := r0 5) 0 0 rfl)
  | 6 => exact Or.inr (.start (s := r0 6) 1 1 none (C51.small 1 (by omega)) rfl)
  | 7 => exact Or.inr (.rooted (s := r0 7) 1 0 rfl ⟨rfl, rfl⟩ rfl)
  | 8 => exact Or.inr (.look (s := r0 8) 1 0 0 0 _ rfl rfl fun _ => rfl)
  | 9 => exact Or.inr (.found (s := r0 9) 1 0 0 0 _ rfl rfl ⟨⟨rfl, rfl⟩, rfl, rfl⟩)
  | 10 => exact Or.inr (.start (s := r0 10) 4 0 none (C51.small 0 (by omega)) rfl)
  | 11 => exact Or.inr (.start (s := r0 11) 2 1 none (C51.small 1 (by omega)) rfl)
  | 12 => exact Or.inr (.rooted (s := r0 12) 2 0 rfl ⟨rfl, rfl⟩ rfl)
  | 13 => exact Or.inr (.look (s := r0 13) 2 0 0 0 _ rfl rfl fun _ => rfl)
  | 14 => exact Or.inr (.found (s := r0 14) 2 0 0 0 _ rfl rfl ⟨⟨rfl, rfl⟩, rfl, rfl⟩)
  | 15 => exact Or.inr (.rooted (s := r0 15) 4 0 rfl ⟨rfl, rfl⟩ rfl)
  | 16 => exact Or.inr (.start (s := r0 16) 3 1 none (C51.small 1 (by omega)) rfl)
  | 17 => exact Or.inr (.rooted (s := r0 17) 3 0 rfl ⟨rfl, rfl⟩ rfl)
  | 18 => exact Or.inr (.look (s := r0 18) 3 0 0 0 _ rfl rfl fun _ => rfl)
  | 19 => exact Or.inr (.found (s := r0 19) 3 0 0 0 _ rfl rfl ⟨⟨rfl, rfl⟩, rfl, rfl⟩)
  | 20 => exact Or.inl rfl
  | 21 => exact Or.inr (.start (s := r0 21) 0 1 (some un) (C51.small 1 (by omega)) rfl)
  | 22 => exact Or.inr (.rooted (s := r0 22) 0 0 rfl ⟨rfl, rfl⟩ rfl)
  | 23 => exact Or.inr (.look (s := r0 23) 0 0 0 0 _ rfl rfl fun _ => rfl)
  | 24 => exact Or.inr (.acquire (s := r0 24) 0 0 0 0 _ rfl (by rintro ⟨⟩) rfl rfl rfl)
  | 25 => exact Or.inl rfl
  | 26 => exact Or.inr (.publish (s := r0 26) 0 0 un rfl rfl)
  | 27 => exact Or.inr (.release (s := r0 27) 0 0 rfl)
  | t + 28 => exact Or.inl rfl

theorem r1_step (t : Nat) : r1 (t + 1) = r1 t ∨ Step (r1 t) (r1 (t + 1)) := by
  match t with
  | 0 => exact Or.inr (.start (s := r1 0) 4 0 none (C51.small 0 (by omega)) rfl)
  | 1 => exact Or.inr (.rooted (s := r1 1) 4 0 rfl ⟨rfl, rfl⟩ rfl)
  | 2 | 3 | 4 | 5 | 6 | 7 | 8 | 9 => exact Or.inl rfl
  | 10 => exact Or.inr (.start (s := r1 10) 1 2 (some to21) (C51.small 2 (by omega)) rfl)
  | 11 => exact Or.inr (.rooted (s := r1 11) 1 0 rfl ⟨rfl, rfl⟩ rfl)
  | 12 => exact Or.inr (.look (s := r1 12) 1 0 0 0 _ rfl rfl fun _ => rfl)
  | 13 => exact Or.inr (.acquire (s := r1 13) 1 0 0 0 _ rfl (by rintro ⟨⟩) rfl rfl rfl)
  | 14 => exact Or.inr (.publish (s := r1 14) 1 0 to21 rfl rfl)
  | 15 => exact Or.inr (.release (s := r1 15) 1 0 rfl)
  | 16 => exact Or.inr (.start (s := r1 16) 2 2 (some rm) (C51.small 2 (by omega)) rfl)
  | 17 => exact Or.inr (.rooted (s := r1 17) 2 0 rfl ⟨rfl, rfl⟩ rfl)
  | 18 => exact Or.inr (.look (s := r1 18) 2 0 0 0 _ rfl rfl fun _ => rfl)
  | 19 => exact Or.inr (.acquire (s := r1 19) 2 0 0 0 _ rfl (by rintro ⟨⟩) rfl rfl rfl)
  | 20 => exact Or.inr (.publish (s := r1 20) 2 0 rm rfl rfl)
  | 21 => exact Or.inr (.release (s := r1 21) 2 0 rfl)
  | 22 => exact Or.inr (.start (s := r1 22) 0 2 (some rm) (C51.small 2 (by omega)) rfl)
  | 23 => exact Or.inr (.rooted (s := r1 23) 0 0 rfl ⟨rfl, rfl⟩ rfl)
  | 24 => exact Or.inr (.look (s := r1 24) 0 0 0 0 _ rfl rfl fun _ => rfl)
  | 25 => exact Or.inr (.acquire (s := r1 25) 0 0 0 0 _ rfl (by rintro ⟨⟩) rfl rfl rfl)
  | 26 => exact Or.inl rfl
  | 27 => exact Or.inr (.start (s := r1 27) 3 2 none (C51.small 2 (by omega)) rfl)
  | 28 => exact Or.inr (.rooted (s := r1 28) 3 0 rfl ⟨rfl, rfl⟩ rfl)
  | 29 => exact Or.inr (.look (s := r1 29) 3 0 0 0 _ rfl rfl fun _ => rfl)
  | 30 => exact Or.inr (.found (s := r1 30) 3 0 0 0 _ rfl rfl ⟨⟨rfl, rfl⟩, rfl, rfl⟩)
  | t + 31 => exact Or.inl rfl

theorem r1_idle (t : Nat) : r1 (t + 31 + 1) = r1 (t + 31) := rfl

theorem r0_run : Run r0 := ⟨base_init fun k hk => by unfold m0; rw [if_neg (by omega)], r0_step⟩
theorem r1_run : Run r1 := ⟨base_init fun k hk => by unfold m1; rw [if_neg (by omega)], r1_step⟩

/-- All other layers are empty. -/
noncomputable def L : Nat → Lay Nat
  | 0 => .blink r0
  | 1 => .blink r1
  | _ => .blink fun _ => base fun _ => none

/-- The entries of the two layers at all times. -/
def E0 (t p : Nat) : Option (Ent Nat) :=
  if p = 25 then (if t < 5 then some (.suf (byte 2) 20) else if t < 27 then some (.link 1) else none) else none
def E1 (t p : Nat) : Option (Ent Nat) :=
  if p = 40 then (if t < 15 then some (.val 20) else if t < 21 then some (.val 21) else none) else none

/-- The key. -/
def κ : Bytes := byte 1 ++ byte 2

theorem pos_κ : pos κ = 25 := by decide +kernel
theorem pos_2 : pos (byte 2) = 40 := by decide +kernel
theorem slice_κ : slice κ = 1 := by decide +kernel
theorem slice_2 : slice (byte 2) = 2 := by decide +kernel

theorem entry_m0 (p : Nat) : entry m0 p = if p = 25 then some (.suf (byte 2) 20) else none := by
  unfold entry m0
  by_cases h1 : p / 16 = 1
  · rw [if_pos h1]
    show (if p % 16 = 9 then _ else _) = _
    by_cases h2 : p % 16 = 9
    · rw [if_pos h2, if_pos (by omega)]
    · rw [if_neg h2, if_neg (by omega)]
  · rw [if_neg h1, if_neg (by omega)]; rfl

theorem entry_m1 (p : Nat) : entry m1 p = if p = 40 then some (.val 20) else none := by
  unfold entry m1
  by_cases h1 : p / 16 = 2
  · rw [if_pos h1]
    show (if p % 16 = 8 then _ else _) = _
    by_cases h2 : p % 16 = 8
    · rw [if_pos h2, if_pos (by omega)]
    · rw [if_neg h2, if_neg (by omega)]
  · rw [if_neg h1, if_neg (by omega)]; rfl

/-- The change of an entry by an `edit`. -/
theorem entry0 (m : Nat → Option G) (φ : Option (Ent Nat) → Option (Ent Nat)) (p : Nat) :
    entry (Function.update m 1 (edit 9 φ (m 1))) p = if p = 25 then φ (entry m p) else entry m p := by
  have := entry_update (m := m) (edit_edits κ φ) p
  rwa [slice_κ, pos_κ] at this

theorem entry1 (m : Nat → Option G) (φ : Option (Ent Nat) → Option (Ent Nat)) (p : Nat) :
    entry (Function.update m 2 (edit 8 φ (m 2))) p = if p = 40 then φ (entry m p) else entry m p := by
  have := entry_update (m := m) (edit_edits (byte 2) φ) p
  rwa [slice_2, pos_2] at this

/-- The map changes only when something is published. -/
theorem r0_m (t : Nat) (h : t ≠ 4) (h' : t ≠ 26) : (r0 (t + 1)).m = (r0 t).m := by
  show (act0 t (r0 t)).m = (r0 t).m
  generalize r0 t = s
  unfold act0
  split <;> first | rfl | omega

theorem r1_m (t : Nat) (h : t ≠ 14) (h' : t ≠ 20) : (r1 (t + 1)).m = (r1 t).m := by
  show (act1 t (r1 t)).m = (r1 t).m
  generalize r1 t = s
  unfold act1
  split <;> first | rfl | omega

theorem r0_same {a : Nat} (d : Nat) (h : ∀ t, a ≤ t → t < a + d → t ≠ 4 ∧ t ≠ 26) : (r0 (a + d)).m = (r0 a).m := by
  induction d with
  | zero => rfl
  | succ d ih =>
    have := h (a + d) (by omega) (by omega)
    rw [← ih fun t h1 h2 => h t h1 (by omega)]
    exact r0_m (a + d) this.1 this.2

theorem r1_same {a : Nat} (d : Nat) (h : ∀ t, a ≤ t → t < a + d → t ≠ 14 ∧ t ≠ 20) : (r1 (a + d)).m = (r1 a).m := by
  induction d with
  | zero => rfl
  | succ d ih =>
    have := h (a + d) (by omega) (by omega)
    rw [← ih fun t h1 h2 => h t h1 (by omega)]
    exact r1_m (a + d) this.1 this.2

theorem at0 (t p : Nat) : at_ L t 0 p = E0 t p := by
  show entry ((r0 t).m) p = E0 t p
  have h4 : (r0 4).m = m0 := r0_same (a := 0) 4 fun t h1 h2 => by omega
  have h5 : entry ((r0 5).m) p = if p = 25 then some (.link 1) else none := by
    show entry (Function.update (r0 4).m 1 (mk ((r0 4).m 1))) p = _
    unfold mk
    rw [entry0, h4, entry_m0]
    split <;> rfl
  have h26 : (r0 26).m = (r0 5).m := r0_same (a := 5) 21 fun t h1 h2 => by omega
  have h27 : entry ((r0 27).m) p = none := by
    show entry (Function.update (r0 26).m 1 (un ((r0 26).m 1))) p = _
    unfold un
    rw [entry0, h26, h5]
    split <;> rfl
  unfold E0
  by_cases c1 : t < 5
  · have := r0_same (a := 0) t fun u h1 h2 => by omega
    rw [Nat.zero_add] at this
    rw [this, if_pos c1]
    exact entry_m0 p
  · rw [if_neg c1]
    by_cases c2 : t < 27
    · have := r0_same (a := 5) (t - 5) fun u h1 h2 => by omega
      rw [show 5 + (t - 5) = t by omega] at this
      rw [this, if_pos c2, h5]
    · have := r0_same (a := 27) (t - 27) fun u h1 h2 => by omega
      rw [show 27 + (t - 27) = t by omega] at this
      rw [this, if_neg c2, h27]
      split <;> rfl

theorem at1 (t p : Nat) : at_ L t 1 p = E1 t p := by
  show entry ((r1 t).m) p = E1 t p
  have h14 : (r1 14).m = m1 := r1_same (a := 0) 14 fun t h1 h2 => by omega
  have h15 : entry ((r1 15).m) p = if p = 40 then some (.val 21) else none := by
    show entry (Function.update (r1 14).m 2 (to21 ((r1 14).m 2))) p = _
    unfold to21
    rw [entry1, h14, entry_m1]
    split <;> rfl
  have h20 : (r1 20).m = (r1 15).m := r1_same (a := 15) 5 fun t h1 h2 => by omega
  have h21 : entry ((r1 21).m) p = none := by
    show entry (Function.update (r1 20).m 2 (rm ((r1 20).m 2))) p = _
    unfold rm
    rw [entry1, h20, h15]
    split <;> rfl
  unfold E1
  by_cases c1 : t < 15
  · have := r1_same (a := 0) t fun u h1 h2 => by omega
    rw [Nat.zero_add] at this
    rw [this, if_pos c1]
    exact entry_m1 p
  · rw [if_neg c1]
    by_cases c2 : t < 21
    · have := r1_same (a := 15) (t - 15) fun u h1 h2 => by omega
      rw [show 15 + (t - 15) = t by omega] at this
      rw [this, if_pos c2, h15]
    · have := r1_same (a := 21) (t - 21) fun u h1 h2 => by omega
      rw [show 21 + (t - 21) = t by omega] at this
      rw [this, if_neg c2, h21]
      split <;> rfl

theorem at2 (t l p : Nat) : at_ L t (l + 2) p = none := rfl

/-- A link is that of the root layer. -/
theorem links {t l p m : Nat} (h : at_ L t l p = some (.link m)) : l = 0 ∧ p = 25 ∧ m = 1 ∧ 5 ≤ t ∧ t < 27 := by
  match l with
  | 0 =>
    rw [at0] at h
    unfold E0 at h
    split at h
    · split at h
      · cases h
      · split at h
        · cases h; exact ⟨rfl, by assumption, rfl, by omega, by omega⟩
        · cases h
    · cases h
  | 1 =>
    rw [at1] at h
    unfold E1 at h
    split at h
    · split at h
      · cases h
      · split at h <;> cases h
    · cases h
  | l + 2 => rw [at2] at h; cases h

theorem r1_late (d : Nat) : r1 (31 + d) = r1 31 := by
  induction d with
  | zero => rfl
  | succ d ih =>
    rw [← ih, show 31 + (d + 1) = (d + 31) + 1 by omega, show 31 + d = d + 31 by omega]
    exact r1_idle d

theorem empty (k : Nat) : (r1 26).items 0 k = none := by
  show Function.update (Function.update m1 2 (to21 (m1 2))) 2
    (rm (Function.update m1 2 (to21 (m1 2)) 2)) k = none
  by_cases hk : k = 2
  · subst hk
    rw [Function.update_self, Function.update_self]
    unfold rm
    conv_lhs => unfold edit
    rw [if_pos]
    intro q
    have h1 : (to21 (m1 2)).bind (· q) = if q = 8 then some (.val 21) else none := by
      have := edit_edits (byte 2) (putting (byte 2) 21) (m1 2) q
      show (edit 8 (putting (byte 2) 21) (m1 2)).bind (· q) = _
      refine this.trans ?_
      by_cases hq : q = 8
      · subst hq; rfl
      · rw [if_neg (by simpa [byte] using hq), if_neg hq]
        show (if q = 8 then _ else _) = _
        rw [if_neg hq]
    by_cases hq : q = 8
    · rw [if_pos hq, h1, if_pos hq]; rfl
    · rw [if_neg hq, h1, if_neg hq]
  · rw [Function.update_of_ne hk, Function.update_of_ne hk]
    exact if_neg hk

theorem shut : (L 1).Shut 26 := by
  have hold : ∀ u, 26 ≤ u → (r1 u).pc 0 = .hold 0 := by
    intro u hu
    obtain ⟨d, rfl⟩ := Nat.exists_eq_add_of_le hu
    match d with
    | 0 | 1 | 2 | 3 | 4 => rfl
    | d + 5 => rw [show 26 + (d + 5) = 31 + d by omega, r1_late]; rfl
  refine ⟨0, 0, hold 26 (by omega), rfl, rfl, rfl, empty, fun u j hu hj => Or.inl ?_⟩
  have h1 := (r1_run.inv u).own j 0 (by rw [hj]; rfl)
  have h2 := (r1_run.inv u).own 0 0 (by rw [hold u hu]; rfl)
  rw [h1] at h2
  cases h2
  exact hold (u + 1) (by omega)

/-- When something is published. -/
theorem pub0 {t i : Nat} {f : Option G → Option G} (h : Publishes (r0 t) (r0 (t + 1)) i f) :
    i = 0 ∧ (t = 4 ∧ f = mk ∨ t = 26 ∧ f = un) := by
  obtain ⟨h1, n, h2, h3⟩ := h
  have key : ∀ s : State G, s.pc i = .hold n → (act0 t s).pc i = .pub n → i = 0 ∧ (t = 4 ∨ t = 26) := by
    intro s h2 h3
    unfold act0 at h3
    split at h3 <;>
      simp only [start, rooted, look, acquire, publish, release, found, State.to, State.unlock, Function.update_apply, id] at h3 <;>
      grind
  obtain ⟨rfl, rfl | rfl⟩ := key (r0 t) h2 h3
  · exact ⟨rfl, Or.inl ⟨rfl, Option.some.inj (h1.symm.trans (show (r0 4).fn 0 = some mk from rfl))⟩⟩
  · exact ⟨rfl, Or.inr ⟨rfl, Option.some.inj (h1.symm.trans (show (r0 26).fn 0 = some un from rfl))⟩⟩

theorem pub1 {t i : Nat} {f : Option G → Option G} (h : Publishes (r1 t) (r1 (t + 1)) i f) :
    i = 1 ∧ t = 14 ∧ f = to21 ∨ i = 2 ∧ t = 20 ∧ f = rm := by
  obtain ⟨h1, n, h2, h3⟩ := h
  have key : ∀ s : State G, s.pc i = .hold n → (act1 t s).pc i = .pub n → i = 1 ∧ t = 14 ∨ i = 2 ∧ t = 20 := by
    intro s h2 h3
    unfold act1 at h3
    split at h3 <;>
      simp only [start, rooted, look, acquire, publish, release, found, State.to, State.unlock, Function.update_apply, id] at h3 <;>
      grind
  rcases key (r1 t) h2 h3 with ⟨rfl, rfl⟩ | ⟨rfl, rfl⟩
  · exact Or.inl ⟨rfl, rfl, Option.some.inj (h1.symm.trans (show (r1 14).fn 1 = some to21 from rfl))⟩
  · exact Or.inr ⟨rfl, rfl, Option.some.inj (h1.symm.trans (show (r1 20).fn 2 = some rm from rfl))⟩

theorem pub2 {l t i : Nat} {f : Option G → Option G} (h : (L (l + 2)).Publishes t i f) : False := by
  obtain ⟨_, n, h2, _⟩ := h
  cases h2

theorem sys : Sys L where
  runs l := by
    match l with
    | 0 => exact r0_run
    | 1 => exact r1_run
    | l + 2 => exact ⟨base_init fun k hk => rfl, fun t => Or.inl rfl⟩
  fits l p e he := by
    match l with
    | 0 =>
      rw [at0] at he
      unfold E0 at he
      split at he
      · cases he
        exact .suf _ _ ⟨byte 1, by decide, by subst p; decide +kernel⟩ (by decide)
      · cases he
    | 1 =>
      rw [at1] at he
      unfold E1 at he
      split at he
      · cases he
        exact .val (byte 2) _ (by decide) (by rw [pos_2]; assumption) fun _ => by decide
      · cases he
    | l + 2 => cases he
  once l p l' p' m h1 h2 := by
    obtain ⟨rfl, rfl, _⟩ := links h1
    obtain ⟨rfl, rfl, _⟩ := links h2
    exact ⟨rfl, rfl⟩
  role t l i f h := by
    match l with
    | 0 =>
      refine ⟨κ, ?_, fun h => absurd rfl h, ?_⟩
      · obtain ⟨rfl, ⟨rfl, _⟩ | ⟨rfl, _⟩⟩ := pub0 h <;> exact slice_κ.symm
      · obtain ⟨rfl, ⟨rfl, rfl⟩ | ⟨rfl, rfl⟩⟩ := pub0 h
        · refine .layer (byte 2) 1 (edit_edits κ _) (by decide) fun w hw => ⟨fun m q h => ?_, ?_⟩
          · have := links h; omega
          · rw [pos_κ, at0] at hw
            cases hw
            refine .val ⟨by decide, by decide⟩ ?_ fun q hq => ?_
            · rw [pos_2, at1]; rfl
            · rw [pos_2] at hq
              rw [at1]
              exact if_neg hq
        · exact .collect 1 (edit_edits κ _) fun _ => ⟨26, Nat.le_refl _, shut⟩
    | 1 =>
      refine ⟨byte 2, ?_, fun _ => by decide, ?_⟩
      · obtain ⟨rfl, rfl, _⟩ | ⟨rfl, rfl, _⟩ := pub1 h <;> exact slice_2.symm
      · obtain ⟨rfl, rfl, rfl⟩ | ⟨rfl, rfl, rfl⟩ := pub1 h
        · exact .put 21 (edit_edits (byte 2) _)
        · exact .remove (edit_edits (byte 2) _)
    | l + 2 => exact (pub2 h).elim
  one t l i f l' i' f' h h' := by
    match l, l' with
    | 0, 0 | 1, 1 => rfl
    | 0, 1 => have := pub0 h; have := pub1 h'; omega
    | 1, 0 => have := pub1 h; have := pub0 h'; omega
    | l + 2, _ => exact (pub2 h).elim
    | _, l' + 2 => exact (pub2 h').elim

theorem world : World L := publications sys

/-- A thread looks up the key in the root layer. -/
theorem looks0 {i a : Nat} (hi : i = 1 ∧ a = 6 ∨ i = 2 ∧ a = 11 ∨ i = 3 ∧ a = 16) :
    (L 0).Looks i κ a (a + 4) (some (.link 1)) := by
  have e : ∀ t, (r0 t).m = (r0 t).items 0 → 5 ≤ t → t < 27 → ((r0 t).items 0 1).bind (· 9) = some (.link 1) := by
    intro t h1 h2 h3
    have := at0 t 25
    change entry ((r0 t).m) 25 = _ at this
    rw [h1] at this
    refine Eq.trans this ?_
    unfold E0
    rw [if_pos rfl, if_neg (by omega), if_pos h3]
  rcases hi with ⟨rfl, rfl⟩ | ⟨rfl, rfl⟩ | ⟨rfl, rfl⟩
  · refine ⟨⟨by omega, rfl, fun t h1 h2 => ?_⟩, slice_κ.symm, _, rfl, e 9 rfl (by omega) (by omega)⟩
    match t with
    | 7 | 8 | 9 | 10 => rintro ⟨⟩
    | 0 | 1 | 2 | 3 | 4 | 5 | 6 => omega
    | t + 11 => omega
  · refine ⟨⟨by omega, rfl, fun t h1 h2 => ?_⟩, slice_κ.symm, _, rfl, e 14 rfl (by omega) (by omega)⟩
    match t with
    | 12 | 13 | 14 | 15 => rintro ⟨⟩
    | 0 | 1 | 2 | 3 | 4 | 5 | 6 | 7 | 8 | 9 | 10 | 11 => omega
    | t + 16 => omega
  · refine ⟨⟨by omega, rfl, fun t h1 h2 => ?_⟩, slice_κ.symm, _, rfl, e 19 rfl (by omega) (by omega)⟩
    match t with
    | 17 | 18 | 19 | 20 => rintro ⟨⟩
    | 0 | 1 | 2 | 3 | 4 | 5 | 6 | 7 | 8 | 9 | 10 | 11 | 12 | 13 | 14 | 15 | 16 => omega
    | t + 21 => omega

theorem down {i a b : Nat} (hi : i = 1 ∧ a = 6 ∨ i = 2 ∧ a = 11 ∨ i = 3 ∧ a = 16) (hb : a + 4 ≤ b) : Down L i a κ 1 (byte 2) b :=
  .down (.root (Nat.le_refl a)) (Nat.le_refl a) (looks0 hi) hb

/-- Thread 1 changes the value. -/
example : ∃ t, 6 ≤ t ∧ t < 15 ∧ (Range.get L (t + 1) = Function.update (Range.get L t) κ (some 21) ∨
    Range.get L t κ = some 21 ∨ (∃ m, at_ L t 1 (pos (byte 2)) = some (.link m)) ∨
    ∃ ρ w', at_ L t 1 (pos (byte 2)) = some (.suf ρ w') ∧ ρ ≠ (byte 2).drop 8) := by
  refine put world (down (i := 1) (b := 10) (by omega) (by omega)) (Nat.le_refl _) (edit_edits (byte 2) _)
    ⟨⟨by omega, rfl, fun t h1 h2 => ?_⟩, slice_2.symm, rfl, rfl⟩
  match t with
  | 11 | 12 | 13 | 14 | 15 => rintro ⟨⟩
  | 0 | 1 | 2 | 3 | 4 | 5 | 6 | 7 | 8 | 9 | 10 => omega
  | t + 16 => omega

/-- Thread 2 removes the key. -/
example : ∃ t, 11 ≤ t ∧ t < 21 ∧
    ((∃ w, at_ L t 1 (pos (byte 2)) = some (ent (byte 2) w) ∧ Range.get L t κ = some w ∧
        Range.get L (t + 1) = Function.update (Range.get L t) κ none) ∨
      ((∀ w, at_ L t 1 (pos (byte 2)) ≠ some (ent (byte 2) w)) ∧ ∃ u, 11 ≤ u ∧ u ≤ t ∧ Range.get L u κ = none) ∨
      ∃ m, at_ L t 1 (pos (byte 2)) = some (.link m)) := by
  refine remove world (down (i := 2) (b := 16) (by omega) (by omega)) (Nat.le_refl _) (edit_edits (byte 2) _)
    ⟨⟨by omega, rfl, fun t h1 h2 => ?_⟩, slice_2.symm, rfl, rfl⟩
  match t with
  | 17 | 18 | 19 | 20 | 21 => rintro ⟨⟩
  | 0 | 1 | 2 | 3 | 4 | 5 | 6 | 7 | 8 | 9 | 10 | 11 | 12 | 13 | 14 | 15 | 16 => omega
  | t + 22 => omega

/-- Thread 3 goes down to the layer before it is collected and reads it afterwards. -/
example : ∃ t, 16 ≤ t ∧ t ≤ 31 ∧ Range.get L t κ = none := by
  refine read world (down (i := 3) (b := 27) (by omega) (by omega)) (a' := 27) (b' := 31) (Nat.le_refl _) (e := none)
    ⟨⟨by omega, rfl, fun t h1 h2 => ?_⟩, slice_2.symm, _, rfl, ?_⟩ rfl
  · match t with
    | 28 | 29 | 30 | 31 => rintro ⟨⟩
    | 0 | 1 | 2 | 3 | 4 | 5 | 6 | 7 | 8 | 9 | 10 | 11 | 12 | 13 | 14 | 15 | 16 | 17 | 18 | 19 | 20 | 21 | 22 | 23 | 24 | 25 | 26
    | 27 => omega
    | t + 32 => omega
  · show ((r1 26).items 0 2).bind _ = none
    rw [empty]
    rfl

/-- The creation and the collection of the layer. -/
example : Range.get L 5 = Range.get L 4 ∧ Range.get L 27 = Range.get L 26 :=
  ⟨created world (m := 0) (p := 25) (l := 1) (by rw [at0]; rintro ⟨⟩) (by rw [at0]; rfl),
    collected world (m := 0) (p := 25) (l := 1) (by rw [at0]; rfl) (by rw [at0]; rintro ⟨⟩)⟩

/-- What the tree has for the key. -/
theorem value_at {t : Nat} (h1 : 5 ≤ t) (h2 : t < 27) : Range.get L t κ = if t < 15 then some 20 else if t < 21 then some 21 else none := by
  have e : at_ L t 0 (pos κ) = some (.link 1) := by
    rw [at0, pos_κ]
    unfold E0
    rw [if_pos rfl, if_neg (by omega), if_pos h2]
  refine (at_link e (by decide)).trans ?_
  have e1 := at1 t (pos (κ.drop 8))
  have e2 : pos (κ.drop 8) = 40 := by decide +kernel
  unfold E1 at e1
  rw [if_pos e2] at e1
  by_cases h3 : t < 15
  · rw [if_pos h3] at e1 ⊢
    exact at_val e1
  · rw [if_neg h3] at e1 ⊢
    by_cases h4 : t < 21
    · rw [if_pos h4] at e1 ⊢
      exact at_val e1
    · rw [if_neg h4] at e1 ⊢
      exact at_none e1

/-- The change of the value at time 14. -/
example : ∃ l pre k v, Path L 14 l pre ∧ Writes L 14 l k v ∧ Range.get L 15 = Function.update (Range.get L 14) (pre ++ k) v := by
  obtain ⟨l, pre, k, v, h1, h2, h3, _⟩ := only world (t := 14) fun h => by
    have := congrFun h κ
    rw [value_at (by omega) (by omega), value_at (by omega) (by omega)] at this
    cases this
  exact ⟨l, pre, k, v, h1, h2, h3⟩

/-! A scan that goes down to the layer at time 16, visits the key at time 18, before it is removed, and ends. -/

theorem perm0 {t : Nat} (h : (r0 t).items 0 = (r0 t).m) (h1 : 5 ≤ t) (h2 : t < 27) : (L 0).hist.Perm t 0 [25] := by
  refine ⟨by simp, fun p => ?_⟩
  show _ ↔ entry ((r0 t).items 0) p ≠ none
  rw [h, show entry ((r0 t).m) p = E0 t p from at0 t p]
  unfold E0
  rw [if_neg (by omega : ¬ t < 5), if_pos h2]
  simp only [List.mem_singleton]
  split <;> simp [*]

theorem perm1 : (L 1).hist.Perm 18 0 [40] := by
  refine ⟨by simp, fun p => ?_⟩
  show _ ↔ entry ((r1 18).m) p ≠ none
  rw [show entry ((r1 18).m) p = E1 18 p from at1 18 p]
  unfold E1
  simp only [List.mem_singleton]
  split <;> simp [*]

def up1 : Frame Nat := ⟨0, .key [] true, [], 16, ⟨.scan 0 0 0 16 [25] 1, 25, false, [(25, .link 1)]⟩⟩
def sub1 (s : St (Ent Nat)) : Frame Nat := ⟨1, .all, byte 1, 16, s⟩

theorem scan1 : Whole (fun l => (L l).hist) true [] true 16 16 ⟨[sub1 ⟨.walk false, 0, false, []⟩, up1], []⟩ := by
  have ok : (L 0).hist.Ok 16 0 0 0 := ⟨⟨rfl, rfl⟩, rfl, rfl, rfl⟩
  have at25 : entry ((L 0).hist.items 16 0) 25 = some (.link 1) := at0 16 25
  have h0 : Whole (fun l => (L l).hist) true [] true 16 16 ⟨[⟨0, .key [] true, [], 16, ⟨.walk true, 0, false, []⟩⟩], []⟩ := .begin
  have h1 : Whole (fun l => (L l).hist) true [] true 16 16 ⟨[⟨0, .key [] true, [], 16, ⟨.node true 0 0 0, 0, false, []⟩⟩], []⟩ :=
    .step h0 (.run _ [] [] _ (.reach true 0 0 0 ⟨4, rfl, rfl, rfl⟩) rfl)
  have h2 : Whole (fun l => (L l).hist) true [] true 16 16 ⟨[⟨0, .key [] true, [], 16, ⟨.init 0 0 0 16 [25], 0, false, []⟩⟩], []⟩ :=
    .step h1 (.run _ [] [] _ (.permFirst 0 0 0 [25] fun _ => perm0 rfl (by omega) (by omega)) rfl)
  have h3 : Whole (fun l => (L l).hist) true [] true 16 16 ⟨[⟨0, .key [] true, [], 16, ⟨.scan 0 0 0 16 [25] 0, 0, false, []⟩⟩], []⟩ :=
    .step h2 (.run _ [] [] _ (.noFirst 0 0 0 16 [25] ok (by decide)) rfl)
  have h4 := Whole.step h3 (.down _ [] [] _ 25 1 (.emit 0 0 0 16 16 25 [25] 0 (.link 1) ok rfl rfl ⟨by omega, by omega⟩ at25) rfl)
  have h5 : keyAt 25 = byte 1 := by decide +kernel
  rw [h5] at h4
  exact h4

theorem scan2 : ∃ c, Whole (fun l => (L l).hist) true [] true 16 18 c ∧ C52.Ended c ∧ c.out = [(κ, 21)] := by
  have ok0 : (L 0).hist.Ok 18 0 0 0 := ⟨⟨rfl, rfl⟩, rfl, rfl, rfl⟩
  have ok1 : (L 1).hist.Ok 18 0 0 0 := ⟨⟨rfl, rfl⟩, rfl, rfl, rfl⟩
  have k2 : keyAt 40 = byte 2 := by decide +kernel
  have at40 : entry ((L (sub1 ⟨.scan 0 0 0 18 [40] 0, 0, false, []⟩).l).hist.items 18 0) 40 = some (.val 21) := at1 18 40
  have h0 := C52.whole_wait scan1 2
  have h1 : Whole (fun l => (L l).hist) true [] true 16 18 ⟨[sub1 ⟨.node false 0 0 0, 0, false, []⟩, up1], []⟩ :=
    .step h0 (.run (sub1 _) [up1] [] _ (.reach false 0 0 0 ⟨4, rfl, rfl, rfl⟩) rfl)
  have h2 : Whole (fun l => (L l).hist) true [] true 16 18 ⟨[sub1 ⟨.scan 0 0 0 18 [40] 0, 0, false, []⟩, up1], []⟩ :=
    .step h1 (.run (sub1 _) [up1] [] _ (.perm 0 0 0 [40] 0 fun _ => ⟨perm1, rfl⟩) rfl)
  have h3 := Whole.step h2 (.value (sub1 _) [up1] [] _ 40 21
    (.emit 0 0 0 18 18 40 [40] 0 (.val 21) ok1 rfl rfl ⟨by omega, by omega⟩ at40) rfl)
  rw [k2] at h3
  have h5 := Whole.step h3 (.run (sub1 _) [up1] _ _ (.exhausted 0 0 0 18 [40] 1 ok1 rfl) rfl)
  have h6 := Whole.step h5 (.run (sub1 _) [up1] _ _ (.forwardEnd 0 rfl rfl) rfl)
  have h7 := Whole.step h6 (.up (sub1 _) up1 [] _ 0 0 0 16 [25] 1 rfl rfl)
  have h8 := Whole.step h7 (.run { up1 with s := { up1.s with pc := .move 0 } } [] _ _ (.stable 0 rfl ok0.1) rfl)
  have h9 := Whole.step h8 (.run { up1 with s := { up1.s with pc := .node false 0 0 0 } } [] _ _
    (.perm 0 0 0 [25] 0 fun _ => ⟨perm0 rfl (by omega) (by omega), rfl⟩) rfl)
  have h10 := Whole.step h9 (.run { up1 with s := { up1.s with pc := .scan 0 0 0 18 [25] 0 } } [] _ _
    (.skip 0 0 0 18 25 [25] 0 ok0 rfl rfl) rfl)
  have h11 := Whole.step h10 (.run { up1 with s := { up1.s with pc := .scan 0 0 0 18 [25] 1 } } [] _ _
    (.exhausted 0 0 0 18 [25] 1 ok0 rfl) rfl)
  have h12 := Whole.step h11 (.run { up1 with s := { up1.s with pc := .next 0 } } [] _ _ (.forwardEnd 0 rfl rfl) rfl)
  exact ⟨_, h12, ⟨_, rfl, rfl⟩, rfl⟩

example : ∃ c : Conf Nat, ∃ w, (κ, w) ∈ c.out ∧ ∃ u, 16 ≤ u ∧ u ≤ 18 ∧ Range.get L u κ = some w := by
  obtain ⟨c, h1, h2, _⟩ := scan2
  obtain ⟨_, h4, h5⟩ := scan world h1
  obtain ⟨w, h6⟩ := h5 h2 κ (Or.inl (by simp [κ, byte])) fun u h7 h8 => by
    rw [value_at (by omega) (by omega), if_neg (by omega), if_pos (by omega)]; simp
  exact ⟨c, w, h6, (h4 κ w h6).2⟩

end Verif.Props.C57
