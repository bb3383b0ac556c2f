import Verif.Memdebug.Model
import Verif.Pool.Inv

/-!
# Headers agree with what the callers did
-/
namespace Verif.Memdebug

open Verif.Pool (Chain)

def State.word (s : State) (m : Nat) : Nat := (s.hdr m).word

/-- The alignment of blocks of pools. -/
def State.unit (s : State) : Nat := if s.pools then 64 else 16

structure Inv (s : State) (g : Ghost) (L : Nat → Nat → List Nat) : Prop where
  chain : ∀ t n, Chain s.word (s.pool t n) (L t n)
  nodup : ∀ t n, (L t n).Nodup
  free : ∀ m t n, m ∈ L t n ↔ g m = .free t n
  live : ∀ m sz tag, g m = .live sz tag → s.hdr m = make sz tag ∧ (tag % 256 ≠ 0 → tag % 256 = lines sz)
  gone : ∀ m t tag, g m = .gone t tag ↔ (m, tag) ∈ s.limbo t
  goneHdr : ∀ m t tag, g m = .gone t tag → ∃ sz, s.hdr m = { make sz tag with after := true }
  once : ∀ t, ((s.limbo t).map Prod.fst).Nodup
  pos : ∀ m, g m ≠ .out → m ≠ 0 ∧ 16 ∣ m
  freeAl : ∀ m t n, g m = .free t n → s.unit ∣ m
  liveAl : ∀ m sz tag, g m = .live sz tag → tag % 256 ≠ 0 → s.unit ∣ m
  goneAl : ∀ m t tag, g m = .gone t tag → tag % 256 ≠ 0 → s.unit ∣ m

theorem init_inv {s : State} {g : Ghost} (h : Init s g) : Inv s g fun _ _ => [] := by
  have ho := h.out
  constructor <;> intros <;> simp_all [Chain, h.pool, h.limbo]

/-- A block that is in no pool, and goes into none. -/
theorem Inv.upd {s : State} {g : Ghost} {L : Nat → Nat → List Nat} (h : Inv s g L) {m : Nat} {st : Status} {hd : Hdr}
    {limbo : Nat → List (Nat × Nat)} (hg : ∀ t n, g m ≠ .free t n) (hs : ∀ t n, st ≠ .free t n)
    (hl : ∀ sz tag, st = .live sz tag → hd = make sz tag ∧ (tag % 256 ≠ 0 → tag % 256 = lines sz ∧ s.unit ∣ m))
    (hgo : ∀ t tag, st = .gone t tag → (∃ sz, hd = { make sz tag with after := true }) ∧ (tag % 256 ≠ 0 → s.unit ∣ m))
    (hlim : ∀ x t tag, Function.update g m st x = .gone t tag ↔ (x, tag) ∈ limbo t)
    (honce : ∀ t, ((limbo t).map Prod.fst).Nodup) (hpos : st ≠ .out → m ≠ 0 ∧ 16 ∣ m) :
    Inv { s with hdr := Function.update s.hdr m hd, limbo } (Function.update g m st) L := by
  have hm : ∀ t n, m ∉ L t n := fun t n hc => hg t n ((h.free m t n).1 hc)
  constructor
  · intro t n
    apply (h.chain t n).frame
    intro p hp
    have : p ≠ m := by rintro rfl; exact hm t n hp
    simp [State.word, Function.update_of_ne this]
  · exact h.nodup
  · intro x t n
    by_cases hx : x = m
    · subst hx
      simp only [Function.update_self]
      exact ⟨fun hc => absurd hc (hm t n), fun hc => absurd hc (hs t n)⟩
    · rw [Function.update_of_ne hx]; exact h.free x t n
  · intro x sz tag hx
    by_cases hxm : x = m
    · subst hxm
      simp only [Function.update_self] at hx ⊢
      exact ⟨(hl sz tag hx).1, fun h0 => ((hl sz tag hx).2 h0).1⟩
    · rw [Function.update_of_ne hxm] at hx
      simp only [Function.update_of_ne hxm]
      exact h.live x sz tag hx
  · exact hlim
  · intro x t tag hx
    by_cases hxm : x = m
    · subst hxm
      simp only [Function.update_self] at hx ⊢
      exact (hgo t tag hx).1
    · rw [Function.update_of_ne hxm] at hx
      simp only [Function.update_of_ne hxm]
      exact h.goneHdr x t tag hx
  · exact honce
  · intro x hx
    by_cases hxm : x = m
    · subst hxm; rw [Function.update_self] at hx; exact hpos hx
    · rw [Function.update_of_ne hxm] at hx; exact h.pos x hx
  · intro x t n hx
    by_cases hxm : x = m
    · subst hxm; rw [Function.update_self] at hx; exact absurd hx (hs t n)
    · rw [Function.update_of_ne hxm] at hx; exact h.freeAl x t n hx
  · intro x sz tag hx h0
    by_cases hxm : x = m
    · subst hxm; rw [Function.update_self] at hx; exact ((hl sz tag hx).2 h0).2
    · rw [Function.update_of_ne hxm] at hx; exact h.liveAl x sz tag hx h0
  · intro x t tag hx h0
    by_cases hxm : x = m
    · subst hxm; rw [Function.update_self] at hx; exact (hgo t tag hx).2 h0
    · rw [Function.update_of_ne hxm] at hx; exact h.goneAl x t tag hx h0

/-- A list is replaced. -/
def setL (L : Nat → Nat → List Nat) (t n : Nat) (l : List Nat) : Nat → Nat → List Nat :=
  fun t' n' => if t' = t ∧ n' = n then l else L t' n'

theorem Inv.push {s : State} {g : Ghost} {L : Nat → Nat → List Nat} (h : Inv s g L) {m t n : Nat} (hg : g m = .out) (hp : m ≠ 0)
    (ha : 16 ∣ m) (hu : s.unit ∣ m) : Inv (s.push t n m) (Function.update g m (.free t n)) (setL L t n (m :: L t n)) := by
  have hm : ∀ t n, m ∉ L t n := fun t n hc => by have := (h.free m t n).1 hc; rw [hg] at this; cases this
  have hc : ∀ t' n', Chain (s.push t n m).word (s.pool t' n') (L t' n') := by
    intro t' n'
    apply (h.chain t' n').frame
    intro p hq
    have : p ≠ m := by rintro rfl; exact hm t' n' hq
    simp [State.word, State.push, State.setHdr, State.setPool, Function.update_of_ne this]
  have hh : ∀ x, x ≠ m → (s.push t n m).hdr x = s.hdr x := by
    intro x hx; simp [State.push, State.setHdr, State.setPool, Function.update_of_ne hx]
  constructor
  · intro t' n'
    by_cases he : t' = t ∧ n' = n
    · obtain ⟨rfl, rfl⟩ := he
      have : setL L t' n' (m :: L t' n') t' n' = m :: L t' n' := by simp [setL]
      rw [this]
      refine ⟨by simp [State.push, State.setPool], hp, ?_⟩
      have : (s.push t' n' m).word m = s.pool t' n' := by simp [State.word, State.push, State.setHdr, State.setPool]
      rw [this]
      exact hc t' n'
    · simp only [setL, if_neg he]
      have : (s.push t n m).pool t' n' = s.pool t' n' := by simp [State.push, State.setPool, State.setHdr, he]
      rw [this]
      exact hc t' n'
  · intro t' n'
    simp only [setL]
    split
    · next he => obtain ⟨rfl, rfl⟩ := he; exact List.nodup_cons.2 ⟨hm _ _, h.nodup _ _⟩
    · exact h.nodup t' n'
  · intro x t' n'
    by_cases hx : x = m
    · subst hx
      rw [Function.update_self]
      simp only [setL]
      split
      · next he => obtain ⟨rfl, rfl⟩ := he; simp
      · next he =>
        constructor
        · exact fun hc => absurd hc (hm _ _)
        · intro hc; injection hc with h1 h2; exact absurd ⟨h1.symm, h2.symm⟩ he
    · rw [Function.update_of_ne hx, ← h.free x t' n']
      simp only [setL]
      split
      · next he => obtain ⟨rfl, rfl⟩ := he; simp [hx]
      · exact Iff.rfl
  · intro x sz tag hx
    by_cases hxm : x = m
    · subst hxm; rw [Function.update_self] at hx; cases hx
    · rw [Function.update_of_ne hxm] at hx; rw [hh x hxm]; exact h.live x sz tag hx
  · intro x t' tag
    by_cases hxm : x = m
    · subst hxm
      rw [Function.update_self]
      refine ⟨fun hc => (by cases hc), fun hc => ?_⟩
      have := (h.gone x t' tag).2 hc
      rw [hg] at this; cases this
    · rw [Function.update_of_ne hxm]; exact h.gone x t' tag
  · intro x t' tag hx
    by_cases hxm : x = m
    · subst hxm; rw [Function.update_self] at hx; cases hx
    · rw [Function.update_of_ne hxm] at hx; rw [hh x hxm]; exact h.goneHdr x t' tag hx
  · exact h.once
  · intro x hx
    by_cases hxm : x = m
    · subst hxm; exact ⟨hp, ha⟩
    · rw [Function.update_of_ne hxm] at hx; exact h.pos x hx
  · intro x t' n' hx
    by_cases hxm : x = m
    · subst hxm; exact hu
    · rw [Function.update_of_ne hxm] at hx; exact h.freeAl x t' n' hx
  · intro x sz tag hx h0
    by_cases hxm : x = m
    · subst hxm; exact hu
    · rw [Function.update_of_ne hxm] at hx; exact h.liveAl x sz tag hx h0
  · intro x t' tag hx h0
    by_cases hxm : x = m
    · subst hxm; exact hu
    · rw [Function.update_of_ne hxm] at hx; exact h.goneAl x t' tag hx h0

theorem chain_out {hdr : Nat → Hdr} {area : List Nat} {x : Nat} (h : x ∉ area) : Memdebug.chain hdr area x = hdr x := by
  induction area with
  | nil => rfl
  | cons a l ih =>
    rw [List.mem_cons, not_or] at h
    rw [Memdebug.chain, Function.update_of_ne h.1, ih h.2]

theorem chain_chain {hdr : Nat → Hdr} {area : List Nat} (hn : area.Nodup) (h0 : ∀ m ∈ area, m ≠ 0) :
    Chain (fun m => (Memdebug.chain hdr area m).word) (area.head?.getD 0) area := by
  induction area with
  | nil => simp [Chain]
  | cons a l ih =>
    rw [List.nodup_cons] at hn
    refine ⟨rfl, h0 a (by simp), ?_⟩
    have : (Memdebug.chain hdr (a :: l) a).word = l.head?.getD 0 := by simp [Memdebug.chain]
    simp only [this]
    apply (ih hn.2 fun m hm => h0 m (by simp [hm])).frame
    intro p hp
    have : p ≠ a := by rintro rfl; exact hn.1 hp
    simp [Memdebug.chain, Function.update_of_ne this]

theorem Inv.refill {s : State} {g : Ghost} {L : Nat → Nat → List Nat} (h : Inv s g L) {t n : Nat} {area : List Nat}
    (hL : L t n = []) (hn : area.Nodup) (ha : ∀ m ∈ area, g m = .out ∧ m ≠ 0 ∧ s.unit ∣ m) :
    Inv (s.refill t n area) (fun x => if x ∈ area then .free t n else g x) (setL L t n area) := by
  have h16 : ∀ m, s.unit ∣ m → 16 ∣ m := by
    intro m; unfold State.unit; split <;> omega
  have hm : ∀ m ∈ area, ∀ t n, m ∉ L t n := fun m hm t n hc => by
    have := (h.free m t n).1 hc; rw [(ha m hm).1] at this; cases this
  have hh : ∀ x, x ∉ area → (s.refill t n area).hdr x = s.hdr x := fun x hx => chain_out hx
  constructor
  · intro t' n'
    by_cases he : t' = t ∧ n' = n
    · obtain ⟨rfl, rfl⟩ := he
      have : setL L t' n' area t' n' = area := by simp [setL]
      rw [this]
      have : (s.refill t' n' area).pool t' n' = area.head?.getD 0 := by simp [State.refill, State.setPool]
      rw [this]
      exact chain_chain hn fun m hm => (ha m hm).2.1
    · simp only [setL, if_neg he]
      have : (s.refill t n area).pool t' n' = s.pool t' n' := by simp [State.refill, State.setPool, he]
      rw [this]
      apply (h.chain t' n').frame
      intro p hp
      simp only [State.word]
      rw [hh p fun hc => hm p hc t' n' hp]
  · intro t' n'
    simp only [setL]
    split
    · exact hn
    · exact h.nodup t' n'
  · intro x t' n'
    by_cases hx : x ∈ area
    · simp only [hx, if_true, setL]
      split
      · next he => obtain ⟨rfl, rfl⟩ := he; simp [hx]
      · next he =>
        constructor
        · exact fun hc => absurd hc (hm x hx _ _)
        · intro hc; injection hc with h1 h2; exact absurd ⟨h1.symm, h2.symm⟩ he
    · simp only [hx, if_false]
      rw [← h.free x t' n']
      simp only [setL]
      split
      · next he => obtain ⟨rfl, rfl⟩ := he; simp [hx, hL]
      · exact Iff.rfl
  · intro x sz tag hx
    by_cases hxm : x ∈ area
    · simp [hxm] at hx
    · simp only [hxm, if_false] at hx; rw [hh x hxm]; exact h.live x sz tag hx
  · intro x t' tag
    by_cases hxm : x ∈ area
    · simp only [hxm, if_true]
      refine ⟨fun hc => (by cases hc), fun hc => ?_⟩
      have := (h.gone x t' tag).2 hc
      rw [(ha x hxm).1] at this; cases this
    · simp only [hxm, if_false]; exact h.gone x t' tag
  · intro x t' tag hx
    by_cases hxm : x ∈ area
    · simp [hxm] at hx
    · simp only [hxm, if_false] at hx; rw [hh x hxm]; exact h.goneHdr x t' tag hx
  · exact h.once
  · intro x hx
    by_cases hxm : x ∈ area
    · exact ⟨(ha x hxm).2.1, h16 x (ha x hxm).2.2⟩
    · simp only [hxm, if_false] at hx; exact h.pos x hx
  · intro x t' n' hx
    by_cases hxm : x ∈ area
    · exact (ha x hxm).2.2
    · simp only [hxm, if_false] at hx; exact h.freeAl x t' n' hx
  · intro x sz tag hx h0
    by_cases hxm : x ∈ area
    · exact (ha x hxm).2.2
    · simp only [hxm, if_false] at hx; exact h.liveAl x sz tag hx h0
  · intro x t' tag hx h0
    by_cases hxm : x ∈ area
    · exact (ha x hxm).2.2
    · simp only [hxm, if_false] at hx; exact h.goneAl x t' tag hx h0

/-- The first block of a pool is taken. -/
theorem Inv.pop {s : State} {g : Ghost} {L : Nat → Nat → List Nat} (h : Inv s g L) {t sz tag : Nat}
    (hp : s.pool t (lines sz) ≠ 0) (ht : (tag + lines sz) % 256 = lines sz) :
    g (s.pool t (lines sz)) = .free t (lines sz) ∧
    ∃ L', Inv ((s.setPool t (lines sz) (s.hdr (s.pool t (lines sz))).word).setHdr (s.pool t (lines sz)) (make sz (tag + lines sz)))
      (Function.update g (s.pool t (lines sz)) (.live sz (tag + lines sz))) L' := by
  generalize hm : s.pool t (lines sz) = m at hp
  generalize hn : lines sz = n at *
  have hc := h.chain t n
  obtain ⟨l, hL⟩ : ∃ l, L t n = m :: l := by
    cases hL : L t n with
    | nil => rw [hL, hm] at hc; exact absurd hc hp
    | cons a l => rw [hL, hm] at hc; exact ⟨l, by rw [hc.1]⟩
  rw [hL, hm] at hc
  have hf : g m = .free t n := (h.free m t n).1 (by rw [hL]; simp)
  have hnd := h.nodup t n
  rw [hL, List.nodup_cons] at hnd
  refine ⟨hf, setL L t n l, ?_⟩
  have hmem : ∀ t' n', m ∉ setL L t n l t' n' := by
    intro t' n' hc
    simp only [setL] at hc
    split at hc
    · exact hnd.1 hc
    · next he =>
      have := (h.free m t' n').1 hc
      rw [hf] at this
      injection this with h1 h2
      exact he ⟨h1.symm, h2.symm⟩
  have hh : ∀ x, x ≠ m → ((s.setPool t n (s.hdr m).word).setHdr m (make sz (tag + n))).hdr x = s.hdr x := by
    intro x hx; simp [State.setHdr, State.setPool, Function.update_of_ne hx]
  have hpm := h.pos m (by rw [hf]; simp)
  have hal := h.freeAl m t n hf
  constructor
  · intro t' n'
    have hc' : Chain s.word (((s.setPool t n (s.hdr m).word).setHdr m (make sz (tag + n))).pool t' n') (setL L t n l t' n') := by
      by_cases he : t' = t ∧ n' = n
      · simp only [setL, State.setHdr, State.setPool, if_pos he]; exact hc.2.2
      · simp only [setL, State.setHdr, State.setPool, if_neg he]; exact h.chain t' n'
    apply hc'.frame
    intro p hq
    simp only [State.word]
    rw [hh p (by rintro rfl; exact hmem t' n' hq)]
  · intro t' n'
    simp only [setL]
    split
    · exact hnd.2
    · exact h.nodup t' n'
  · intro x t' n'
    by_cases hx : x = m
    · subst hx
      rw [Function.update_self]
      exact ⟨fun hc => absurd hc (hmem _ _), fun hc => (by cases hc)⟩
    · rw [Function.update_of_ne hx, ← h.free x t' n']
      simp only [setL]
      split
      · next he => obtain ⟨rfl, rfl⟩ := he; simp [hL, hx]
      · exact Iff.rfl
  · intro x sz' tag' hx
    by_cases hxm : x = m
    · subst hxm
      rw [Function.update_self] at hx
      injection hx with h1 h2
      subst h1 h2
      exact ⟨by simp [State.setHdr], fun _ => by rw [ht, hn]⟩
    · rw [Function.update_of_ne hxm] at hx; rw [hh x hxm]; exact h.live x sz' tag' hx
  · intro x t' tag'
    by_cases hxm : x = m
    · subst hxm
      rw [Function.update_self]
      refine ⟨fun hc => (by cases hc), fun hc => ?_⟩
      have := (h.gone x t' tag').2 hc
      rw [hf] at this; cases this
    · rw [Function.update_of_ne hxm]; exact h.gone x t' tag'
  · intro x t' tag' hx
    by_cases hxm : x = m
    · subst hxm; rw [Function.update_self] at hx; cases hx
    · rw [Function.update_of_ne hxm] at hx; rw [hh x hxm]; exact h.goneHdr x t' tag' hx
  · exact h.once
  · intro x hx
    by_cases hxm : x = m
    · subst hxm; exact hpm
    · rw [Function.update_of_ne hxm] at hx; exact h.pos x hx
  · intro x t' n' hx
    by_cases hxm : x = m
    · subst hxm; exact hal
    · rw [Function.update_of_ne hxm] at hx; exact h.freeAl x t' n' hx
  · intro x sz' tag' hx h0
    by_cases hxm : x = m
    · subst hxm; exact hal
    · rw [Function.update_of_ne hxm] at hx; exact h.liveAl x sz' tag' hx h0
  · intro x t' tag' hx h0
    by_cases hxm : x = m
    · subst hxm; exact hal
    · rw [Function.update_of_ne hxm] at hx; exact h.goneAl x t' tag' hx h0

end Verif.Memdebug
