import Verif.Memdebug.Inv
import Mathlib.Tactic.Common

/-!
# Every proper call keeps headers right and fails no assertion
-/
namespace Verif.Memdebug

theorem and_mask (tag : Nat) : tag &&& poolMask = tag % 256 := Nat.and_two_pow_sub_one_eq_mod tag 8

theorem lines_pos (sz : Nat) : 0 < lines sz := by unfold lines headSize; omega

theorem sum_mod {tag sz : Nat} (ht : IsType tag) (hm : lines sz ≤ maxLines) : (tag + lines sz) % 256 = lines sz := by
  unfold IsType at ht; unfold maxLines at hm; omega

theorem make_magic (sz tag : Nat) : (make sz tag).magic = magicUsed := by
  simp [make, Hdr.magic, half, magicUsed]

theorem make_tag (sz tag : Nat) : (make sz tag).tag = tag := by
  simp only [make, Hdr.tag, half, magicUsed]; omega

/-- What `free_checks` asserts. -/
theorem freeChecks_iff (h : Hdr) (sz tag : Nat) (after : Bool) :
    (freeChecks h sz tag after).2 = true ↔
      h.magic = magicUsed ∧ (tag ≠ 0 → h.tag = tag) ∧ (after = false → h.size = sz) ∧ h.after = after := by
  unfold freeChecks
  split
  · simp only [hardChecks, decide_eq_true_eq]
  · next hc => push Not at hc; grind

/-- A free block does not look like one in use. -/
theorem Inv.free_magic {s : State} {g : Ghost} {L : Nat → Nat → List Nat} (h : Inv s g L) {m t n : Nat} (hf : g m = .free t n) :
    s.unit ∣ (s.hdr m).word := by
  have hm := (h.free m t n).2 hf
  have hall : ∀ x ∈ L t n, s.unit ∣ x := fun x hx => h.freeAl x t n ((h.free x t n).1 hx)
  have key : ∀ (l : List Nat) (p : Nat), Pool.Chain s.word p l → (∀ x ∈ l, s.unit ∣ x) → ∀ x ∈ l, s.unit ∣ s.word x := by
    intro l
    induction l with
    | nil => intro p _ _ x hx; cases hx
    | cons a l ih =>
      intro p hc hu x hx
      rcases List.mem_cons.1 hx with rfl | hx
      · have := hc.2.2
        cases l with
        | nil => rw [show s.word x = 0 from this]; exact Nat.dvd_zero _
        | cons b l => rw [show s.word x = b from this.1]; exact hu b (by simp)
      · exact ih _ hc.2.2 (fun y hy => hu y (by simp [hy])) x hx
  exact key _ _ (h.chain t n) hall m hm

theorem magic_of_dvd {u : Nat} {h : Hdr} (hu : u = 64 ∨ u = 16) (hd : u ∣ h.word) : h.magic ≠ magicUsed := by
  unfold Hdr.magic half magicUsed
  rcases hu with rfl | rfl <;> omega

theorem unit_cases (s : State) : s.unit = 64 ∨ s.unit = 16 := by unfold State.unit; split <;> simp

/-- The header tells exactly which releases are right. -/
theorem Inv.checks {s : State} {g : Ghost} {L : Nat → Nat → List Nat} (h : Inv s g L) {m sz tag : Nat} (hm : g m ≠ .out)
    (ht : tag ≠ 0) : (freeChecks (s.hdr m) sz tag false).2 = true ↔ g m = .live sz tag := by
  rw [freeChecks_iff]
  cases hg : g m with
  | out => exact absurd hg hm
  | free t n =>
    have := magic_of_dvd (unit_cases s) (h.free_magic hg)
    simp [this]
  | live sz' tag' =>
    rw [(h.live m sz' tag' hg).1, make_magic, make_tag]
    simp only [make, Status.live.injEq]
    constructor
    · rintro ⟨_, h1, h2, _⟩; exact ⟨h2 trivial, h1 ht⟩
    · rintro ⟨rfl, rfl⟩; simp
  | gone t tag' =>
    obtain ⟨sz', he⟩ := h.goneHdr m t tag' hg
    rw [he]
    simp

theorem Inv.upd_limbo {s : State} {g : Ghost} {L : Nat → Nat → List Nat} (h : Inv s g L) {m : Nat} {st : Status}
    (hg : ∀ t n, g m ≠ .gone t n) (hs : ∀ t n, st ≠ .gone t n) :
    ∀ x t tag, Function.update g m st x = .gone t tag ↔ (x, tag) ∈ s.limbo t := by
  intro x t tag
  by_cases hx : x = m
  · subst hx
    rw [Function.update_self]
    exact ⟨fun hc => absurd hc (hs _ _), fun hc => absurd ((h.gone _ _ _).2 hc) (hg _ _)⟩
  · rw [Function.update_of_ne hx]; exact h.gone x t tag

/-- A block in use is recorded. -/
theorem Inv.record {s : State} {g : Ghost} {L : Nat → Nat → List Nat} (h : Inv s g L) {m sz tag t : Nat} (hg : g m = .live sz tag) :
    Inv ((s.setHdr m { s.hdr m with after := true }).record t m tag) (Function.update g m (.gone t tag)) L := by
  have hh := h.live m sz tag hg
  apply h.upd
  · intro t n hc; rw [hg] at hc; cases hc
  · intro t n hc; cases hc
  · intro _ _ hc; cases hc
  · intro t' tag' hc
    injection hc with h1 h2
    subst h1 h2
    exact ⟨⟨sz, by rw [hh.1]⟩, fun h0 => h.liveAl m sz tag hg h0⟩
  · intro x t' tag'
    have hx' : ∀ x', Function.update s.limbo t (s.limbo t ++ [(m, tag)]) t' = x' → x' = if t' = t then s.limbo t ++ [(m, tag)] else s.limbo t' := by
      intro x' hx'; rw [← hx', Function.update_apply]
    show _ ↔ (x, tag') ∈ Function.update s.limbo t (s.limbo t ++ [(m, tag)]) t'
    rw [hx' _ rfl]
    by_cases hx : x = m
    · subst hx
      rw [Function.update_self]
      have hno : ∀ t n, (x, n) ∉ s.limbo t := fun t n hc => by have := (h.gone x t n).2 hc; rw [hg] at this; cases this
      by_cases he : t' = t
      · subst he; simp [hno]; exact eq_comm
      · simp only [if_neg he, Status.gone.injEq, hno, iff_false, not_and]
        exact fun hc => absurd hc.symm he
    · rw [Function.update_of_ne hx, h.gone]
      by_cases he : t' = t
      · subst he; simp [hx]
      · simp [he]
  · intro t'
    show ((Function.update s.limbo t (s.limbo t ++ [(m, tag)]) t').map Prod.fst).Nodup
    rw [Function.update_apply]
    split
    · rw [List.map_append, List.nodup_append]
      refine ⟨h.once t, by simp, ?_⟩
      rintro a ha b hb rfl
      obtain ⟨⟨a', n⟩, hc, rfl⟩ := List.mem_map.1 ha
      simp only [List.map_cons, List.map_nil, List.mem_singleton] at hb
      subst hb
      have := (h.gone _ _ _).2 hc
      rw [hg] at this; cases this
    · exact h.once t'
  · intro _; exact h.pos m (by rw [hg]; simp)

/-- A block in use is given back. -/
theorem Inv.back {s : State} {g : Ghost} {L : Nat → Nat → List Nat} (h : Inv s g L) {m sz tag : Nat} (hg : g m = .live sz tag) (hd : Hdr) :
    Inv (s.setHdr m hd) (Function.update g m .out) L := by
  refine h.upd (limbo := s.limbo) (by rw [hg]; simp) (by simp) (by simp) (by simp) ?_ h.once (by simp)
  exact h.upd_limbo (by rw [hg]; simp) (by simp)

theorem Inv.step {s : State} {g : Ghost} {L : Nat → Nat → List Nat} (h : Inv s g L) {op : Op} (hp : Proper s.pools g op)
    (hu : ∀ m a, op ≠ .assertUse m a) :
    ∃ s' r L', exec s op = some (s', r) ∧ Inv s' (track s.pools g s.limbo op r) L' ∧ s'.pools = s.pools := by
  have pass : ∀ {m sz tag : Nat}, g m = .live sz tag → (freeChecks (s.hdr m) sz tag false).2 = true := by
    intro m sz tag hg
    rw [freeChecks_iff, (h.live m sz tag hg).1, make_magic, make_tag]
    simp [make]
  cases op with
  | allocate m sz tag =>
    obtain ⟨h1, h2, h3, h4⟩ := hp
    refine ⟨_, _, L, rfl, ?_, rfl⟩
    refine h.upd (limbo := s.limbo) (by rw [h1]; simp) (by simp) ?_ (by simp) (h.upd_limbo (by rw [h1]; simp) (by simp)) h.once fun _ => ⟨h2, h3⟩
    intro sz' tag' hc
    injection hc with ha hb
    subst ha hb
    exact ⟨rfl, fun h0 => absurd h4 h0⟩
  | deallocate m sz tag =>
    refine ⟨_, _, L, by simp only [exec, pass hp.1, if_true]; rfl, h.back hp.1 _, rfl⟩
  | deallocateRcu t m sz tag =>
    refine ⟨_, _, L, by simp only [exec, pass hp.1, if_true]; rfl, h.record hp.1, rfl⟩
  | poolAllocate t sz tag area =>
    obtain ⟨hl, ht, hn, ha⟩ := hp
    have hsum := sum_mod ht hl
    simp only [exec, if_pos hl]
    by_cases h0 : s.pool t (lines sz) = 0
    · simp only [if_pos h0]
      have hL : L t (lines sz) = [] := by
        have hc := h.chain t (lines sz)
        cases hL : L t (lines sz) with
        | nil => rfl
        | cons a l => rw [hL, h0] at hc; exact absurd hc.1.symm hc.2.1
      have hr := h.refill hL hn ha
      have hhead : (s.refill t (lines sz) area).pool t (lines sz) = area.head?.getD 0 := by simp [State.refill, State.setPool]
      by_cases hz : (s.refill t (lines sz) area).pool t (lines sz) = 0
      · simp only [hz, ne_eq, not_true_eq_false, if_false]
        have hnil : area = [] := by
          cases area with
          | nil => rfl
          | cons a l => rw [hhead] at hz; exact absurd hz (ha a (by simp)).2.1
        subst hnil
        exact ⟨_, _, setL L t (lines sz) [], rfl, by simpa [track] using hr, rfl⟩
      · simp only [ne_eq, hz, not_false_eq_true, if_true]
        obtain ⟨hf, L', hL'⟩ := hr.pop hz hsum
        refine ⟨_, _, L', rfl, ?_, rfl⟩
        have hin : (s.refill t (lines sz) area).pool t (lines sz) ∈ area := by
          rw [hhead]
          cases area with
          | nil => rw [hhead] at hz; exact absurd rfl hz
          | cons a l => simp
        simpa only [track, hz, if_false, hin, true_and] using hL'
    · simp only [h0, if_false, ne_eq, not_false_eq_true, if_true]
      obtain ⟨hf, L', hL'⟩ := h.pop h0 hsum
      refine ⟨_, _, L', rfl, ?_, rfl⟩
      have hin : s.pool t (lines sz) ∉ area := by
        intro hc
        rw [(ha _ hc).1] at hf; cases hf
      simpa only [track, h0, if_false, hin, false_and] using hL'
  | poolDeallocate t m sz tag =>
    obtain ⟨h1, hl, ht⟩ := hp
    have hsum := sum_mod ht hl
    have hb := h.back h1 ((s.hdr m).setMagic magicFree)
    have hne : (tag + lines sz) % 256 ≠ 0 := by have := lines_pos sz; omega
    have hpos := h.pos m (by rw [h1]; simp)
    cases hpools : s.pools with
    | false =>
      refine ⟨_, _, L, by simp only [exec, hl, pass h1, and_self, if_true]; rfl, ?_, ?_⟩
      · simpa [State.setHdr, hpools, track] using hb
      · simp [State.setHdr, hpools]
    | true =>
      have hq := hb.push (t := t) (n := lines sz) (Function.update_self ..) hpos.1 hpos.2 (h.liveAl m _ _ h1 hne)
      rw [Function.update_idem] at hq
      refine ⟨_, _, setL L t (lines sz) (m :: L t (lines sz)), by simp only [exec, hl, pass h1, and_self, if_true]; rfl, ?_, ?_⟩
      · simp only [State.setHdr, hpools, if_true, track]
        simpa only [State.setHdr, hpools] using hq
      · simp [State.setHdr, hpools, State.push, State.setPool]
  | poolDeallocateRcu t m sz tag =>
    obtain ⟨h1, hl, ht⟩ := hp
    refine ⟨_, _, L, by simp only [exec, hl, pass h1, and_self, if_true]; rfl, h.record h1, rfl⟩
  | freeRcu t =>
    cases hlim : s.limbo t with
    | nil => exact ⟨s, 0, L, by simp [exec, hlim], by simpa [track, hlim] using h, rfl⟩
    | cons e l =>
      obtain ⟨m, tag⟩ := e
      have hg : g m = .gone t tag := (h.gone m t tag).2 (by rw [hlim]; simp)
      obtain ⟨sz, hh⟩ := h.goneHdr m t tag hg
      have hpass : (freeChecks (s.hdr m) 0 tag true).2 = true := by
        rw [freeChecks_iff, hh]
        have h1 := make_magic sz tag
        have h2 := make_tag sz tag
        unfold Hdr.magic at h1 ⊢
        unfold Hdr.tag at h2 ⊢
        exact ⟨h1, fun _ => h2, by simp, rfl⟩
      have honce := h.once t
      rw [hlim] at honce
      simp only [List.map_cons, List.nodup_cons] at honce
      have hb : Inv { s.setHdr m ((s.hdr m).setMagic magicFree) with limbo := Function.update s.limbo t l } (Function.update g m .out) L := by
        refine h.upd (by rw [hg]; simp) (by simp) (by simp) (by simp) ?_ ?_ (by simp)
        · intro x t' tag'
          by_cases hx : x = m
          · subst hx
            rw [Function.update_self, Function.update_apply]
            refine ⟨fun hc => (by cases hc), fun hc => ?_⟩
            split at hc
            · exact absurd (List.mem_map.2 ⟨_, hc, rfl⟩) honce.1
            · next he =>
              have := (h.gone _ _ _).2 hc
              rw [hg] at this
              injection this with h1 h2
              exact absurd h1.symm he
          · rw [Function.update_of_ne hx, h.gone, Function.update_apply]
            split
            · next he => subst he; rw [hlim]; simp [hx]
            · exact Iff.rfl
        · intro t'
          rw [Function.update_apply]
          split
          · exact honce.2
          · exact h.once t'
      simp only [exec, hlim, hpass, if_true, and_mask]
      by_cases h0 : tag % 256 = 0
      · refine ⟨_, _, L, rfl, ?_, ?_⟩
        · simpa only [h0, if_true, track, hlim] using hb
        · simp [h0, State.setHdr]
      · have hpos := h.pos m (by rw [hg]; simp)
        have hq := hb.push (t := t) (n := tag % 256) (Function.update_self ..) hpos.1 hpos.2 (h.goneAl m _ _ hg h0)
        rw [Function.update_idem] at hq
        refine ⟨_, _, setL L t (tag % 256) (m :: L t (tag % 256)), rfl, ?_, ?_⟩
        · simpa only [h0, if_false, track, hlim] using hq
        · simp [h0, State.setHdr, State.push, State.setPool]
  | assertUse m a => exact absurd rfl (hu m a)

theorem Reach.inv {s : State} {g : Ghost} (h : Reach s g) : ∃ L, Inv s g L := by
  induction h with
  | init hi => exact ⟨_, init_inv hi⟩
  | @step s s' g op r _ hp he ih =>
    obtain ⟨L, hL⟩ := ih
    by_cases hu : ∃ m a, op = .assertUse m a
    · obtain ⟨m, a, rfl⟩ := hu
      simp only [exec] at he
      split at he
      · injection he with he; injection he with h1 h2; subst h1; exact ⟨L, hL⟩
      · cases he
    · obtain ⟨s'', r', L', he', hi, _⟩ := hL.step hp fun m a hc => hu ⟨m, a, hc⟩
      rw [he] at he'
      injection he' with he'
      injection he' with h1 h2
      subst h1 h2
      exact ⟨L', hi⟩

end Verif.Memdebug
