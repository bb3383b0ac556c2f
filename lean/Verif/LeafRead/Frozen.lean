import Verif.LeafRead.Stable

/-!
# What a reader of a leaf may rely on

While the version stays clean, the slots that were active at some time keep their keys, and removed slots keep their values.
-/
namespace Verif.LeafRead

open Verif.NodeVersion

variable {V : Type}

theorem upd_of_ne {A : Type} {f : Nat → A} {p q : Nat} {x : A} (h : q ≠ p) : upd f p x q = f q := if_neg h

/-- What is known at a later time about the slots `P` that were active in `s0`; `cs` are the suffix containers that were
current since then. -/
structure Frozen (s0 s : State V) (cs : List Nat) : Prop where
  mode : s.removing = s0.removing
  grows : s.removing = false → ∀ p ∈ s0.mem.perm, p ∈ s.mem.perm
  ikey : ∀ p ∈ s0.mem.perm, s.mem.ikey p = s0.mem.ikey p
  lenx : ∀ p ∈ s0.mem.perm, s.mem.lenx p = s0.mem.lenx p
  cur : s.mem.cur ∈ cs
  old : ∀ c ∈ cs, c < s.next
  suffix : ∀ c ∈ cs, ∀ p ∈ s0.mem.perm, s0.mem.lenx p = ksufLenx → s.mem.bag c p = s0.mem.bag s0.mem.cur p

theorem Frozen.start {s : State V} (h : Init s) : Frozen s s [s.mem.cur] where
  mode := rfl
  grows _ _ hp := hp
  ikey _ _ := rfl
  lenx _ _ := rfl
  cur := by simp
  old c hc := by simp only [List.mem_singleton] at hc; subst hc; exact h.next
  suffix c hc p _ _ := by simp only [List.mem_singleton] at hc; subst hc; rfl

/-- A slot being filled is none of those that were active. -/
theorem Frozen.apart {s0 s : State V} {cs : List Nat} (h : Frozen s0 s cs) (hi : Init s) (hd : isDirty s.v = false) {p : Nat}
    (hw : s.work = .writing p) {q : Nat} (hq : q ∈ s0.mem.perm) : s.removing = false ∧ q ≠ p := by
  have hm : s.removing = false := by
    rcases hi.mode p hw with h | h
    · exact h
    · rw [hd] at h; cases h
  refine ⟨hm, fun he => ?_⟩
  subst he
  exact hi.writing q hw (h.grows hm q hq)

theorem Frozen.step {s0 s s' : State V} {cs : List Nat} (h : Frozen s0 s cs) (hi : Init s) (hd : isDirty s.v = false)
    (hs : Step s s') : Frozen s0 s' (s'.mem.cur :: cs) := by
  have hcs : ∀ {c}, c ∈ s.mem.cur :: cs → c ∈ cs := by
    intro c hc
    rcases List.mem_cons.mp hc with rfl | hc
    · exact h.cur
    · exact hc
  cases hs with
  | lock hw hl => exact ⟨h.mode, h.grows, h.ikey, h.lenx, by simp, fun c hc => h.old c (hcs hc), fun c hc => h.suffix c (hcs hc)⟩
  | mark m hw => exact ⟨h.mode, h.grows, h.ikey, h.lenx, by simp, fun c hc => h.old c (hcs hc), fun c hc => h.suffix c (hcs hc)⟩
  | mode r hw hd' => rw [hd] at hd'; cases hd'
  | begin p hw hm hp =>
    exact ⟨h.mode, h.grows, h.ikey, h.lenx, by simp, fun c hc => h.old c (hcs hc), fun c hc => h.suffix c (hcs hc)⟩
  | ikey p x hw =>
    exact ⟨h.mode, h.grows, fun q hq => (upd_of_ne (h.apart hi hd hw hq).2).trans (h.ikey q hq), h.lenx, by simp,
      fun c hc => h.old c (hcs hc), fun c hc => h.suffix c (hcs hc)⟩
  | lenx p x hw =>
    exact ⟨h.mode, h.grows, h.ikey, fun q hq => (upd_of_ne (h.apart hi hd hw hq).2).trans (h.lenx q hq), by simp,
      fun c hc => h.old c (hcs hc), fun c hc => h.suffix c (hcs hc)⟩
  | fill p x hw => exact ⟨h.mode, h.grows, h.ikey, h.lenx, by simp, fun c hc => h.old c (hcs hc), fun c hc => h.suffix c (hcs hc)⟩
  | suffix p b hw =>
    refine ⟨h.mode, h.grows, h.ikey, h.lenx, by simp, fun c hc => h.old c (hcs hc), fun c hc q hq hl => ?_⟩
    have hne := (h.apart hi hd hw hq).2
    rw [← h.suffix c (hcs hc) q hq hl]
    show upd s.mem.bag s.mem.cur _ c q = _
    unfold upd
    split
    · next hce => subst hce; exact if_neg hne
    · rfl
  | container p b new hw hn =>
    refine ⟨h.mode, h.grows, h.ikey, h.lenx, by simp, fun c hc => ?_, fun c hc q hq hl => ?_⟩
    · rcases List.mem_cons.mp hc with rfl | hc
      · exact Nat.lt_succ_self _
      · exact Nat.lt_succ_of_lt (h.old c hc)
    · obtain ⟨hm, hne⟩ := h.apart hi hd hw hq
      show upd s.mem.bag s.next (upd new p b) c q = _
      rcases List.mem_cons.mp hc with rfl | hc
      · show upd s.mem.bag s.next (upd new p b) s.next q = _
        unfold upd
        rw [if_pos rfl, if_neg hne, hn q (h.grows hm q hq) (by rw [h.lenx q hq]; exact hl)]
        exact h.suffix _ h.cur q hq hl
      · rw [upd_of_ne (Nat.ne_of_lt (h.old c hc))]
        exact h.suffix c hc q hq hl
  | publish p i hw =>
    refine ⟨h.mode, fun hm q hq => ?_, h.ikey, h.lenx, by simp, fun c hc => h.old c (hcs hc), fun c hc => h.suffix c (hcs hc)⟩
    have hq' := h.grows hm q hq
    rcases Nat.lt_or_ge s.mem.perm.length i with hl | hl
    · show q ∈ s.mem.perm.insertIdx i p
      rw [List.insertIdx_of_length_lt hl]; exact hq'
    · exact (List.mem_insertIdx hl).mpr (Or.inr hq')
  | abandon p hw => exact ⟨h.mode, h.grows, h.ikey, h.lenx, by simp, fun c hc => h.old c (hcs hc), fun c hc => h.suffix c (hcs hc)⟩
  | replace p x hw hp =>
    exact ⟨h.mode, h.grows, h.ikey, h.lenx, by simp, fun c hc => h.old c (hcs hc), fun c hc => h.suffix c (hcs hc)⟩
  | remove p hw hm =>
    refine ⟨h.mode, fun hm' => ?_, h.ikey, h.lenx, by simp, fun c hc => h.old c (hcs hc), fun c hc => h.suffix c (hcs hc)⟩
    rw [show s.removing = false from hm'] at hm; cases hm
  | wild m w n hw hd' hf hp hn => rw [hd] at hd'; cases hd'
  | unlock hw => exact ⟨h.mode, h.grows, h.ikey, h.lenx, by simp, fun c hc => h.old c (hcs hc), fun c hc => h.suffix c (hcs hc)⟩

/-- `Frozen` holds from the time the permutation is read until the check. -/
theorem Run.frozen (r : Run V) {a tp b : Nat} (h1 : a ≤ tp) (hc : ∀ t, a ≤ t → t ≤ b → isDirty (r.at_ t).v = false) :
    ∀ n, tp + n ≤ b → ∃ cs, Frozen (r.at_ tp) (r.at_ (tp + n)) cs ∧ ∀ k ≤ n, (r.at_ (tp + k)).mem.cur ∈ cs := by
  intro n
  induction n with
  | zero =>
    intro hn
    refine ⟨_, Frozen.start (r.init_at tp), fun k hk => ?_⟩
    obtain rfl : k = 0 := by omega
    simp
  | succ n ih =>
    intro hn
    obtain ⟨cs, hf, hk⟩ := ih (by omega)
    rcases r.step (tp + n) with h | h
    · refine ⟨cs, by rw [show tp + (n + 1) = tp + n + 1 from rfl, h]; exact hf, fun k hk' => ?_⟩
      rcases Nat.lt_or_ge n k with hlt | hge
      · obtain rfl : k = n + 1 := by omega
        rw [show tp + (n + 1) = tp + n + 1 from rfl, h]; exact hf.cur
      · exact hk k hge
    · refine ⟨_, hf.step (r.init_at _) (hc _ (by omega) (by omega)) h, fun k hk' => ?_⟩
      rcases Nat.lt_or_ge n k with hlt | hge
      · obtain rfl : k = n + 1 := by omega
        exact List.mem_cons_self
      · exact List.mem_cons_of_mem _ (hk k hge)

/-- A slot that is active now has its present value, one that was removed since keeps the value it had last. -/
theorem Run.last_value (r : Run V) {a tp b : Nat} (h1 : a ≤ tp) (hc : ∀ t, a ≤ t → t ≤ b → isDirty (r.at_ t).v = false)
    {p : Nat} (hp : p ∈ (r.at_ tp).mem.perm) :
    ∀ n, tp + n ≤ b → ∃ t, tp ≤ t ∧ t ≤ tp + n ∧ p ∈ (r.at_ t).mem.perm ∧ (r.at_ t).mem.lv p = (r.at_ (tp + n)).mem.lv p := by
  intro n
  induction n with
  | zero => exact fun _ => ⟨tp, Nat.le_refl _, Nat.le_refl _, hp, rfl⟩
  | succ n ih =>
    intro hn
    by_cases hq : p ∈ (r.at_ (tp + (n + 1))).mem.perm
    · exact ⟨tp + (n + 1), by omega, Nat.le_refl _, hq, rfl⟩
    · obtain ⟨t, h2, h3, h4, h5⟩ := ih (by omega)
      refine ⟨t, h2, by omega, h4, h5.trans ?_⟩
      rcases r.step (tp + n) with h | h
      · rw [show tp + (n + 1) = tp + n + 1 from rfl, h]
      · have hi := r.init_at (tp + n)
        obtain ⟨cs, hf, -⟩ := r.frozen h1 hc n (by omega)
        have hd := hc (tp + n) (by omega) (by omega)
        change Step _ (r.at_ (tp + (n + 1))) at h
        generalize r.at_ (tp + (n + 1)) = s' at h hq ⊢
        cases h with
        | fill q x hw => exact (upd_of_ne (hf.apart hi hd hw hp).2).symm
        | replace q x hw hpq =>
          refine (upd_of_ne ?_).symm
          rintro rfl; exact hq hpq
        | wild m w n hw hd' hf hp hn => rw [hd] at hd'; cases hd'
        | _ => rfl

end Verif.LeafRead
