import Verif.SmallVector.Refine

/-!
# Every operation of a program does what it does to lists
-/
namespace Verif.SmallVector

variable {T : Type} [DecidableEq T] {N : Nat} (left : T → T) {s : Sys T} {σ σ' : Nat → Option (List T)}

theorem Small.on {v : Nat} {l : List T} {L : Nat} (h : Small L (Function.update σ v (some l))) : l.length ≤ L :=
  h v l (by simp)

theorem step_spec (hN : 0 < N) (hN' : N < 2 ^ 32) (h : R N s σ) (o : Op T) (ha : o.Apart s) (ho : o.spec left σ = some σ')
    (hs : Small (2 ^ 31) σ') : ∃ s', o.run left N s = some s' ∧ R N s' σ' := by
  cases o with
  | new v =>
    simp only [Op.spec] at ho
    split at ho
    · rename_i hv
      cases ho
      have hv' : s.vecs v = none := by
        cases hw : s.vecs v with
        | none => rfl
        | some w => obtain ⟨l, e, -⟩ := h.holds v w hw; rw [hv] at e; cases e
      exact ⟨_, by simp only [Op.run, hv', if_true], h.new hN' hv'⟩
    · cases ho
  | copy v x =>
    simp only [Op.spec] at ho
    split at ho
    · rename_i l hv hx
      cases ho
      have hv' : s.vecs v = none := by
        cases hw : s.vecs v with
        | none => rfl
        | some w => obtain ⟨l, e, -⟩ := h.holds v w hw; rw [hv] at e; cases e
      obtain ⟨wx, hwx, hhx⟩ := h.vec hx
      have hne : v ≠ x := by rintro rfl; rw [hv] at hx; cases hx
      have r0 := h.new hN' hv'
      obtain ⟨m', w', e, r⟩ := pushAll_spec left hN hwx hne hx hs.on l.length 0 _ _ (by omega) (by simpa using r0)
      refine ⟨_, ?_, r⟩
      simp only [Op.run, hv', if_true, hwx, SmallVector.copy, Option.bind_eq_bind, Option.bind_some]
      rw [hhx.last, e]
      rfl
    · cases ho
  | push v a =>
    cases a with
    | value t =>
      simp only [Op.spec] at ho
      split at ho
      · rename_i l hl
        cases ho
        obtain ⟨w, hw, hh⟩ := h.vec hl
        have hs' := hs.on
        simp only [List.length_append, List.length_cons, List.length_nil] at hs'
        obtain ⟨m', w', e, r⟩ := push_spec left hN h hw hl (by omega) (a := .value t) (t := t) (fun _ _ _ _ _ _ => rfl)
        exact ⟨_, by simp [Op.run, Src.arg, Sys.on, hw, e], r⟩
      · cases ho
    | elem x i =>
      simp only [Op.spec] at ho
      split at ho
      · rename_i l t hl ht
        cases ho
        obtain ⟨w, hw, hh⟩ := h.vec hl
        have hs' := hs.on
        simp only [List.length_append, List.length_cons, List.length_nil] at hs'
        obtain ⟨lx, hlx, hi⟩ := Option.bind_eq_some_iff.1 ht
        obtain ⟨wx, hwx, hhx⟩ := h.vec hlx
        obtain ⟨m', w', e, r⟩ := push_spec left hN h hw hl (by omega) (a := .slot wx.first i) (t := t) (by
          intro m' w' h1 _ r' hm
          by_cases hvx : v = x
          · subst hvx
            rw [hw] at hwx
            cases hwx
            rw [hm (ha rfl w hw), Arg.read, read_spec hhx, hi]
          · obtain ⟨l', e', h'⟩ := r'.holds x wx (by simp [Function.update_of_ne (Ne.symm hvx), hwx])
            rw [hlx] at e'
            cases e'
            rw [Arg.read, read_spec h', hi])
        exact ⟨_, by simp [Op.run, Src.arg, Sys.on, hw, hwx, e], r⟩
      · cases ho
  | pushMove v a =>
    cases a with
    | value t =>
      simp only [Op.spec] at ho
      split at ho
      · rename_i l hl
        cases ho
        obtain ⟨w, hw, hh⟩ := h.vec hl
        have hs' := hs.on
        simp only [List.length_append, List.length_cons, List.length_nil] at hs'
        obtain ⟨m', w', e, r⟩ := push_spec left hN h hw hl (by omega) (a := .value t) (t := t) (fun _ _ _ _ _ _ => rfl)
        have e' : pushMove left w (.value t) s.mem = some (m', w') := by
          rw [← e]
          simp [pushMove, push, Arg.moved]
        exact ⟨_, by simp [Op.run, Src.arg, Sys.on, hw, e'], r⟩
      · cases ho
    | elem x i =>
      simp only [Op.spec] at ho
      split at ho
      · cases ho
      · rename_i lx hlx
        split at ho
        · cases ho
        · rename_i t ht
          split at ho
          · rename_i l' hl'
            cases ho
            obtain ⟨wx, hwx, hhx⟩ := h.vec hlx
            have hs' := hs.on
            simp only [List.length_append, List.length_cons, List.length_nil] at hs'
            have hl : ∃ l, σ v = some l ∧ l.length = l'.length := by
              by_cases hvx : v = x
              · subst hvx
                rw [Function.update_self] at hl'
                cases hl'
                exact ⟨lx, hlx, by simp⟩
              · rw [Function.update_of_ne hvx] at hl'
                exact ⟨l', hl', rfl⟩
            obtain ⟨l, hl, hll⟩ := hl
            obtain ⟨w, hw, hh⟩ := h.vec hl
            obtain ⟨m', w', e, r⟩ := pushMove_spec left hN h hw hl (by omega) hwx hlx ht (fun hvx => ha hvx w hw) hl'
            exact ⟨_, by simp [Op.run, Src.arg, Sys.on, hw, hwx, e], r⟩
          · cases ho
  | pop v =>
    simp only [Op.spec] at ho
    split at ho
    · rename_i l hl
      split at ho
      · cases ho
      · rename_i hne
        cases ho
        exact h.on_eq hl fun w hh hf => pop_spec hh hf hne
    · cases ho
  | clear v =>
    simp only [Op.spec] at ho
    split at ho
    · cases ho
    · rename_i hv
      cases ho
      obtain ⟨l, hl⟩ := Option.ne_none_iff_exists'.1 hv
      exact h.on_eq hl fun w hh hf => by
        obtain ⟨m', w', e, h1, h2, h3, -⟩ := clear_spec hh hf
        exact ⟨m', w', e, h1, h2, h3⟩
  | resize v n t =>
    simp only [Op.spec] at ho
    split at ho
    · rename_i l hl
      cases ho
      obtain ⟨w, hw, hh⟩ := h.vec hl
      have hs' := hs.on
      simp only [List.length_append, List.length_take, List.length_replicate] at hs'
      obtain ⟨m', w', e, r⟩ := resize_spec left hN h hw hl (n := n) (by omega) t
      exact ⟨_, by simp [Op.run, Sys.on, hw, e], r⟩
    · cases ho
  | assign v x =>
    simp only [Op.spec] at ho
    split at ho
    · rename_i l lx hl hlx
      cases ho
      obtain ⟨w, hw, hh⟩ := h.vec hl
      obtain ⟨wx, hwx, hhx⟩ := h.vec hlx
      by_cases hvx : v = x
      · subst hvx
        refine ⟨s, by simp [Op.run, hwx], ?_⟩
        rw [update_idem σ v _ hlx]
        exact h
      · obtain ⟨m', w', e, r⟩ := assign_spec left hN h hw hl hwx hlx hvx
        exact ⟨_, by simp [Op.run, Sys.on, hw, hwx, hvx, e], r⟩
    · cases ho
  | erase v i j =>
    simp only [Op.spec] at ho
    split at ho
    · rename_i l hl
      split at ho
      · rename_i hij
        cases ho
        exact h.on_eq hl fun w hh hf => erase_spec left hh hf hij.1 hij.2
      · cases ho
    · cases ho
  | set v i t =>
    simp only [Op.spec] at ho
    split at ho
    · rename_i l hl
      split at ho
      · rename_i hi
        cases ho
        refine h.on_eq hl fun w hh hf => ?_
        obtain ⟨m', e, h1, h2, h3⟩ := set_spec hh hf hi t
        exact ⟨m', w, by simp [SmallVector.set, e], h1, h2, h3⟩
      · cases ho
    · cases ho
  | finish v =>
    simp only [Op.spec] at ho
    split at ho
    · cases ho
    · rename_i hv
      cases ho
      obtain ⟨l, hl⟩ := Option.ne_none_iff_exists'.1 hv
      obtain ⟨w, hw, hh⟩ := h.vec hl
      obtain ⟨m', e, r⟩ := finish_spec h hw
      exact ⟨_, by simp [Op.run, hw, e], r⟩

theorem init_R : R N (Sys.init : Sys T) fun _ => none :=
  ⟨fun v w h => by simp [Sys.init] at h, fun _ _ => rfl, fun v v' w w' h => by simp [Sys.init] at h, fun _ _ => rfl,
    fun b h => by simp [Sys.init] at h⟩

theorem Reach.R {L : Nat} (hN : 0 < N) (hN' : N < 2 ^ 32) (hL : L ≤ 2 ^ 31) (h : Reach left N L s σ) : R N s σ := by
  induction h with
  | init => exact init_R
  | step o _ ha ho hs hr ih =>
    obtain ⟨s', e, r⟩ := step_spec left hN hN' ih o ha ho (fun v l h => Nat.le_trans (hs v l h) hL)
    rw [hr] at e
    cases e
    exact r

end Verif.SmallVector
