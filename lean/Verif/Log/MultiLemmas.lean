import Verif.Log.Multi

/-!
# Lemmas about reading logs
-/
namespace Verif.Log

/-- The records of a log with their epochs. -/
def tagged : Nat → List Rec → List (Nat × Rec)
  | _, [] => []
  | e, r :: rs => (r.epochAfter e, r) :: tagged (r.epochAfter e) rs

/-- The epoch after some records. -/
def lastE (e : Nat) (rs : List Rec) : Nat := rs.foldl Rec.epochAfter e

@[simp] theorem lastE_nil (e : Nat) : lastE e [] = e := rfl

@[simp] theorem lastE_cons (e : Nat) (r : Rec) (rs : List Rec) : lastE e (r :: rs) = lastE (r.epochAfter e) rs := rfl

theorem lastE_append (e : Nat) (a b : List Rec) : lastE e (a ++ b) = lastE (lastE e a) b := by
  simp [lastE, List.foldl_append]

theorem tagged_append (a b : List Rec) : ∀ e, tagged e (a ++ b) = tagged e a ++ tagged (lastE e a) b := by
  induction a with
  | nil => intro e; rfl
  | cons r a ih => intro e; simp [tagged, ih]

theorem tagged_snd (a : List Rec) : ∀ e, (tagged e a).map Prod.snd = a := by
  induction a with
  | nil => intro e; rfl
  | cons r a ih => intro e; simp [tagged, ih]

theorem mem_tagged {a : List Rec} {e : Nat} {t : Nat × Rec} (h : t ∈ tagged e a) : t.2 ∈ a := by
  rw [← tagged_snd a e]
  exact List.mem_map_of_mem h

/-- The last record carries the last epoch. -/
theorem last_tag (a : List Rec) : ∀ e, a ≠ [] → ∃ r, (lastE e a, r) ∈ tagged e a := by
  induction a with
  | nil => intro e h; exact absurd rfl h
  | cons r a ih =>
    intro e _
    by_cases ha : a = []
    · subst ha; exact ⟨r, by simp [tagged]⟩
    · obtain ⟨x, hx⟩ := ih (r.epochAfter e) ha
      exact ⟨x, by simp [tagged, hx]⟩

/-- Epochs in order. -/
def Sorted (l : List (Nat × Rec)) : Prop := l.Pairwise fun a b => a.1 ≤ b.1

theorem info_last_aux (rs : List Rec) : ∀ x : Info, (rs.foldl Info.read x).last = lastE x.last rs := by
  induction rs with
  | nil => intro x; rfl
  | cons r rs ih =>
    intro x
    rw [List.foldl_cons, ih, lastE_cons]
    cases r <;> rfl

theorem info_last (rs : List Rec) : (info rs).last = lastE 0 rs := info_last_aux rs _

theorem info_quiescent_nil : (info []).quiescent = true := rfl

theorem info_quiescent_snoc (rs : List Rec) (r : Rec) : (info (rs ++ [r])).quiescent = true ↔ r = .quiesce := by
  unfold info
  rw [List.foldl_append]
  cases r <;> simp [Info.read]

/-! ### The bound -/

/-- One turn of the loop that lowers the bound. -/
def lower1 (q : Nat) (m : Nat) (rs : List Rec) : Nat :=
  let x := info rs
  let m := if !x.quiescent ∧ x.last ≠ 0 ∧ x.last < m then x.last else m
  let p := postWake q rs
  if p ≠ 0 ∧ p < m then p else m

theorem replayMax_eq (c : Nat) (logs : List (List Rec)) :
    replayMax c logs = logs.foldl (lower1 (missedFrom (logs.map info))) (maxEpoch c (logs.map info)) := rfl

theorem lower1_le (q m : Nat) (rs : List Rec) : lower1 q m rs ≤ m := by
  unfold lower1
  dsimp only
  repeat' split
  all_goals omega

theorem lower1_last (q m : Nat) (rs : List Rec) (h : (info rs).quiescent = false) (h0 : (info rs).last ≠ 0) :
    lower1 q m rs ≤ (info rs).last := by
  unfold lower1
  dsimp only
  repeat' split
  all_goals simp_all
  all_goals omega

theorem lower1_wake (q m : Nat) (rs : List Rec) (h0 : postWake q rs ≠ 0) : lower1 q m rs ≤ postWake q rs := by
  unfold lower1
  dsimp only
  repeat' split
  all_goals omega

theorem lower_le (q : Nat) (logs : List (List Rec)) : ∀ m, logs.foldl (lower1 q) m ≤ m := by
  induction logs with
  | nil => intro m; exact Nat.le_refl _
  | cons r rs ih => intro m; exact Nat.le_trans (ih _) (lower1_le q m r)

theorem lower_mem (q : Nat) (logs : List (List Rec)) (b : Nat) {rs : List Rec} (hm : rs ∈ logs)
    (hb : ∀ m, lower1 q m rs ≤ b) : ∀ m, logs.foldl (lower1 q) m ≤ b := by
  induction logs with
  | nil => cases hm
  | cons r l ih =>
    intro m
    rcases List.mem_cons.1 hm with h | h
    · subst h; exact Nat.le_trans (lower_le q l _) (hb m)
    · exact ih h _

/-- The bound is at most the last epoch of every log that is not quiescent. -/
theorem replayMax_le_last (c : Nat) (logs : List (List Rec)) {rs : List Rec} (hm : rs ∈ logs)
    (h : (info rs).quiescent = false) (h0 : (info rs).last ≠ 0) : replayMax c logs ≤ (info rs).last := by
  rw [replayMax_eq]
  exact lower_mem _ _ _ hm (fun m => lower1_last _ m rs h h0) _

theorem replayMax_le_wake (c : Nat) (logs : List (List Rec)) {rs : List Rec} (hm : rs ∈ logs)
    (h0 : postWake (missedFrom (logs.map info)) rs ≠ 0) :
    replayMax c logs ≤ postWake (missedFrom (logs.map info)) rs := by
  rw [replayMax_eq]
  exact lower_mem _ _ _ hm (fun m => lower1_wake _ m rs h0) _

/-! ### The replayed records -/

/-- What `replayLog` keeps. -/
def keeps (min max : Nat) (t : Nat × Rec) : Bool := t.2.applied && decide (t.1 ≠ 0 ∧ min ≤ t.1 ∧ t.1 < max)

theorem filter_nil_of {α : Type} {p : α → Bool} {l : List α} (h : ∀ x ∈ l, p x = false) : l.filter p = [] := by
  apply List.filter_eq_nil_iff.2
  intro a ha
  simp [h a ha]

theorem replayLog_began (min max : Nat) : ∀ (rs : List Rec) (e : Nat), e < max → Sorted (tagged e rs) →
    replayLog min max e true rs = some (((tagged e rs).filter (keeps min max)).map Prod.snd) := by
  intro rs
  induction rs with
  | nil => intro e _ _; rfl
  | cons r rs ih =>
    intro e he hs
    have hs' : Sorted (tagged (r.epochAfter e) rs) := (List.pairwise_cons.1 hs).2
    have hhd : ∀ t ∈ tagged (r.epochAfter e) rs, r.epochAfter e ≤ t.1 := (List.pairwise_cons.1 hs).1
    by_cases hmax : max ≤ r.epochAfter e
    · -- only an epoch record can raise the epoch
      cases r with
      | epoch e' =>
        have hnil : (tagged e (.epoch e' :: rs)).filter (keeps min max) = [] := by
          apply filter_nil_of
          intro t ht
          rcases List.mem_cons.1 ht with h | h
          · subst h; rfl
          · have := hhd t h
            have h2 : ¬ t.1 < max := by omega
            simp [keeps, h2]
        rw [hnil]
        have h3 : max ≤ e' := hmax
        simp [replayLog, Rec.epochAfter, Rec.isEpoch, h3]
      | _ => exact absurd hmax (by simp only [Rec.epochAfter]; omega)
    · have hlt : r.epochAfter e < max := by omega
      have hi := ih _ hlt hs'
      rw [replayLog]
      simp only [Bool.true_or, hi, if_true, Option.map_some]
      rw [if_neg (by intro h; exact hmax h.2)]
      by_cases hskip : r.epochAfter e = 0 ∨ (min ≠ 0 ∧ r.epochAfter e < min)
      · rw [if_pos hskip]
        have hk : keeps min max (r.epochAfter e, r) = false := by
          simp only [keeps, Bool.and_eq_false_iff]
          right
          apply decide_eq_false
          omega
        simp only [tagged]
        rw [List.filter_cons_of_neg (by simp [hk])]
      · rw [if_neg hskip]
        have hk : keeps min max (r.epochAfter e, r) = r.applied := by
          have : r.epochAfter e ≠ 0 ∧ min ≤ r.epochAfter e ∧ r.epochAfter e < max := by omega
          simp [keeps, this]
        simp only [tagged]
        cases ha : r.applied with
        | true => rw [List.filter_cons_of_pos (by rw [hk, ha])]; simp
        | false => rw [List.filter_cons_of_neg (by rw [hk, ha]; simp)]; simp

/-- The whole log: it begins with an epoch, which is before the checkpoint if there is one. -/
theorem replayLog_eq (min max e0 : Nat) (rs : List Rec) (h0 : min = 0 ∨ e0 < min)
    (hs : Sorted (tagged 0 (.epoch e0 :: rs))) :
    replayLog min max 0 false (.epoch e0 :: rs) =
      some (((tagged 0 (.epoch e0 :: rs)).filter (keeps min max)).map Prod.snd) := by
  have hb : replayLog min max 0 false (.epoch e0 :: rs) = replayLog min max 0 true (.epoch e0 :: rs) := by
    have h : (false || ((Rec.epoch e0).isEpoch &&
        (decide (min ≠ 0 ∧ (Rec.epoch e0).epochAfter 0 < min) || decide (min = 0)))) = true := by
      rcases h0 with h | h
      · simp [h, Rec.isEpoch]
      · have : min ≠ 0 := by omega
        simp [this, h, Rec.isEpoch, Rec.epochAfter]
    rw [replayLog, replayLog]
    simp only [h, Bool.true_or]
  rw [hb]
  by_cases hm : 0 < max
  · exact replayLog_began min max _ 0 hm hs
  · have hm0 : max = 0 := by omega
    subst hm0
    have hnil : (tagged 0 (.epoch e0 :: rs)).filter (keeps min 0) = [] := by
      apply filter_nil_of
      intro t _
      simp [keeps]
    rw [hnil]
    simp [replayLog, Rec.isEpoch]

end Verif.Log
