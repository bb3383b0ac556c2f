import Verif.Server.Model
import Verif.Props.C31

/-!
Facts about the request model.
-/
namespace Verif.Server
open Verif.Key (Bytes LexLt)
open Verif.Msgpack (Json)
open Verif.Trie (T get upsert remove ReachableLe Op run empty step)
open Verif.Scan (runScan exec Res QS)
variable {V : Type}

theorem allSome_eq {α : Type} {l : List (Option α)} {r : List α} : allSome l = some r ↔ l = r.map some := by
  induction l generalizing r with
  | nil =>
    constructor
    · intro h; simp only [allSome, Option.some.injEq] at h; subst h; rfl
    · intro h
      cases r with
      | nil => rfl
      | cons x r => simp at h
  | cons x l ih =>
    cases x with
    | none =>
      constructor
      · intro h; simp [allSome] at h
      · intro h
        cases r with
        | nil => simp at h
        | cons x r => simp at h
    | some x =>
      simp only [allSome, Option.map_eq_some_iff]
      constructor
      · rintro ⟨r', h, rfl⟩
        rw [ih.1 h]; rfl
      · intro h
        cases r with
        | nil => simp at h
        | cons y r =>
          simp only [List.map_cons, List.cons.injEq, Option.some.injEq] at h
          exact ⟨r, ih.2 h.2, by rw [h.1]⟩

theorem asI_el {l : List Json} {i : Nat} {x : Int} (h : asI (el l i) = some x) : i < l.length := by
  rcases Nat.lt_or_ge i l.length with c | c
  · exact c
  · rw [el, List.getD_eq_getElem?_getD, List.getElem?_eq_none c] at h
    simp [asI] at h

theorem asS_el {l : List Json} {i : Nat} {x : Bytes} (h : asS (el l i) = some x) : i < l.length := by
  rcases Nat.lt_or_ge i l.length with c | c
  · exact c
  · rw [el, List.getD_eq_getElem?_getD, List.getElem?_eq_none c] at h
    simp [asS] at h

theorem asS_some {j : Json} {s : Bytes} (h : asS j = some s) : j = .str s := by
  cases j <;> simp [asS] at h
  rw [h]

theorem shape2 {l : List Json} (h : 1 < l.length) : ∃ a b r, l = a :: b :: r := by
  match l, h with
  | a :: b :: r, _ => exact ⟨a, b, r, rfl⟩
  | [], h => simp at h
  | [_], h => simp at h

/-! ### Scans need enough steps, and more do no harm -/

theorem exec_more {σ : Type} {d : Scan.Dir} {eq : Bool} {vis : σ → Bytes → V → σ × Bool} {s : σ} {c : Nat} :
    ∀ {n m : Nat}, n ≤ m → ∀ {cfg : Scan.Cfg V} {st : σ} {cnt : Nat}, exec d eq vis n cfg st cnt = .fin s c →
      exec d eq vis m cfg st cnt = .fin s c := by
  intro n
  induction n with
  | zero => intro m _ cfg st cnt h; simp [exec] at h
  | succ n ih =>
    intro m hm cfg st cnt h
    obtain ⟨k, rfl⟩ : ∃ k, m = k + 1 := ⟨m - 1, by omega⟩
    rw [exec] at h ⊢
    split at h
    · exact absurd h (by simp)
    · exact h
    · exact ih (by omega) h
    · dsimp only at h ⊢
      split at h
      · next hr => rw [if_pos hr]; exact ih (by omega) h
      · next hr => rw [if_neg hr]; exact h

/-! ### Histories -/

theorem run_append (a b : List (Op V)) (t : T V) :
    run (a ++ b) t = (run a t).bind fun r => (run b r.2).map fun r' => (r.1 ++ r'.1, r'.2) := by
  induction a generalizing t with
  | nil => simp [run]
  | cons o os ih =>
    simp only [List.cons_append, run]
    split
    · rfl
    · next b' t' _ =>
      rw [ih]
      cases run os t' with
      | none => rfl
      | some r => simp [Option.map_map, Function.comp_def]

theorem ReachableLe.step {L : Nat} {t t' : T V} (h : ReachableLe L t) {o : Op V} (hv : o.Valid) (hl : o.Le L)
    {b : Option Bool} (hs : step o t = some (b, t')) : ReachableLe L t' := by
  obtain ⟨ops, h1, outs, h2⟩ := h
  refine ⟨ops ++ [o], ?_, outs ++ [b], ?_⟩
  · intro o' ho'
    rcases List.mem_append.1 ho' with h | h
    · exact h1 o' h
    · rw [List.mem_singleton.1 h]; exact ⟨hv, hl⟩
  · rw [run_append, h2]
    simp [run, hs]

end Verif.Server
