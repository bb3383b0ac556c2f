import Verif.Blink.Lists
import Verif.Prune.Model
import Mathlib.Data.List.Nodup

/-!
# Keys and children of an internode that may lack its first child

The children are responsible for adjacent ranges of keys: each from its `elo` to its `bd`.  A key of the internode lies between
the `lo` and the `elo` of the child on its right.
-/
namespace Verif.Prune

variable {lo elo bd lo' elo' bd' : Nat → Nat}

/-- Keys and the children on their right, from `e` to `h`. -/
def Links (lo elo bd : Nat → Nat) : Nat → List Nat → List (Option Nat) → Nat → Prop
  | e, [], [], h => e = h
  | e, z :: K, some c :: C, h => e = elo c ∧ z ≤ elo c ∧ lo c ≤ z ∧ 0 < lo c ∧ Links lo elo bd (bd c) K C h
  | _, _, _, _ => False

/-- An internode from `e` to `h` that is searched for keys from `l` on. -/
def Node (lo elo bd : Nat → Nat) (l e h : Nat) (K : List Nat) : List (Option Nat) → Prop
  | some c :: C => elo c = e ∧ lo c ≤ l ∧ Links lo elo bd (bd c) K C h
  | none :: C => Links lo elo bd e K C h
  | [] => False

/-- Induction over the keys and children. -/
theorem Links.rec' {P : Nat → List Nat → List (Option Nat) → Nat → Prop} (h1 : ∀ e, P e [] [] e)
    (h2 : ∀ z K c C h, z ≤ elo c → lo c ≤ z → 0 < lo c → Links lo elo bd (bd c) K C h → P (bd c) K C h →
      P (elo c) (z :: K) (some c :: C) h) {e : Nat} {K : List Nat} {C : List (Option Nat)} {h : Nat}
    (hl : Links lo elo bd e K C h) : P e K C h := by
  induction K generalizing e C with
  | nil =>
    match C, hl with
    | [], hl => obtain rfl : e = h := hl; exact h1 e
  | cons z K ih =>
    match C, hl with
    | some c :: C, hl =>
      obtain ⟨a1, a2, a3, a4, a5⟩ := hl
      subst a1
      exact h2 z K c C h a2 a3 a4 a5 (ih a5)

theorem Links.length {e h : Nat} {K : List Nat} {C : List (Option Nat)} (hl : Links lo elo bd e K C h) : C.length = K.length := by
  refine Links.rec' (P := fun _ K C _ => C.length = K.length) (fun _ => rfl) (fun z K c C h _ _ _ _ ih => ?_) hl
  simp [ih]

theorem Node.length {l e h : Nat} {K : List Nat} {D : List (Option Nat)} (hl : Node lo elo bd l e h K D) :
    D.length = K.length + 1 := by
  match D, hl with
  | some c :: C, hl => simp [hl.2.2.length]
  | none :: C, hl => simp [Links.length hl]

theorem Links.some {e h : Nat} {K : List Nat} {C : List (Option Nat)} (hl : Links lo elo bd e K C h) : none ∉ C := by
  refine Links.rec' (P := fun _ _ C _ => none ∉ C) (fun _ => by simp) (fun z K c C h _ _ _ _ ih => ?_) hl
  simp [ih]

/-- A change of the ranges that keeps adjacent ranges adjacent. -/
theorem Links.congr (u : Nat → Nat) (hu : ∀ v, v ≤ u v) {e h : Nat} {K : List Nat} {C : List (Option Nat)}
    (hl : Links lo elo bd e K C h) (hc : ∀ c, Option.some c ∈ C → lo' c = lo c ∧ elo' c = u (elo c) ∧ bd' c = u (bd c)) :
    Links lo' elo' bd' (u e) K C (u h) := by
  revert hc
  refine Links.rec' (P := fun e K C h => (∀ c, Option.some c ∈ C → lo' c = lo c ∧ elo' c = u (elo c) ∧ bd' c = u (bd c)) →
    Links lo' elo' bd' (u e) K C (u h)) (fun _ _ => rfl) (fun z K c C h a1 a2 a3 _ ih hc => ?_) hl
  obtain ⟨b1, b2, b3⟩ := hc c (by simp)
  have := ih fun c hc' => hc c (List.mem_cons_of_mem _ hc')
  have := hu (elo c)
  refine ⟨b2.symm, by omega, by omega, by omega, ?_⟩
  rw [b3]; assumption

theorem Node.congr (u : Nat → Nat) (hu : ∀ v, v ≤ u v) {l e h : Nat} {K : List Nat} {D : List (Option Nat)}
    (hl : Node lo elo bd l e h K D) (hc : ∀ c, some c ∈ D → lo' c = lo c ∧ elo' c = u (elo c) ∧ bd' c = u (bd c)) :
    Node lo' elo' bd' l (u e) (u h) K D := by
  match D, hl with
  | some c :: C, hl =>
    obtain ⟨b1, b2, b3⟩ := hc c (by simp)
    refine ⟨by rw [b2, hl.1], by rw [b1]; exact hl.2.1, ?_⟩
    rw [b3]
    exact hl.2.2.congr u hu fun c hc' => hc c (List.mem_cons_of_mem _ hc')
  | none :: C, hl => exact Links.congr u hu hl fun c hc' => hc c (List.mem_cons_of_mem _ hc')

theorem Links.congr_id {e h : Nat} {K : List Nat} {C : List (Option Nat)}
    (hl : Links lo elo bd e K C h) (hc : ∀ c, Option.some c ∈ C → lo' c = lo c ∧ elo' c = elo c ∧ bd' c = bd c) :
    Links lo' elo' bd' e K C h := hl.congr id (fun _ => Nat.le_refl _) hc

theorem Node.congr_id {l e h : Nat} {K : List Nat} {D : List (Option Nat)}
    (hl : Node lo elo bd l e h K D) (hc : ∀ c, some c ∈ D → lo' c = lo c ∧ elo' c = elo c ∧ bd' c = bd c) :
    Node lo' elo' bd' l e h K D := hl.congr id (fun _ => Nat.le_refl _) hc

/-- The number of keys up to `k` in a sorted list. -/
theorem count_cons {z k : Nat} {K : List Nat} (hs : (z :: K).Pairwise (· < ·)) :
    (z :: K).countP (· ≤ k) = if z ≤ k then K.countP (· ≤ k) + 1 else 0 := by
  rw [List.countP_cons]
  by_cases h : z ≤ k
  · simp [h]
  · have : K.countP (· ≤ k) = 0 := by
      rw [List.countP_eq_zero]
      intro a ha
      have := (List.pairwise_cons.mp hs).1 a ha
      simp only [decide_eq_true_eq]; omega
    simp [this, h]

theorem Links.route {h k : Nat} {K : List Nat} {C : List (Option Nat)} {c d : Nat} (hs : K.Pairwise (· < ·))
    (hl : Links lo elo bd (bd c) K C h) (hk : k < h) (hc : lo c ≤ k)
    (hd : (Option.some c :: C).getD (K.countP (· ≤ k)) none = Option.some d) :
    Option.some d ∈ Option.some c :: C ∧ lo d ≤ k ∧ k < bd d := by
  induction K generalizing c C with
  | nil =>
    match C, hl with
    | [], hl =>
      have : bd c = h := hl
      simp at hd
      subst hd
      exact ⟨by simp, hc, by omega⟩
  | cons z K ih =>
    match C, hl with
    | Option.some c' :: C, hl =>
      obtain ⟨a1, a2, a3, a4, a5⟩ := hl
      rw [count_cons hs] at hd
      by_cases hz : z ≤ k
      · rw [if_pos hz, List.getD_cons_succ] at hd
        have := ih (List.pairwise_cons.mp hs).2 a5 (by omega) hd
        exact ⟨List.mem_cons_of_mem _ this.1, this.2⟩
      · rw [if_neg hz] at hd
        simp at hd
        subst hd
        exact ⟨by simp, hc, by omega⟩

/-- The child chosen for a key is responsible for it. -/
theorem Node.route {l e h k : Nat} {K : List Nat} {D : List (Option Nat)} {d : Nat} (hs : K.Pairwise (· < ·))
    (hl : Node lo elo bd l e h K D) (hk : k < h) (hc : l ≤ k) (hd : D.getD (K.countP (· ≤ k)) none = some d) :
    some d ∈ D ∧ lo d ≤ k ∧ k < bd d := by
  match D, hl with
  | some c :: C, hl => exact hl.2.2.route hs hk (by have := hl.2.1; omega) hd
  | none :: C, hl =>
    match K, C, hl with
    | [], [], _ => simp at hd
    | z :: K, some c :: C, hl =>
      obtain ⟨a1, a2, a3, a4, a5⟩ := hl
      rw [count_cons hs] at hd
      by_cases hz : z ≤ k
      · rw [if_pos hz, List.getD_cons_succ] at hd
        have := a5.route (List.pairwise_cons.mp hs).2 hk (by omega) hd
        exact ⟨List.mem_cons_of_mem _ this.1, this.2⟩
      · rw [if_neg hz] at hd
        simp at hd

theorem Links.order {e h : Nat} {K : List Nat} {C : List (Option Nat)} (hl : Links lo elo bd e K C h)
    (hr : ∀ c, Option.some c ∈ C → elo c ≤ bd c) : e ≤ h ∧ ∀ c, Option.some c ∈ C → e ≤ elo c ∧ bd c ≤ h ∧ 0 < lo c := by
  revert hr
  refine Links.rec' (P := fun e _ C h => (∀ c, Option.some c ∈ C → elo c ≤ bd c) →
    e ≤ h ∧ ∀ c, Option.some c ∈ C → e ≤ elo c ∧ bd c ≤ h ∧ 0 < lo c)
    (fun _ _ => by simp) (fun z K c C h a1 a2 a3 _ ih hr => ?_) hl
  have h1 := hr c (by simp)
  obtain ⟨h2, h3⟩ := ih fun c hc => hr c (List.mem_cons_of_mem _ hc)
  refine ⟨by omega, fun d hd => ?_⟩
  rcases List.mem_cons.mp hd with hd | hd
  · cases hd; exact ⟨Nat.le_refl _, h2, a3⟩
  · have := h3 d hd
    exact ⟨by omega, this.2⟩

theorem Node.order {l e h : Nat} {K : List Nat} {D : List (Option Nat)} (hl : Node lo elo bd l e h K D)
    (hr : ∀ c, some c ∈ D → elo c ≤ bd c) : e ≤ h ∧ ∀ c, some c ∈ D → e ≤ elo c ∧ bd c ≤ h := by
  match D, hl with
  | some c :: C, hl =>
    have h1 := hr c (by simp)
    obtain ⟨h2, h3⟩ := hl.2.2.order fun c hc => hr c (List.mem_cons_of_mem _ hc)
    have := hl.1
    refine ⟨by omega, fun d hd => ?_⟩
    rcases List.mem_cons.mp hd with hd | hd
    · cases hd; exact ⟨by omega, h2⟩
    · have := h3 d hd
      exact ⟨by omega, this.2.1⟩
  | none :: C, hl =>
    obtain ⟨h2, h3⟩ := Links.order hl fun c hc => hr c (List.mem_cons_of_mem _ hc)
    refine ⟨h2, fun d hd => ?_⟩
    rcases List.mem_cons.mp hd with hd | hd
    · cases hd
    · exact ⟨(h3 d hd).1, (h3 d hd).2.1⟩

/-- The key on the left of a child. -/
theorem Links.key {e h j q : Nat} {K : List Nat} {C : List (Option Nat)} (hl : Links lo elo bd e K C h)
    (hq : C[j]? = Option.some (Option.some q)) : ∃ z, K[j]? = Option.some z ∧ lo q ≤ z ∧ z ≤ elo q ∧ 0 < lo q := by
  revert j
  refine Links.rec' (P := fun _ K C _ => ∀ {j}, C[j]? = Option.some (Option.some q) →
    ∃ z, K[j]? = Option.some z ∧ lo q ≤ z ∧ z ≤ elo q ∧ 0 < lo q)
    (fun _ => by simp) (fun z K c C h a1 a2 a3 _ ih j hq => ?_) hl
  match j with
  | 0 => simp at hq; subst hq; exact ⟨z, rfl, a2, a1, a3⟩
  | j + 1 => simpa using ih (by simpa using hq)

theorem Node.key {l e h j q : Nat} {K : List Nat} {D : List (Option Nat)} (hl : Node lo elo bd l e h K D)
    (hq : D[j + 1]? = some (some q)) : ∃ z, K[j]? = some z ∧ lo q ≤ z ∧ z ≤ elo q ∧ 0 < lo q := by
  match D, hl with
  | some c :: C, hl => exact hl.2.2.key (by simpa using hq)
  | none :: C, hl => exact Links.key hl (by simpa using hq)

theorem mem_of_get {j q : Nat} {D : List (Option Nat)} (h : D[j]? = some (some q)) : some q ∈ D := List.mem_of_getElem? h

theorem Links.insert {h j n c x : Nat} {K : List Nat} {C : List (Option Nat)} {c0 : Nat} (hl : Links lo elo bd (bd c0) K C h)
    (hn : (Option.some c0 :: C)[j]? = Option.some (Option.some n)) (hd : (Option.some c0 :: C).Nodup)
    (hc : Option.some c ∉ Option.some c0 :: C)
    (hb : ∀ q, bd' q = if q = n then elo c else bd q) (h1 : bd c = bd n) (h2 : lo c = x) (h3 : x ≤ elo c) (h4 : 0 < x) :
    Links lo elo bd' (bd' c0) (K.insertIdx j x) (C.insertIdx j (Option.some c)) h := by
  induction j generalizing K C c0 with
  | zero =>
    simp at hn
    subst hn
    have hne : c ≠ c0 := by rintro rfl; simp at hc
    simp only [List.insertIdx_zero]
    rw [hb c0, if_pos rfl]
    refine ⟨rfl, h3, by omega, by omega, ?_⟩
    rw [hb c, if_neg hne, h1]
    refine hl.congr_id fun q hq => ⟨rfl, rfl, ?_⟩
    rw [hb, if_neg]
    rintro rfl
    exact (List.nodup_cons.mp hd).1 hq
  | succ j ih =>
    simp only [List.getElem?_cons_succ] at hn
    match K, C, hl with
    | [], [], _ => simp at hn
    | z :: K, Option.some c1 :: C, hl =>
      obtain ⟨a1, a2, a3, a4, a5⟩ := hl
      have hne : c0 ≠ n := by
        rintro rfl
        exact (List.nodup_cons.mp hd).1 (mem_of_get hn)
      simp only [List.insertIdx_succ_cons]
      rw [hb c0, if_neg hne]
      exact ⟨a1, a2, a3, a4, ih a5 hn (List.nodup_cons.mp hd).2 fun h => hc (List.mem_cons_of_mem _ h)⟩

/-- Adding a child that was split off the child number `j`. -/
theorem Node.insert {l e h j n c x : Nat} {K : List Nat} {D : List (Option Nat)} (hl : Node lo elo bd l e h K D)
    (hn : D[j]? = some (some n)) (hd : D.Nodup) (hc : some c ∉ D)
    (hb : ∀ q, bd' q = if q = n then elo c else bd q) (h1 : bd c = bd n) (h2 : lo c = x) (h3 : x ≤ elo c) (h4 : 0 < x) :
    Node lo elo bd' l e h (K.insertIdx j x) (D.insertIdx (j + 1) (some c)) := by
  match D, hl with
  | some c0 :: C, hl => exact ⟨hl.1, hl.2.1, hl.2.2.insert hn hd hc hb h1 h2 h3 h4⟩
  | none :: C, hl =>
    match j with
    | 0 => simp at hn
    | j + 1 =>
      simp only [List.getElem?_cons_succ] at hn
      match K, C, hl with
      | [], [], _ => simp at hn
      | z :: K, some c1 :: C, hl =>
        obtain ⟨a1, a2, a3, a4, a5⟩ := hl
        simp only [List.insertIdx_succ_cons]
        exact ⟨a1, a2, a3, a4, a5.insert hn (List.nodup_cons.mp hd).2 (fun h => hc (List.mem_cons_of_mem _ h)) hb h1 h2 h3 h4⟩

theorem Links.replace {e h j n r : Nat} {K : List Nat} {C : List (Option Nat)} (hl : Links lo elo bd e K C h)
    (hn : C[j]? = Option.some (Option.some n)) (hd : C.Nodup)
    (hc : ∀ q, Option.some q ∈ C → q ≠ n → lo' q = lo q ∧ elo' q = elo q ∧ bd' q = bd q)
    (h1 : elo' r = elo n) (h2 : bd' r = bd n) (h3 : lo' r ≤ lo n) (h4 : 0 < lo n → 0 < lo' r) :
    Links lo' elo' bd' e K (C.set j (Option.some r)) h := by
  induction j generalizing K C e with
  | zero =>
    match K, C, hl with
    | [], [], _ => simp at hn
    | z :: K, Option.some c1 :: C, hl =>
      simp at hn
      subst hn
      obtain ⟨a1, a2, a3, a4, a5⟩ := hl
      refine ⟨by omega, by omega, by omega, h4 a4, ?_⟩
      rw [h2]
      refine a5.congr_id fun q hq => hc q (List.mem_cons_of_mem _ hq) ?_
      rintro rfl
      exact (List.nodup_cons.mp hd).1 hq
  | succ j ih =>
    match K, C, hl with
    | [], [], _ => simp at hn
    | z :: K, Option.some c1 :: C, hl =>
      simp only [List.getElem?_cons_succ] at hn
      obtain ⟨a1, a2, a3, a4, a5⟩ := hl
      have hne : c1 ≠ n := by
        rintro rfl
        exact (List.nodup_cons.mp hd).1 (mem_of_get hn)
      obtain ⟨b1, b2, b3⟩ := hc c1 (by simp) hne
      refine ⟨by omega, by omega, by omega, by omega, ?_⟩
      rw [b3]
      exact ih a5 hn (List.nodup_cons.mp hd).2 fun q hq => hc q (List.mem_cons_of_mem _ hq)

/-- Putting a node in the place of a child. -/
theorem Node.replace {l e h j n r : Nat} {K : List Nat} {D : List (Option Nat)} (hl : Node lo elo bd l e h K D)
    (hn : D[j]? = some (some n)) (hd : D.Nodup)
    (hc : ∀ q, some q ∈ D → q ≠ n → lo' q = lo q ∧ elo' q = elo q ∧ bd' q = bd q)
    (h1 : elo' r = elo n) (h2 : bd' r = bd n) (h3 : lo' r ≤ lo n) (h4 : 0 < lo n → 0 < lo' r) :
    Node lo' elo' bd' l e h K (D.set j (some r)) := by
  match D, j, hl with
  | some c0 :: C, 0, hl =>
    simp at hn
    subst hn
    obtain ⟨a1, a2, a3⟩ := hl
    refine ⟨by omega, by omega, ?_⟩
    rw [h2]
    refine a3.congr_id fun q hq => hc q (List.mem_cons_of_mem _ hq) ?_
    rintro rfl
    exact (List.nodup_cons.mp hd).1 hq
  | some c0 :: C, j + 1, hl =>
    simp only [List.getElem?_cons_succ] at hn
    obtain ⟨a1, a2, a3⟩ := hl
    have hne : c0 ≠ n := by
      rintro rfl
      exact (List.nodup_cons.mp hd).1 (mem_of_get hn)
    obtain ⟨b1, b2, b3⟩ := hc c0 (by simp) hne
    refine ⟨by omega, by omega, ?_⟩
    rw [b3]
    exact a3.replace hn (List.nodup_cons.mp hd).2 (fun q hq => hc q (List.mem_cons_of_mem _ hq)) h1 h2 h3 h4
  | none :: C, 0, hl => simp at hn
  | none :: C, j + 1, hl =>
    simp only [List.getElem?_cons_succ] at hn
    exact Links.replace hl hn (List.nodup_cons.mp hd).2 (fun q hq => hc q (List.mem_cons_of_mem _ hq)) h1 h2 h3 h4

theorem Links.erase {e h j n : Nat} {K : List Nat} {C : List (Option Nat)} (hl : Links lo elo bd e K C h)
    (hn : C[j]? = Option.some (Option.some n)) (he : elo n = bd n) :
    Links lo elo bd e (K.eraseIdx j) (C.eraseIdx j) h := by
  induction j generalizing K C e with
  | zero =>
    match K, C, hl with
    | [], [], _ => simp at hn
    | z :: K, Option.some c1 :: C, hl =>
      simp at hn
      subst hn
      obtain ⟨a1, a2, a3, a4, a5⟩ := hl
      simp only [List.eraseIdx_cons_zero]
      rw [a1, he]; exact a5
  | succ j ih =>
    match K, C, hl with
    | [], [], _ => simp at hn
    | z :: K, Option.some c1 :: C, hl =>
      simp only [List.getElem?_cons_succ] at hn
      obtain ⟨a1, a2, a3, a4, a5⟩ := hl
      simp only [List.eraseIdx_cons_succ]
      exact ⟨a1, a2, a3, a4, ih a5 hn⟩

/-- Taking out the first child. -/
theorem Node.drop {l e h n : Nat} {K : List Nat} {D : List (Option Nat)} (hl : Node lo elo bd l e h K D)
    (hn : D[0]? = some (some n)) (he : elo n = bd n) : Node lo elo bd l e h K (D.set 0 none) := by
  match D, hl with
  | some c0 :: C, hl =>
    simp at hn
    subst hn
    show Links lo elo bd e K C h
    rw [← hl.1, he]; exact hl.2.2

/-- Taking out another child. -/
theorem Node.erase {l e h j n : Nat} {K : List Nat} {D : List (Option Nat)} (hl : Node lo elo bd l e h K D)
    (hn : D[j + 1]? = some (some n)) (he : elo n = bd n) : Node lo elo bd l e h (K.eraseIdx j) (D.eraseIdx (j + 1)) := by
  match D, hl with
  | some c0 :: C, hl => exact ⟨hl.1, hl.2.1, hl.2.2.erase (by simpa using hn) he⟩
  | none :: C, hl => exact Links.erase hl (by simpa using hn) he

theorem Links.split {e h j d y : Nat} {K : List Nat} {C : List (Option Nat)} (hl : Links lo elo bd e K C h)
    (hy : K[j]? = Option.some y) (hn : C[j]? = Option.some (Option.some d)) :
    Links lo elo bd e (K.take j) (C.take j) (elo d) ∧ Links lo elo bd (bd d) (K.drop (j + 1)) (C.drop (j + 1)) h ∧
    y ≤ elo d ∧ lo d ≤ y ∧ 0 < lo d := by
  induction j generalizing K C e with
  | zero =>
    match K, C, hl with
    | [], [], _ => simp at hn
    | z :: K, Option.some c1 :: C, hl =>
      simp at hn hy
      subst hn hy
      obtain ⟨a1, a2, a3, a4, a5⟩ := hl
      exact ⟨a1, a5, a2, a3, a4⟩
  | succ j ih =>
    match K, C, hl with
    | [], [], _ => simp at hn
    | z :: K, Option.some c1 :: C, hl =>
      simp only [List.getElem?_cons_succ] at hn hy
      obtain ⟨a1, a2, a3, a4, a5⟩ := hl
      obtain ⟨b1, b2⟩ := ih a5 hy hn
      exact ⟨⟨a1, a2, a3, a4, b1⟩, b2⟩

/-- Splitting an internode before a key and its child. -/
theorem Node.split {l e h j d y : Nat} {K : List Nat} {D : List (Option Nat)} (hl : Node lo elo bd l e h K D)
    (hy : K[j]? = some y) (hn : D[j + 1]? = some (some d)) :
    Node lo elo bd l e (elo d) (K.take j) (D.take (j + 1)) ∧ Node lo elo bd y (elo d) h (K.drop (j + 1)) (D.drop (j + 1)) ∧
    y ≤ elo d ∧ lo d ≤ y ∧ 0 < lo d := by
  have hdrop : ∀ C : List (Option Nat), C[j]? = some (some d) → C.drop j = some d :: C.drop (j + 1) := by
    intro C hC
    obtain ⟨hj, hC⟩ := List.getElem?_eq_some_iff.mp hC
    rw [List.drop_eq_getElem_cons hj, hC]
  match D, hl with
  | some c0 :: C, hl =>
    simp only [List.getElem?_cons_succ] at hn
    obtain ⟨b1, b2, b3⟩ := hl.2.2.split hy hn
    simp only [List.take_succ_cons, List.drop_succ_cons]
    rw [hdrop C hn]
    exact ⟨⟨hl.1, hl.2.1, b1⟩, ⟨rfl, b3.2.1, b2⟩, b3⟩
  | none :: C, hl =>
    simp only [List.getElem?_cons_succ] at hn
    obtain ⟨b1, b2, b3⟩ := Links.split hl hy hn
    simp only [List.take_succ_cons, List.drop_succ_cons]
    rw [hdrop C hn]
    exact ⟨b1, ⟨rfl, b3.2.1, b2⟩, b3⟩

theorem Links.rewrite {e h j q y : Nat} {K : List Nat} {C : List (Option Nat)} (hl : Links lo elo bd e K C h)
    (hn : C[j]? = Option.some (Option.some q)) (h1 : lo q ≤ y) (h2 : y ≤ elo q) : Links lo elo bd e (K.set j y) C h := by
  induction j generalizing K C e with
  | zero =>
    match K, C, hl with
    | [], [], _ => simp at hn
    | z :: K, Option.some c1 :: C, hl =>
      simp at hn
      subst hn
      obtain ⟨a1, a2, a3, a4, a5⟩ := hl
      exact ⟨a1, h2, h1, a4, a5⟩
  | succ j ih =>
    match K, C, hl with
    | [], [], _ => simp at hn
    | z :: K, Option.some c1 :: C, hl =>
      simp only [List.getElem?_cons_succ] at hn
      obtain ⟨a1, a2, a3, a4, a5⟩ := hl
      exact ⟨a1, a2, a3, a4, ih a5 hn⟩

/-- Rewriting a key. -/
theorem Node.rewrite {l e h j q y : Nat} {K : List Nat} {D : List (Option Nat)} (hl : Node lo elo bd l e h K D)
    (hn : D[j + 1]? = some (some q)) (h1 : lo q ≤ y) (h2 : y ≤ elo q) : Node lo elo bd l e h (K.set j y) D := by
  match D, hl with
  | some c0 :: C, hl => exact ⟨hl.1, hl.2.1, hl.2.2.rewrite (by simpa using hn) h1 h2⟩
  | none :: C, hl => exact Links.rewrite hl (by simpa using hn) h1 h2

/-- The first key of an internode without its first child. -/
theorem Node.first {l e h y : Nat} {K : List Nat} {C : List (Option Nat)} (hl : Node lo elo bd l e h (y :: K) (none :: C)) :
    y ≤ e := by
  match C, hl with
  | some c :: C, hl => obtain ⟨a1, a2, _⟩ := hl; omega

theorem Node.head {l e h q : Nat} {K : List Nat} {D : List (Option Nat)} (hl : Node lo elo bd l e h K D)
    (hn : D[0]? = some (some q)) : elo q = e := by
  match D, hl with
  | some c :: C, hl => simp at hn; subst hn; exact hl.1

theorem Node.second {l e h q : Nat} {K : List Nat} {D : List (Option Nat)} (hl : Node lo elo bd l e h K D)
    (h0 : D.head? = some none) (hn : D[1]? = some (some q)) : elo q = e := by
  match K, D, hl with
  | [], [_], _ => simp at hn
  | z :: K, none :: some c :: C, hl => simp at hn; subst hn; exact hl.1.symm

/-- An internode without keys. -/
theorem Node.empty {l e h : Nat} {D : List (Option Nat)} (hl : Node lo elo bd l e h [] D) :
    (D = [none] ∧ e = h) ∨ ∃ c, D = [some c] ∧ elo c = e ∧ lo c ≤ l ∧ bd c = h := by
  match D, hl with
  | [none], hl => exact Or.inl ⟨rfl, hl⟩
  | [some c], hl => exact Or.inr ⟨c, rfl, hl.1, hl.2.1, hl.2.2⟩
  | none :: _ :: _, hl => exact hl.elim
  | some _ :: _ :: _, hl => exact hl.2.2.elim

/-- A new root. -/
theorem Node.single {l e h n c x : Nat} (h1 : elo n = e) (h2 : lo n ≤ l) (h3 : bd n = elo c) (h4 : x ≤ elo c) (h5 : lo c ≤ x)
    (h6 : 0 < lo c) (h7 : bd c = h) : Node lo elo bd l e h [x] [some n, some c] :=
  ⟨h1, h2, h3, h4, h5, h6, h7⟩

theorem sorted_insert {K : List Nat} {x : Nat} (hs : K.Pairwise (· < ·)) (hx : x ∉ K) :
    (K.insertIdx (K.countP (· ≤ x)) x).Pairwise (· < ·) := by
  induction K with
  | nil => simp
  | cons z K ih =>
    have hp := List.pairwise_cons.mp hs
    rw [count_cons hs]
    by_cases hz : z ≤ x
    · rw [if_pos hz, List.insertIdx_succ_cons, List.pairwise_cons]
      have hne : z ≠ x := by rintro rfl; simp at hx
      refine ⟨fun a ha => ?_, ih hp.2 fun h => hx (List.mem_cons_of_mem _ h)⟩
      rw [List.mem_insertIdx List.countP_le_length] at ha
      rcases ha with rfl | ha
      · omega
      · exact hp.1 a ha
    · rw [if_neg hz, List.insertIdx_zero, List.pairwise_cons]
      refine ⟨fun a ha => ?_, hs⟩
      rcases List.mem_cons.mp ha with rfl | ha
      · omega
      · have := hp.1 a ha; omega

theorem sorted_set {K : List Nat} {j y : Nat} (hs : K.Pairwise (· < ·)) (h1 : ∀ z, K[j]? = some z → z ≤ y)
    (h2 : ∀ z, K[j + 1]? = some z → y < z) : (K.set j y).Pairwise (· < ·) := by
  induction K generalizing j with
  | nil => simp
  | cons z K ih =>
    have hp := List.pairwise_cons.mp hs
    match j with
    | 0 =>
      rw [List.set_cons_zero, List.pairwise_cons]
      refine ⟨fun a ha => ?_, hp.2⟩
      match K, ha with
      | w :: K, ha =>
        have h3 := h2 w rfl
        rcases List.mem_cons.mp ha with rfl | ha
        · exact h3
        · have := (List.pairwise_cons.mp hp.2).1 a ha
          omega
    | j + 1 =>
      rw [List.set_cons_succ, List.pairwise_cons]
      refine ⟨fun a ha => ?_, ih hp.2 (fun z hz => h1 z (by simpa using hz)) (fun z hz => h2 z (by simpa using hz))⟩
      rcases List.mem_or_eq_of_mem_set ha with ha | rfl
      · exact hp.1 a ha
      · by_cases hj : j < K.length
        · have := hp.1 K[j] (List.getElem_mem _)
          have := h1 K[j] (by simp [hj])
          omega
        · rw [List.set_eq_of_length_le (by omega)] at ha
          exact hp.1 a ha

end Verif.Prune
