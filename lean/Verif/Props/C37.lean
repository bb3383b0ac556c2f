import Verif.LockOrder.Steps
import Verif.Props.C12
import Mathlib.Logic.Relation

/-!
# C37: no deadlock

No set of concurrent lookups, inserts, splits, layer creations, removals, layer collapses and leaf-list operations reaches a
state in which threads wait for each other's locks in a cycle (`no_cycle`); every chain of waiting threads ends at a thread
that does not wait for a lock (`chain_ends`); and as long as any lock is held, some thread that holds a lock can go on by
its own steps alone, also where the marks of the leaf list are in the way (`progress`).

The reason is an order on the nodes: layers further down come later, and within a layer higher nodes come later.  A thread
only ever waits for a node that comes after all the nodes it holds (`order`).
-/
namespace Verif.Props.C37

open Verif.LockOrder Function

/-- Thread `i` spins for the lock of a node that thread `j` holds. -/
def WaitsFor (s : State) (i j : Nat) : Prop := ∃ q, (s.pc i).awaits = some q ∧ s.lock q = some j

/-- The node `q` comes after `x`: it is in a layer further down, or it is higher and in a layer equally far down. -/
def Before (s : State) (x q : Nat) : Prop :=
  s.dep (s.lay x) < s.dep (s.lay q) ∨ (s.dep (s.lay x) = s.dep (s.lay q) ∧ s.ht x < s.ht q)

theorem Before.trans {s : State} {x y z : Nat} (h : Before s x y) (h' : Before s y z) : Before s x z := by
  unfold Before at *; omega

/-- A thread waits for a node that comes after all the nodes whose locks it holds. -/
theorem order {key : Nat → Nat → Nat} {s : State} (h : Reachable key s) {i q x : Nat} (hq : (s.pc i).awaits = some q)
    (hx : s.lock x = some i) : Before s x q := by
  have hi := reachable_inv h
  have hl := hi.loc i
  have hx := (hi.held x i).mp hx
  revert hq hl hx
  cases s.pc i with
  | want n => simp [PC.held]
  | wait p n c t h =>
    simp only [PC.awaits, PC.held, State.Loc, Option.some.injEq, List.mem_cons, Option.mem_toList]
    rintro rfl ⟨h1, h2, h3, h4⟩ hx
    have hkept := h1.kept
    have hn := h1.hn
    have hc := h1.hc
    have hlay := h1.lay
    unfold Before
    rcases hx with rfl | rfl | hx
    · rw [h3]; omega
    · rw [h3, hlay]; omega
    · rw [hx] at hkept
      obtain ⟨k1, k2, k3, k4⟩ := hkept
      rw [h3, k4]; omega
  | rwait p n r =>
    simp only [PC.awaits, PC.held, State.Loc, Option.some.injEq, List.mem_singleton]
    rintro rfl ⟨h1, h2, h3, h4⟩ rfl
    unfold Before; rw [h3]; omega
  | dwait u q' p n =>
    simp only [PC.awaits, PC.held, State.Loc, Option.some.injEq, List.mem_cons, List.not_mem_nil, or_false]
    rintro rfl ⟨h1, h2, h3, h4, h5, h6, h7, h8, h9, h10, h11⟩ hx
    unfold Before
    rcases hx with rfl | rfl | rfl
    · rw [h10]; omega
    · rw [h10, h7, h6]; omega
    · rw [h10, h7]; omega
  | gwait n r =>
    simp only [PC.awaits, PC.held, State.Loc, Option.some.injEq, List.mem_singleton]
    rintro rfl ⟨h1, h2, h3, h4⟩ rfl
    unfold Before; omega
  | _ => simp [PC.awaits]

theorem later {key : Nat → Nat → Nat} {s : State} (h : Reachable key s) {i j : Nat} (hij : Relation.TransGen (WaitsFor s) i j) :
    ∀ q q', (s.pc i).awaits = some q → (s.pc j).awaits = some q' → Before s q q' := by
  induction hij with
  | single hw =>
    intro q q' h1 h2
    obtain ⟨x, h3, h4⟩ := hw
    rw [h1] at h3
    cases h3
    exact order h h2 h4
  | tail _ hw ih =>
    intro q q' h1 h2
    obtain ⟨x, h3, h4⟩ := hw
    exact (ih q x h1 h3).trans (order h h2 h4)

/-- Threads never wait for each other's locks in a cycle. -/
theorem no_cycle {key : Nat → Nat → Nat} {s : State} (h : Reachable key s) (i : Nat) :
    ¬ Relation.TransGen (WaitsFor s) i i := by
  intro hc
  have hq : ∃ q, (s.pc i).awaits = some q := by
    rcases Relation.TransGen.head'_iff.mp hc with ⟨k, ⟨q, hq, _⟩, _⟩
    exact ⟨q, hq⟩
  obtain ⟨q, hq⟩ := hq
  have := later h hc q q hq hq
  unfold Before at this
  omega

theorem bounded (f : Nat → Nat) (m : Nat) : ∃ b, ∀ x, x < m → f x < b := by
  induction m with
  | zero => exact ⟨0, fun x hx => by omega⟩
  | succ m ih =>
    obtain ⟨b, hb⟩ := ih
    refine ⟨b + f m + 1, fun x hx => ?_⟩
    by_cases h : x = m
    · subst h; omega
    · have := hb x (by omega); omega

/-- Whoever waits, there is a thread at the end of the chain that does not wait for a lock somebody holds. -/
theorem chain_ends {key : Nat → Nat → Nat} {s : State} (h : Reachable key s) (i : Nat) :
    ∃ j, Relation.ReflTransGen (WaitsFor s) i j ∧ ∀ k, ¬ WaitsFor s j k := by
  obtain ⟨b, hb⟩ := bounded s.ht s.fresh
  obtain ⟨m, hm⟩ := bounded (fun x => s.dep (s.lay x) * b + s.ht x) s.fresh
  have hi := reachable_inv h
  have key : ∀ d i q, (s.pc i).awaits = some q → q < s.fresh → m - (s.dep (s.lay q) * b + s.ht q) ≤ d →
      ∃ j, Relation.ReflTransGen (WaitsFor s) i j ∧ ∀ k, ¬ WaitsFor s j k := by
    intro d
    induction d with
    | zero =>
      intro i q hq hlt hd
      have := hm q hlt
      omega
    | succ d ih =>
      intro i q hq hlt hd
      by_cases hw : ∃ k, WaitsFor s i k
      · obtain ⟨k, hk⟩ := hw
        by_cases hw' : ∃ k', WaitsFor s k k'
        · obtain ⟨k', q', hq', hl'⟩ := hw'
          obtain ⟨q0, h0, h1⟩ := hk
          rw [hq] at h0
          cases h0
          have hbef := order h hq' h1
          have hlt' := hi.lockLt q' k' hl'
          have h2 : s.dep (s.lay q) * b + s.ht q < s.dep (s.lay q') * b + s.ht q' := by
            have := hb q hlt
            rcases hbef with hbef | ⟨h3, h4⟩
            · have := Nat.mul_le_mul_right b (Nat.succ_le_of_lt hbef)
              rw [Nat.succ_mul] at this
              omega
            · rw [h3]; omega
          have := hm q hlt
          obtain ⟨j, hj, hj'⟩ := ih k q' hq' hlt' (by omega)
          exact ⟨j, .head ⟨q, hq, h1⟩ hj, hj'⟩
        · exact ⟨k, .single hk, fun k' hk' => hw' ⟨k', hk'⟩⟩
      · exact ⟨i, .refl, fun k hk => hw ⟨k, hk⟩⟩
  by_cases hw : ∃ k, WaitsFor s i k
  · obtain ⟨k, q, hq, hl⟩ := hw
    exact key _ i q hq (hi.lockLt q k hl) (Nat.le_refl _)
  · exact ⟨i, .refl, fun k hk => hw ⟨k, hk⟩⟩

/-- A thread that does not wait for a lock somebody holds can take a step that brings it further. -/
theorem enabled {key : Nat → Nat → Nat} {s : State} (j : Nat) (hh : (s.pc j).held ≠ [])
    (hw : ∀ k, ¬ WaitsFor s j k) (hL : ∀ l m, (s.list l).op m = .idle) (hr : ∀ x, s.Loc (s.pc x)) :
    ∃ s', Step key j s s' ∧ s'.pc j ≠ s.pc j := by
  have hfree : ∀ q, (s.pc j).awaits = some q → s.lock q = none := by
    intro q hq
    cases hl : s.lock q with
    | none => rfl
    | some k => exact absurd ⟨q, hq, hl⟩ (hw k)
  have hloc := hr j
  cases hp : s.pc j with
  | idle => rw [hp] at hh; exact absurd rfl hh
  | want n => rw [hp] at hh; exact absurd rfl hh
  | look n =>
    rw [hp] at hloc
    exact ⟨_, .retry n n hp hloc.1, by simp⟩
  | hold n => exact ⟨_, .unlock n hp, by simp⟩
  | twig n c => exact ⟨_, .twigged n c hp, by simp⟩
  | link n c => exact ⟨_, .linked n c hp (hL _ _), by simp⟩
  | par n c t h =>
    cases hn : s.parent n with
    | none => exact ⟨_, .newRoot n c t h hp hn, by simp⟩
    | some p => exact ⟨_, .par p n c t h hp hn, by simp⟩
  | wait p n c t h => exact ⟨_, .wait p n c t h hp (hfree p (by rw [hp]; rfl)), by simp⟩
  | got p n c t h =>
    by_cases hn : s.parent n = some p
    · exact ⟨_, .got p n c t h hp hn, by simp⟩
    · exact ⟨_, .miss p n c t h hp hn, by simp⟩
  | mod p n c t h =>
    by_cases hn : h + 1 < s.ht p
    · exact ⟨_, .between p n c t h hp hn, by simp⟩
    · exact ⟨_, .insert p n c t h hp hn, by simp⟩
  | fin p x n c t h =>
    cases t with
    | none => exact ⟨_, .keepLeft p x n c h hp, by simp⟩
    | some t => exact ⟨_, .fin p x n c t h hp, by simp⟩
  | fin' p x c t h => exact ⟨_, .fin' p x c t h hp, by simp⟩
  | rel p x t h =>
    cases x with
    | none => exact ⟨_, .done p t h hp, by simp⟩
    | some x =>
      rw [hp] at hloc
      obtain ⟨q, hq, -⟩ := hloc.2.2.half x rfl
      subst hq
      exact ⟨_, .climb q x t h hp, by simp⟩
  | unl n => exact ⟨_, .unlinked n hp (hL _ _), by simp⟩
  | rpar n r =>
    cases hn : s.parent n with
    | none => exact ⟨_, .rnull n r hp hn, by simp⟩
    | some p => exact ⟨_, .rpar p n r hp hn, by simp⟩
  | rwait p n r => exact ⟨_, .rwait p n r hp (hfree p (by rw [hp]; rfl)), by simp⟩
  | rgot p n r =>
    by_cases hn : s.parent n = some p
    · exact ⟨_, .rgot p n r hp hn, by simp⟩
    · exact ⟨_, .rmiss p n r hp hn, by simp⟩
  | rmod p n r => exact ⟨_, .takeOut p n r false hp, by simp⟩
  | dpar q p n =>
    cases hn : s.parent q with
    | none => exact ⟨_, .dnull q p n hp hn, by simp⟩
    | some u => exact ⟨_, .dpar u q p n hp hn, by simp⟩
  | dwait u q p n => exact ⟨_, .dwait u q p n hp (hfree u (by rw [hp]; rfl)), by simp⟩
  | dgot u q p n =>
    by_cases hn : s.parent q = some u
    · exact ⟨_, .dgot u q p n hp hn, by simp⟩
    · exact ⟨_, .dmiss u q p n hp hn, by simp⟩
  | dmod u q p n => exact ⟨_, .dmod u q p n hp, by simp⟩
  | dtop u p n => exact ⟨_, .ddone u p n hp, by simp⟩
  | rend p n => exact ⟨_, .rend p n hp, by simp⟩
  | rnext p => exact ⟨_, .rstop p hp, by simp⟩
  | gc n r => exact ⟨_, .gleave n r hp, by simp⟩
  | gwait n r => exact ⟨_, .gwait n r hp (hfree r (by rw [hp]; rfl)), by simp⟩
  | ggot n r => exact ⟨_, .gback n r hp, by simp⟩
  | gch n r c => exact ⟨_, .gchild n r c hp, by simp⟩
  | gup n r c => exact ⟨_, .gup n r c hp, by simp⟩

/-- The steps of a list operation are steps of the thread that does it. -/
theorem lift {key : Nat → Nat → Nat} {j n : Nat} (L L' : Leaflink.State) {m l : Nat} (ho : Leaflink.Own (key l) m L L') :
    ∀ s : State, s.list l = L → s.lay n = l → s.lid n = m → (s.pc j = .unl n ∨ ∃ c, s.pc j = .link n c) →
      ∃ s' : State, Relation.ReflTransGen (Step key j) s s' ∧ s'.list l = L' ∧ s'.pc = s.pc ∧ s'.lay = s.lay := by
  induction ho with
  | refl L => intro s h _ _ _; exact ⟨s, .refl, h, rfl, rfl⟩
  | @step L T U hs hn hot _ ih =>
    intro s h1 h2 h3 h4
    subst h1 h2 h3
    have st : Step key j s { s with list := update s.list (s.lay n) T } := .move n T h4 ⟨hs, hn, hot⟩
    obtain ⟨s', k1, k2, k3, k4⟩ := ih { s with list := update s.list (s.lay n) T } (by simp) rfl rfl h4
    exact ⟨s', .head st k1, k2, k3, k4⟩

/-- As long as a lock is held, some thread that holds a lock can go on by its own steps alone. -/
theorem progress {key : Nat → Nat → Nat} {s : State} (h : Reachable key s) {q i : Nat} (hq : s.lock q = some i) :
    ∃ j s', (∃ x, s.lock x = some j) ∧ Relation.ReflTransGen (Step key j) s s' ∧ s'.pc j ≠ s.pc j := by
  have hi := reachable_inv h
  by_cases hL : ∀ l m, (s.list l).op m = .idle
  · obtain ⟨j, h1, h2⟩ := chain_ends h i
    have hx : ∃ x, s.lock x = some j := by
      rcases Relation.ReflTransGen.cases_tail h1 with rfl | ⟨k, _, ⟨x, _, hx⟩⟩
      · exact ⟨q, hq⟩
      · exact ⟨x, hx⟩
    obtain ⟨x, hx⟩ := hx
    obtain ⟨s', h3, h4⟩ := enabled (key := key) j (by
      intro he
      have := (hi.held x j).mp hx
      rw [he] at this
      cases this) h2 hL hi.loc
    exact ⟨j, s', ⟨x, hx⟩, .single h3, h4⟩
  · simp only [not_forall] at hL
    obtain ⟨l, m, hm⟩ := hL
    obtain ⟨m', T, h1, h2, h3⟩ := C12.no_deadlock (hi.lists l) hm
    obtain ⟨j, n, k1, k2, k3⟩ := hi.busy l m' h1
    have hp : s.pc j = .unl n ∨ ∃ c, s.pc j = .link n c := by
      revert k1
      cases s.pc j <;> simp [PC.listing]
    obtain ⟨s', r1, r2, r3, r4⟩ := lift (key := key) (j := j) (n := n) _ T h2 s rfl k2 k3 hp
    have hidle : (s'.list (s'.lay n)).op (s'.lid n) = .idle := by
      have e : s'.lid n = m' := by simp only [State.lid, r4]; exact k3
      rw [e, r4, k2, r2]; exact h3
    have hlock : s.lock n = some j := by
      refine (hi.held n j).mpr ?_
      rcases hp with hp | ⟨c, hp⟩ <;> simp [hp, PC.held]
    rcases hp with hp | ⟨c, hp⟩
    · refine ⟨j, _, ⟨n, hlock⟩, .tail r1 (.unlinked n (by rw [r3]; exact hp) hidle), by simp [hp]⟩
    · refine ⟨j, _, ⟨n, hlock⟩, .tail r1 (.linked n c (by rw [r3]; exact hp) hidle), by simp [hp]⟩

/-! ### A chain of two waiting threads

Thread 0 has made a layer below leaf 0 and holds its leaf 1; thread 1 has locked leaf 0 to collapse that layer and waits for
leaf 1; thread 2 wants to insert into leaf 0. -/

def s1 : State := { State.init with pc := update State.init.pc 0 (.want 0) }
def s1' : State := { s1 with lock := update s1.lock 0 (some 0), pc := update s1.pc 0 (.look 0) }
def s2 : State := { s1' with pc := update s1'.pc 0 (.hold 0) }
def s3 : State := { s2 with
  fresh := s2.fresh + 0 + 1
  ht := fun x => if s2.fresh ≤ x then 0 else s2.ht x
  lay := fun x => if s2.fresh ≤ x then x else s2.lay x
  dep := fun l => if s2.fresh ≤ l then s2.dep (s2.lay 0) + 1 + (l - s2.fresh) else s2.dep l
  lock := update s2.lock (s2.fresh + 0) (some 0)
  sub := fun x r => s2.sub x r ∨ (x = 0 ∧ r = s2.fresh) ∨ (s2.fresh ≤ x ∧ x < s2.fresh + 0 ∧ r = x + 1)
  list := fun l => if s2.fresh ≤ l then .init else s2.list l
  pc := update s2.pc 0 (.twig 0 (s2.fresh + 0)) }
def s4 : State := { s3 with lock := update s3.lock 0 none, pc := update s3.pc 0 (.hold 1) }
def s5 : State := { s4 with pc := update s4.pc 1 (.want 0) }
def s5' : State := { s5 with lock := update s5.lock 0 (some 1), pc := update s5.pc 1 (.look 0) }
def s6 : State := { s5' with pc := update s5'.pc 1 (.hold 0) }
def s7 : State := { s6 with pc := update s6.pc 1 (.gc 0 1) }
def s8 : State := { s7 with pc := update s7.pc 1 (.gwait 0 1) }
def s9 : State := { s8 with pc := update s8.pc 2 (.want 0) }

theorem reach9 (key : Nat → Nat → Nat) : Reachable key s9 := by
  have h1 : Reachable key s1 := .step (i := 0) .init (.find 0 (.inl rfl) (by decide))
  have h1' : Reachable key s1' := .step h1 (.lock (i := 0) (s := s1) 0 rfl rfl rfl)
  have h2 : Reachable key s2 := .step h1' (.look (i := 0) (s := s1') 0 rfl (fun h => h))
  have h3 : Reachable key s3 := .step h2 (.twig (i := 0) (s := s2) 0 0 rfl)
  have h4 : Reachable key s4 := .step h3 (.twigged (i := 0) (s := s3) 0 1 rfl)
  have h5 : Reachable key s5 := .step h4 (.find (i := 1) (s := s4) 0 (.inl rfl) (by decide))
  have h5' : Reachable key s5' := .step h5 (.lock (i := 1) (s := s5) 0 rfl rfl rfl)
  have h6 : Reachable key s6 := .step h5' (.look (i := 1) (s := s5') 0 rfl (fun h => h))
  have h7 : Reachable key s7 := .step h6 (.gc (i := 1) (s := s6) 0 1 rfl (.inr (.inl ⟨rfl, rfl⟩)))
  have h8 : Reachable key s8 := .step h7 (.gask (i := 1) (s := s7) 0 1 rfl)
  exact .step h8 (.find (i := 2) (s := s8) 0 (.inl rfl) (by decide))

example : WaitsFor s9 2 1 ∧ WaitsFor s9 1 0 := ⟨⟨0, rfl, rfl⟩, ⟨1, rfl, rfl⟩⟩

example (key : Nat → Nat → Nat) : ¬ Relation.TransGen (WaitsFor s9) 2 2 ∧
    ∃ j s', (∃ x, s9.lock x = some j) ∧ Relation.ReflTransGen (Step key j) s9 s' ∧ s'.pc j ≠ s9.pc j :=
  ⟨no_cycle (reach9 key) 2, progress (reach9 key) (q := 0) (i := 1) rfl⟩

example (key : Nat → Nat → Nat) : Before s9 0 1 := order (reach9 key) (i := 1) rfl rfl

/-! ### A split in the leaf list

Thread 0 has begun to link the new leaf 1 behind leaf 0, and thread 1 wants leaf 0. -/

def list1 : Leaflink.State :=
  { Leaflink.State.init with
    op := update Leaflink.State.init.op 0 (.s0 1), status := update Leaflink.State.init.status 1 .pending }

def t3 : State := { s2 with
  fresh := s2.fresh + 1
  ht := update s2.ht s2.fresh 0
  lay := update s2.lay s2.fresh (s2.lay 0)
  lock := update s2.lock s2.fresh (some 0)
  sub := update (update s2.sub 0 (fun r => s2.sub 0 r ∧ false = false)) s2.fresh (fun r => s2.sub 0 r ∧ false = true)
  list := update s2.list (s2.lay 0) list1
  pc := update s2.pc 0 (.link 0 s2.fresh) }
def t4 : State := { t3 with pc := update t3.pc 1 (.want 0) }

theorem reach_t4 : Reachable (fun _ x => x) t4 := by
  have h1 : Reachable (fun _ x => x) s1 := .step (i := 0) .init (.find 0 (.inl rfl) (by decide))
  have h1' : Reachable (fun _ x => x) s1' := .step h1 (.lock (i := 0) (s := s1) 0 rfl rfl rfl)
  have h2 : Reachable (fun _ x => x) s2 := .step h1' (.look (i := 0) (s := s1') 0 rfl (fun h => h))
  have h3 : Reachable (fun _ x => x) t3 := by
    refine .step h2 (.split (i := 0) (s := s2) 0 (fun _ => false) list1 rfl ⟨?_, rfl, rfl, fun x hx => Function.update_of_ne hx ..⟩)
    refine .split 0 1 rfl rfl ?_ rfl (by decide) ?_
    · rintro ⟨m, nx, h⟩; cases h
    · intro x hx hk
      change (if x = 0 then Leaflink.Status.live else .free) = .live at hx
      split at hx
      · subst x; simp at hk
      · cases hx
  exact .step h3 (.find (i := 1) (s := t3) 0 (.inl rfl) (by decide))

example : WaitsFor t4 1 0 ∧ (t4.list 0).op 0 = .s0 1 ∧
    ∃ j s', (∃ x, t4.lock x = some j) ∧ Relation.ReflTransGen (Step (fun _ x => x) j) t4 s' ∧ s'.pc j ≠ t4.pc j :=
  ⟨⟨0, rfl, rfl⟩, rfl, progress reach_t4 (q := 0) (i := 0) rfl⟩

end Verif.Props.C37
