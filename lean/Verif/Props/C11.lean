import Verif.Blink.Solo
import Verif.Blink.Trace

/-!
# C11: lookups racing with inserts, removals of entries and splits are linearizable

The executions are those of `Verif.Blink.Step`: any number of threads, one access at a time, in any order.
-/
namespace Verif.Props.C11

open Verif.Blink

variable {G : Type}

/-- The result of a lookup was current at some time during the lookup. -/
theorem lookup {r : Nat → State G} (h : Run r) {i a b : Nat} {v : Option G} (ho : Op r i a b) (hd : (r b).pc i = .done v) :
    ∃ t, a < t ∧ t ≤ b ∧ (r t).m ((r b).key i) = v := by
  have := Seen.since h ho
  rw [hd] at this
  exact this

/-- An update that has returned has published exactly once. -/
theorem update {r : Nat → State G} (h : Run r) {i a b : Nat} {f : Option G → Option G} (ho : Op r i a b) (hf : (r b).fn i = some f)
    (hr : (r (b + 1)).pc i = .idle) :
    ∃ t, a < t ∧ t < b ∧ Publishes (r t) (r (t + 1)) i f ∧
      ∀ u g, a ≤ u → u ≤ b → Publishes (r u) (r (u + 1)) i g → u = t := by
  have hconst := Op.const h ho
  obtain ⟨h1, h2, h3⟩ := ho
  have hafter : ∀ t, (∀ n, (r (t + 1)).pc i = .pub n → (r t).pc i = .pub n ∨ (r t).pc i = .hold n) ∧
      (∀ v, (r (t + 1)).pc i = .done v → (r t).pc i = .done v ∨ (r t).fn i = none) ∧
      (∀ n, (r t).pc i = .pub n → (r (t + 1)).pc i = .pub n ∨ (r (t + 1)).pc i = .idle) := by
    intro t
    rcases h.step t with h4 | h4
    · rw [h4]; exact ⟨fun n h => Or.inl h, fun v h => Or.inl h, fun n h => Or.inl h⟩
    · exact step_after h4
  -- it is not a lookup
  have hnd : ∀ t, a < t → t ≤ b → ∀ v, (r t).pc i ≠ .done v := by
    intro t
    induction t with
    | zero => intro h4; omega
    | succ t ih =>
      intro h4 h5 v hv
      rcases (hafter t).2.1 v hv with h6 | h6
      · by_cases hat : a = t
        · subst hat; rw [h2] at h6; cases h6
        · exact ih (by omega) (by omega) v h6
      · by_cases hat : a = t
        · subst hat
          rcases h.step a with h7 | h7
          · rw [h7, h2] at hv; cases hv
          · rcases step_done h7 hv with h8 | ⟨_, _, _, h8, _⟩ <;> (rw [h2] at h8; cases h8)
        · rw [(hconst t (by omega) (by omega)).2, hf] at h6; cases h6
  -- the end
  have hend : ∃ n, (r b).pc i = .pub n := by
    rcases h.step b with h4 | h4
    · rw [h4] at hr; exact absurd hr (h3 b h1 (Nat.le_refl _))
    · rcases step_return h4 hf (h3 b h1 (Nat.le_refl _)) hr with h5 | ⟨v, h5⟩
      · exact h5
      · exact absurd h5 (hnd b h1 (Nat.le_refl _) v)
  -- back to the first time
  have hback : ∀ d, d ≤ b - a → (∀ t, b - d ≤ t → t ≤ b → ∃ n, (r t).pc i = .pub n) ∨
      ∃ t, a < t ∧ t < b ∧ Publishes (r t) (r (t + 1)) i f ∧ ∀ u, t < u → u ≤ b → ∃ n, (r u).pc i = .pub n := by
    intro d
    induction d with
    | zero => intro _; exact Or.inl fun t h4 h5 => by obtain rfl : t = b := by omega
                                                      exact hend
    | succ d ih =>
      intro hd
      rcases ih (by omega) with h4 | h4
      · obtain ⟨n, hn⟩ := h4 (b - d) (Nat.le_refl _) (by omega)
        have he : b - d = (b - (d + 1)) + 1 := by omega
        rw [he] at hn
        rcases (hafter (b - (d + 1))).1 n hn with h5 | h5
        · refine Or.inl fun t h6 h7 => ?_
          by_cases ht : t = b - (d + 1)
          · subst ht; exact ⟨n, h5⟩
          · exact h4 t (by omega) h7
        · by_cases hlt : b - (d + 1) = a
          · rw [hlt, h2] at h5; cases h5
          · refine Or.inr ⟨b - (d + 1), by omega, by omega, ⟨?_, n, h5, hn⟩, fun u h6 h7 => h4 u (by omega) h7⟩
            rw [(hconst (b - (d + 1)) (by omega) (by omega)).2, hf]
      · exact Or.inr h4
  rcases hback (b - a) (Nat.le_refl _) with h4 | ⟨t, t1, t2, t3, t4⟩
  · obtain ⟨n, hn⟩ := h4 a (by omega) (by omega)
    rw [h2] at hn; cases hn
  · refine ⟨t, t1, t2, t3, ?_⟩
    -- afterwards the thread only unlocks
    obtain ⟨_, n, hn, hn'⟩ := t3
    intro u g h5 h6 hu
    obtain ⟨_, m, hm, hm'⟩ := hu
    rcases Nat.lt_trichotomy u t with h7 | h7 | h7
    · -- before, it would have been idle in between
      exfalso
      have hstay : ∀ v, u < v → v ≤ t → ∃ n, (r v).pc i = .pub n := by
        intro v
        induction v with
        | zero => intro h8; omega
        | succ v ih =>
          intro h8 h9
          by_cases huv : u = v
          · subst huv; exact ⟨m, hm'⟩
          · obtain ⟨k, hk⟩ := ih (by omega) (by omega)
            rcases (hafter v).2.2 k hk with h10 | h10
            · exact ⟨k, h10⟩
            · exact absurd h10 (h3 (v + 1) (by omega) (by omega))
      obtain ⟨k, hk⟩ := hstay t h7 (Nat.le_refl _)
      rw [hn] at hk; cases hk
    · exact h7
    · obtain ⟨k, hk⟩ := t4 u h7 h6
      rw [hm] at hk; cases hk

/-- Linearizability: there is one history of the map, which begins with the contents of the layer and changes only by
publications, each of which applies the update of its thread to the current value of its key.  Every lookup returns a value
that was current during the lookup, and every update that returns takes effect exactly once, during the update. -/
theorem linearizable {r : Nat → State G} (h : Run r) : ∃ M : Nat → Nat → Option G,
    M 0 = (r 0).items 0 ∧
    (∀ t, (M (t + 1) = M t ∧ ∀ i f, ¬ Publishes (r t) (r (t + 1)) i f) ∨
      ∃ i f, Publishes (r t) (r (t + 1)) i f ∧
        M (t + 1) = Function.update (M t) ((r t).key i) (f (M t ((r t).key i))) ∧
        (∃ n, (r t).pc i = .hold n ∧ (r t).items n ((r t).key i) = M t ((r t).key i)) ∧
        ∀ j g, Publishes (r t) (r (t + 1)) j g → j = i) ∧
    (∀ i a b v, Op r i a b → (r b).pc i = .done v → ∃ t, a < t ∧ t ≤ b ∧ M t ((r b).key i) = v) ∧
    ∀ i a b f, Op r i a b → (r b).fn i = some f → (r (b + 1)).pc i = .idle →
      ∃ t, a < t ∧ t < b ∧ (r t).key i = (r b).key i ∧ Publishes (r t) (r (t + 1)) i f ∧
        ∀ u g, a ≤ u → u ≤ b → Publishes (r u) (r (u + 1)) i g → u = t := by
  refine ⟨fun t => (r t).m, h.init.items.symm, fun t => ?_, fun i a b v => lookup h, fun i a b f ho hf hr => ?_⟩
  · rcases h.step t with h1 | h1
    · refine Or.inl ⟨by show (r (t + 1)).m = _; rw [h1], ?_⟩
      rintro i f ⟨_, n, h2, h3⟩
      rw [h1, h2] at h3; cases h3
    · exact step_map (h.inv t) h1
  · obtain ⟨t, t1, t2, t3, t4⟩ := update h ho hf hr
    exact ⟨t, t1, t2, (Op.const h ho t t1 (by omega)).1, t3, t4⟩

/-- A key that is present all the time is found. -/
theorem present {r : Nat → State G} (h : Run r) {i a b : Nat} {v : Option G} (ho : Op r i a b) (hd : (r b).pc i = .done v)
    (hp : ∀ t, a < t → t ≤ b → (r t).m ((r b).key i) ≠ none) : v ≠ none := by
  obtain ⟨t, h1, h2, h3⟩ := lookup h ho hd
  rw [← h3]; exact hp t h1 h2

/-- A key nobody changes meanwhile is found with its value. -/
theorem unchanged {r : Nat → State G} (h : Run r) {i a b : Nat} {v w : Option G} (ho : Op r i a b) (hd : (r b).pc i = .done v)
    (hp : ∀ t, a < t → t ≤ b → (r t).m ((r b).key i) = w) : v = w := by
  obtain ⟨t, h1, h2, h3⟩ := lookup h ho hd
  rw [← h3]; exact hp t h1 h2

/-! ### Keys of several slices

A key of several slices is looked up one layer after the other.  The layers are independent executions, layer `l` being
`R l`; a group may hold the link to another layer. -/

/-- The value of a key in the tree of layers with the contents `M`. -/
def full (M : Nat → Nat → Option G) (link : G → Option Nat) : Nat → List Nat → Option G
  | _, [] => none
  | l, [k] => M l k
  | l, k :: ks => match (M l k).bind link with
    | some l' => full M link l' ks
    | none => none

/-- Thread `i` looks up the slices one after the other, from time `a` to `e`, starting in layer `l`, with the result `v`. -/
inductive Through (R : Nat → Nat → State G) (link : G → Option Nat) (i : Nat) : Nat → List Nat → Nat → Nat → Option G → Prop where
  | last {l a b : Nat} {v : Option G} (ho : Op (R l) i a b) (hd : (R l b).pc i = .done v) :
      Through R link i l [(R l b).key i] a b v
  | more {l a b l' a' e k : Nat} {ks : List Nat} {g : G} {v : Option G} (ho : Op (R l) i a b) (hd : (R l b).pc i = .done (some g))
      (hl : link g = some l') (hb : b ≤ a') (ht : Through R link i l' (k :: ks) a' e v) :
      Through R link i l ((R l b).key i :: k :: ks) a e v

/-- A link stays. -/
theorem link_stays {r : Nat → State G} (h : Run r) {link : G → Option Nat}
    (hp : ∀ t i f, (r t).fn i = some f → ∀ g l, link g = some l → (f (some g)).bind link = some l)
    {t k l : Nat} (ht : ((r t).m k).bind link = some l) {u : Nat} (hu : t ≤ u) : ((r u).m k).bind link = some l := by
  induction u with
  | zero => obtain rfl : t = 0 := by omega
            exact ht
  | succ u ih =>
    by_cases htu : t = u + 1
    · subst htu; exact ht
    · have ih := ih (by omega)
      rcases h.step u with h1 | h1
      · rw [h1]; exact ih
      · rcases step_map (h.inv u) h1 with ⟨h2, _⟩ | ⟨i, f, h2, h3, _⟩
        · rw [h2]; exact ih
        · rw [h3]
          by_cases hk : k = (r u).key i
          · subst hk
            rw [Function.update_self]
            cases hm : (r u).m ((r u).key i) with
            | none => rw [hm] at ih; cases ih
            | some g => rw [hm] at ih; exact hp u i f h2.1 g l ih
          · rw [Function.update_of_ne hk]; exact ih

/-- The result of a lookup through the layers was the value of the whole key at some time during the lookup, if updates keep
links. -/
theorem through {R : Nat → Nat → State G} (h : ∀ l, Run (R l)) {link : G → Option Nat}
    (hp : ∀ l t i f, (R l t).fn i = some f → ∀ g l', link g = some l' → (f (some g)).bind link = some l')
    {i l a e : Nat} {ks : List Nat} {v : Option G} (ht : Through R link i l ks a e v) :
    ∃ t, a < t ∧ t ≤ e ∧ full (fun l => (R l t).m) link l ks = v := by
  induction ht with
  | last ho hd => exact lookup (h _) ho hd
  | more ho hd hl hb _ ih =>
    obtain ⟨t, h1, h2, h3⟩ := lookup (h _) ho hd
    obtain ⟨u, h4, h5, h6⟩ := ih
    refine ⟨u, by omega, h5, ?_⟩
    have := link_stays (h _) (hp _) (t := t) (u := u) (by rw [h3]; exact hl) (by omega)
    unfold full
    rw [this]
    exact h6

/-! ### Examples -/

/-- A leaf with the keys 1 and 5. -/
def s0 : State Nat :=
  { leaf := fun _ => true, lock := fun _ => none, ins := fun _ => 0, spl := fun _ => 0, dI := fun _ => false
    dS := fun _ => false, rt := fun _ => true, parent := fun _ => none, next := fun _ => none
    items := fun _ k => if k = 1 then some 10 else if k = 5 then some 50 else none
    keys := fun _ => [], kids := fun _ => [], lo := fun _ => 0, hi := fun _ => top, phi := fun _ => top, chi := fun _ => top
    fresh := 1, root := 0, m := fun k => if k = 1 then some 10 else if k = 5 then some 50 else none
    pc := fun _ => .idle, key := fun _ => 0, base := fun _ => 0, fn := fun _ => none }

theorem s0_init : Init s0 := by
  refine ⟨rfl, rfl, rfl, fun _ => rfl, fun _ => ⟨rfl, rfl⟩, rfl, rfl, rfl, rfl, ⟨rfl, rfl, rfl⟩, rfl, ?_, fun _ => rfl⟩
  intro k hk
  simp only [s0] at hk
  have : 5 < top := by unfold top; omega
  split at hk
  · omega
  · split at hk
    · omega
    · simp at hk

/-- Thread 1 looks up key 5 and reaches the leaf. -/
def s1 : State Nat := State.to { s0 with key := Function.update s0.key 1 5, base := Function.update s0.base 1 s0.root,
                                         fn := Function.update s0.fn 1 none } 1 (.up s0.root)
def s2 : State Nat := s1.to 1 (.at_ 0 (s1.ins 0) (s1.spl 0))

/-- Thread 0 adds key 7, splitting the leaf: keys from 5 on move to leaf 1. -/
def s3 : State Nat := State.to { s2 with key := Function.update s2.key 0 7, base := Function.update s2.base 0 s2.root,
                                         fn := Function.update s2.fn 0 (some fun _ => some 70) } 0 (.up s2.root)
def s4 : State Nat := s3.to 0 (.at_ 0 (s3.ins 0) (s3.spl 0))
def s5 : State Nat := s4.to 0 (.read 0 0 0 none)
def s6 : State Nat := State.to { s5 with lock := Function.update s5.lock 0 (some 0) } 0 (.hold 0)
def s7 : State Nat := (s6.splitLeaf 0 0 5).to 0 (.par 0 1 5 none)
def s8 : State Nat := (s7.newRoot 0 1 5).to 0 (.fin none none 0 1 5 none)
def s9 : State Nat := State.to { s8 with dS := Function.update s8.dS 0 true } 0 (.cut none none 0 1 5)
def s10 : State Nat := State.to
  { s9 with
    items := Function.update s9.items 0 (fun k => if k < 5 then s9.items 0 k else none)
    hi := Function.update s9.hi 0 5
    chi := Function.update s9.chi 0 5 } 0 (if s9.key 0 < 5 then .rel none none 1 0 else .rel none none 0 1)
def s11 : State Nat := (s10.unlock 0).to 0 (.hold 1)
def s12 : State Nat := State.to
  { s11 with
    items := Function.update s11.items 1 (Function.update (s11.items 1) (s11.key 0) (some 70))
    m := Function.update s11.m (s11.key 0) (some 70) } 0 (.pub 1)
def s13 : State Nat := (s12.unlock 1).to 0 .idle

/-- The lookup goes on: key 5 is gone from the leaf, which has split, and is found in the next one. -/
def s14 : State Nat := s13.to 1 (.read 0 0 0 none)
def s15 : State Nat := s14.to 1 (.cmp 0 (s14.ins 0) (s14.spl 0))
def s16 : State Nat := s15.to 1 (.adv 0 0 1)
def s17 : State Nat := s16.to 1 (.go 1)
def s18 : State Nat := s17.to 1 (.adv 1 (s17.ins 1) (s17.spl 1))
def s19 : State Nat := s18.to 1 (.at_ 1 0 0)
def s20 : State Nat := s19.to 1 (.read 1 0 0 (some 50))
def s21 : State Nat := s20.to 1 (.done (some 50))

def race : Nat → State Nat
  | 0 => s0 | 1 => s1 | 2 => s2 | 3 => s3 | 4 => s4 | 5 => s5 | 6 => s6 | 7 => s7 | 8 => s8 | 9 => s9 | 10 => s10
  | 11 => s11 | 12 => s12 | 13 => s13 | 14 => s14 | 15 => s15 | 16 => s16 | 17 => s17 | 18 => s18 | 19 => s19 | 20 => s20
  | _ => s21

theorem small (k : Nat) (h : k < 100) : k < top := by unfold top; omega

theorem race_run : Run race := by
  refine ⟨s0_init, fun t => ?_⟩
  match t with
  | 0 => exact Or.inr (.start (s := s0) 1 5 none (small 5 (by omega)) rfl)
  | 1 => exact Or.inr (.rooted (s := s1) 1 0 rfl ⟨rfl, rfl⟩ rfl)
  | 2 => exact Or.inr (.start (s := s2) 0 7 (some fun _ => some 70) (small 7 (by omega)) rfl)
  | 3 => exact Or.inr (.rooted (s := s3) 0 0 rfl ⟨rfl, rfl⟩ rfl)
  | 4 => exact Or.inr (.look (s := s4) 0 0 0 0 none rfl rfl fun _ => rfl)
  | 5 => exact Or.inr (.acquire (s := s5) 0 0 0 0 none rfl (by simp [s5, s4, s3, State.to]) rfl rfl rfl)
  | 6 => exact Or.inr (.split (s := s6) 0 0 5 rfl (by show 0 < 5; omega) (small 5 (by omega)))
  | 7 => exact Or.inr (.newRoot (s := s7) 0 0 1 5 none rfl rfl)
  | 8 => exact Or.inr (.markSplit (s := s8) 0 0 1 5 none none rfl)
  | 9 => exact Or.inr (.strip (s := s9) 0 0 1 5 none none rfl)
  | 10 => exact Or.inr (.unlockRight (s := s10) 0 0 1 none none rfl)
  | 11 => exact Or.inr (.publish (s := s11) 0 1 (fun _ => some 70) rfl rfl)
  | 12 => exact Or.inr (.release (s := s12) 0 1 rfl)
  | 13 => exact Or.inr (.look (s := s13) 1 0 0 0 none rfl rfl fun h => by cases h.2.2)
  | 14 => exact Or.inr (.compareLeaf (s := s14) 1 0 0 0 none rfl ⟨rfl, rfl⟩)
  | 15 => exact Or.inr (.walk (s := s15) 1 0 0 1 rfl rfl)
  | 16 => exact Or.inr (.forward (s := s16) 1 0 0 1 1 rfl rfl (Nat.le_refl 5))
  | 17 => exact Or.inr (.arrive (s := s17) 1 1 rfl ⟨rfl, rfl⟩)
  | 18 => exact Or.inr (.arrived (s := s18) 1 1 0 0 rfl fun r hr => by cases hr)
  | 19 => exact Or.inr (.look (s := s19) 1 1 0 0 (some 50) rfl rfl fun _ => rfl)
  | 20 => exact Or.inr (.found (s := s20) 1 1 0 0 (some 50) rfl rfl ⟨⟨rfl, rfl⟩, rfl, rfl⟩)
  | t + 21 => exact Or.inl rfl

theorem race_op : Op race 1 0 21 := by
  refine ⟨by omega, rfl, fun t h1 h2 => ?_⟩
  match t with
  | 0 => omega
  | 1 | 2 | 3 | 4 | 5 | 6 | 7 | 8 | 9 | 10 | 11 | 12 | 13 | 14 | 15 | 16 | 17 | 18 | 19 | 20 | 21 =>
    intro h; cases h
  | t + 22 => omega

/-- The lookup of key 5 overlaps the split that moves it, and finds it; the insert of key 7 takes effect at step 11. -/
example : (∃ t, 0 < t ∧ t ≤ 21 ∧ (race t).m 5 = some 50) ∧ Publishes (race 11) (race 12) 0 (fun _ => some 70) ∧
    (race 11).m 7 = none ∧ (race 12).m 7 = some 70 ∧ (race 6).items 0 5 = some 50 ∧ (race 21).items 0 5 = none :=
  ⟨lookup race_run race_op rfl, ⟨rfl, 1, rfl, rfl⟩, rfl, rfl, rfl, rfl⟩

example : ∃ t, 2 < t ∧ t < 12 ∧ Publishes (race t) (race (t + 1)) 0 (fun _ => some 70) ∧
    ∀ u g, 2 ≤ u → u ≤ 12 → Publishes (race u) (race (u + 1)) 0 g → u = t := by
  refine update race_run ⟨by omega, rfl, fun t h1 h2 => ?_⟩ rfl rfl
  match t with
  | 0 | 1 | 2 => omega
  | 3 | 4 | 5 | 6 | 7 | 8 | 9 | 10 | 11 | 12 => intro h; cases h
  | t + 13 => omega

/-- Two layers: the groups 50 and 70 lead to layer 1.  The slices 5 and 5 are looked up one after the other, each overlapping
a split. -/
example : ∃ t, 0 < t ∧ t ≤ 42 ∧
    full (fun l => (match l with | 0 => race t | _ => race (t - 21)).m) (fun g => if g = 10 then none else some 1) 0 [5, 5] =
      some 50 := by
  have hrun : ∀ l, Run (fun t => match l with | 0 => race t | _ => race (t - 21)) := by
    intro l
    match l with
    | 0 => exact race_run
    | l + 1 =>
      refine ⟨s0_init, fun t => ?_⟩
      by_cases ht : 21 ≤ t
      · have := race_run.step (t - 21)
        rw [show t - 21 + 1 = t + 1 - 21 by omega] at this
        exact this
      · exact Or.inl (by show race (t + 1 - 21) = race (t - 21); rw [show t + 1 - 21 = 0 by omega, show t - 21 = 0 by omega])
  have hfn : ∀ t i f, (race t).fn i = some f → f = fun _ => some 70 := by
    intro t i f hf
    by_contra hne
    have h01 : ∀ t, t ≤ 2 → (race t).fn i = none := by
      intro t ht
      match t with
      | 0 => rfl
      | 1 | 2 =>
        show Function.update (fun _ => none) 1 none i = none
        by_cases hi : i = 1 <;> simp [hi]
      | t + 3 => omega
    have h3 : ∀ t, 3 ≤ t → (race t).fn i = Function.update s2.fn 0 (some fun _ => some 70) i := by
      intro t ht
      match t with
      | 0 | 1 | 2 => omega
      | 3 | 4 | 5 | 6 | 7 | 8 | 9 | 10 | 11 | 12 | 13 | 14 | 15 | 16 | 17 | 18 | 19 | 20 => rfl
      | t + 21 => rfl
    by_cases ht : t ≤ 2
    · rw [h01 t ht] at hf; cases hf
    · rw [h3 t (by omega)] at hf
      by_cases hi : i = 0
      · subst hi; rw [Function.update_self] at hf; exact hne (Option.some.inj hf).symm
      · rw [Function.update_of_ne hi] at hf
        have := h01 2 (Nat.le_refl _)
        change s2.fn i = none at this
        rw [this] at hf; cases hf
  refine through (R := fun l t => match l with | 0 => race t | _ => race (t - 21)) hrun ?_ (i := 1)
    (.more (l := 0) (b := 21) (g := 50) (a' := 21) race_op rfl rfl (Nat.le_refl _) (.last (l := 1) (b := 42) ?_ rfl))
  · intro l t i f hf g l' hg
    have : f = fun _ => some 70 := by
      match l with
      | 0 => exact hfn t i f hf
      | l + 1 => exact hfn (t - 21) i f hf
    subst this
    split at hg
    · cases hg
    · exact hg
  · refine ⟨by omega, rfl, fun t h1 h2 => ?_⟩
    exact race_op.busy (t - 21) (by omega) (by omega)

/-- Thread 0 removes key 5 while thread 1 looks it up: thread 1 has read the value, finds that the leaf has changed, and reads
again. -/
def g1 : State Nat := s2.to 1 (.read 0 0 0 (some 50))
def g2 : State Nat := State.to { g1 with key := Function.update g1.key 0 5, base := Function.update g1.base 0 g1.root,
                                         fn := Function.update g1.fn 0 (some fun _ => none) } 0 (.up g1.root)
def g3 : State Nat := g2.to 0 (.at_ 0 (g2.ins 0) (g2.spl 0))
def g4 : State Nat := g3.to 0 (.read 0 0 0 (some 50))
def g5 : State Nat := State.to { g4 with lock := Function.update g4.lock 0 (some 0) } 0 (.hold 0)
def g6 : State Nat := { g5 with dI := Function.update g5.dI 0 true }
def g7 : State Nat := State.to
  { g6 with
    items := Function.update g6.items 0 (Function.update (g6.items 0) (g6.key 0) none)
    m := Function.update g6.m (g6.key 0) none } 0 (.pub 0)
def g8 : State Nat := (g7.unlock 0).to 0 .idle
def g9 : State Nat := g8.to 1 (.at_ 0 (g8.ins 0) (g8.spl 0))
def g10 : State Nat := g9.to 1 (.read 0 1 0 none)
def g11 : State Nat := g10.to 1 (.done none)

def removal : Nat → State Nat
  | 0 => s0 | 1 => s1 | 2 => s2 | 3 => g1 | 4 => g2 | 5 => g3 | 6 => g4 | 7 => g5 | 8 => g6 | 9 => g7 | 10 => g8 | 11 => g9
  | 12 => g10 | _ => g11

theorem removal_run : Run removal := by
  refine ⟨s0_init, fun t => ?_⟩
  match t with
  | 0 => exact Or.inr (.start (s := s0) 1 5 none (small 5 (by omega)) rfl)
  | 1 => exact Or.inr (.rooted (s := s1) 1 0 rfl ⟨rfl, rfl⟩ rfl)
  | 2 => exact Or.inr (.look (s := s2) 1 0 0 0 (some 50) rfl rfl fun _ => rfl)
  | 3 => exact Or.inr (.start (s := g1) 0 5 (some fun _ => none) (small 5 (by omega)) rfl)
  | 4 => exact Or.inr (.rooted (s := g2) 0 0 rfl ⟨rfl, rfl⟩ rfl)
  | 5 => exact Or.inr (.look (s := g3) 0 0 0 0 (some 50) rfl rfl fun _ => rfl)
  | 6 => exact Or.inr (.acquire (s := g4) 0 0 0 0 (some 50) rfl (by simp [g4, g3, g2, State.to]) rfl rfl rfl)
  | 7 => exact Or.inr (.markLeaf (s := g5) 0 0 rfl)
  | 8 => exact Or.inr (.publish (s := g6) 0 0 (fun _ => none) rfl rfl)
  | 9 => exact Or.inr (.release (s := g7) 0 0 rfl)
  | 10 => exact Or.inr (.stay (s := g8) 1 0 0 0 (some 50) rfl ⟨rfl, rfl⟩ rfl)
  | 11 => exact Or.inr (.look (s := g9) 1 0 1 0 none rfl rfl fun _ => rfl)
  | 12 => exact Or.inr (.found (s := g10) 1 0 1 0 none rfl rfl ⟨⟨rfl, rfl⟩, rfl, rfl⟩)
  | t + 13 => exact Or.inl rfl

/-- The lookup returns that the key is absent, as it is at the end, and was not at the beginning. -/
example : (∃ t, 0 < t ∧ t ≤ 13 ∧ (removal t).m 5 = none) ∧ (removal 1).m 5 = some 50 ∧
    Publishes (removal 8) (removal 9) 0 (fun _ => none) := by
  refine ⟨lookup removal_run (i := 1) (a := 0) (b := 13) ⟨by omega, rfl, fun t h1 h2 => ?_⟩ rfl, rfl, rfl, 0, rfl, rfl⟩
  match t with
  | 0 => omega
  | 1 | 2 | 3 | 4 | 5 | 6 | 7 | 8 | 9 | 10 | 11 | 12 | 13 => intro h; cases h
  | t + 14 => omega

/-! ### Nobody gets stuck -/

/-- The nodes are on levels: the leaves are at the bottom, and a node is one level below its parent.  So all the leaves below a
node are at the same depth. -/
theorem balanced {s : State G} (h : Reachable s) :
    ∃ l : Nat → Nat, (∀ n, n < s.fresh → (l n = 0 ↔ s.leaf n = true)) ∧
      ∀ n p, n < s.fresh → s.parent n = some p → l p = l n + 1 := by
  obtain ⟨l, hl⟩ := reachable_tall h
  refine ⟨l, fun n hn => ⟨fun h0 => ?_, hl.leaf n hn⟩, hl.up⟩
  cases hf : s.leaf n with
  | true => rfl
  | false =>
    have hi := reachable_inv h
    have h1 := hi.kid n _ hn hf ((hi.good n hn hf).route_mem 0)
    have := hl.up _ n h1.1 h1.2
    omega

/-- While nobody holds a lock, the leaves follow one another without gaps. -/
theorem leaves_abut {s : State G} (h : Reachable s) (hf : ∀ n, s.lock n = none) {n r : Nat} (hn : n < s.fresh)
    (hl : s.leaf n = true) (hr : s.next n = some r) : s.lo r = s.hi n ∧ s.lo n < s.lo r := by
  have h1 := reachable_chain h
  refine ⟨?_, h1.lt n r hn hl hr⟩
  rcases h1.eq n r hn hl hr with h2 | ⟨i, h2⟩
  · exact h2
  · have := (reachable_inv h).own i n (Uncut.owns h2)
    rw [hf] at this; cases this

/-- Wherever a lookup is, if nobody holds a lock it can finish by steps of its own, and it gives the current value. -/
theorem lookup_finishes {s : State G} (h : Reachable s) (hf : ∀ n, s.lock n = none) {i : Nat} (h0 : s.pc i ≠ .idle)
    (hd : ∀ v, s.pc i ≠ .done v) (hfn : s.fn i = none) : Solos i s (s.to i (.done (s.m (s.key i)))) := by
  have hq := h.quiet hf
  obtain ⟨n, h1, h2⟩ := hq.again h0 hd
  obtain ⟨m, h3⟩ := hq.find (i := i) h1 (hq.inv.key i h0)
  refine (h2.trans h3).trans (Solos.one ?_ .refl)
  exact Step.found (s := s.to i _) i m _ _ _ (pc_to _ _ _) hfn ⟨hq.clean m, rfl, rfl⟩

/-- So can an update, which takes effect and leaves no lock. -/
theorem update_finishes {s : State G} (h : Reachable s) (hf : ∀ n, s.lock n = none) {i : Nat} (h0 : s.pc i ≠ .idle)
    (hd : ∀ v, s.pc i ≠ .done v) {f : Option G → Option G} (hfn : s.fn i = some f) :
    ∃ s', Relation.ReflTransGen Step s s' ∧ s'.pc = Function.update s.pc i .idle ∧
      s'.m = Function.update s.m (s.key i) (f (s.m (s.key i))) ∧ ∀ n, s'.lock n = none := by
  have hq := h.quiet hf
  obtain ⟨n, h1, h2⟩ := hq.again h0 hd
  obtain ⟨m, h3⟩ := hq.find (i := i) h1 (hq.inv.key i h0)
  have h4 : Relation.ReflTransGen Step s (s.to i (.read m (s.ins m) (s.spl m) (s.m (s.key i)))) :=
    Relation.ReflTransGen.mono (fun _ _ h => h.1) _ _ (h2.trans h3)
  refine ⟨_, ((h4.tail (Step.acquire i m _ _ _ (pc_to _ _ _) (by show s.fn i ≠ none; rw [hfn]; simp) (hf m) rfl rfl)).tail
    (Step.publish i m f (pc_to _ _ _) hfn)).tail (Step.release i m (pc_to _ _ _)), ?_, rfl, fun q => ?_⟩
  · simp [State.to, State.unlock]
  · show Function.update (Function.update s.lock m (some i)) m none q = none
    by_cases hqm : q = m
    · subst hqm; rw [Function.update_self]
    · rw [Function.update_of_ne hqm, Function.update_of_ne hqm]; exact hf q

theorem race_reachable (t : Nat) : Reachable (race t) := by
  induction t with
  | zero => exact .init s0_init
  | succ t ih =>
    rcases race_run.step t with h | h
    · rw [h]; exact ih
    · exact .step ih h

theorem s13_free (n : Nat) : s13.lock n = none := by
  show Function.update (Function.update (Function.update (Function.update (Function.update (fun _ => none) 0 (some 0)) 1 (some 0))
    2 none) 0 none) 1 none n = none
  simp only [Function.update_apply]
  grind

/-- After the split, the lookup that still has the old version of the leaf can finish. -/
example : Solos 1 s13 (s13.to 1 (.done (some 50))) :=
  lookup_finishes (s := s13) (race_reachable 13) s13_free (by intro h; cases h) (by intro v h; cases h) rfl

/-- There are two levels, and leaf 1 follows leaf 0. -/
example : (∃ l : Nat → Nat, l 0 = 0 ∧ l 1 = 0 ∧ l 2 = 1) ∧ s13.lo 1 = s13.hi 0 := by
  obtain ⟨l, h1, h2⟩ := balanced (race_reachable 13)
  have h3 := (h1 0 (by show 0 < 3; omega)).2 rfl
  have h4 := (h1 1 (by show 1 < 3; omega)).2 rfl
  have h5 := h2 0 2 (by show 0 < 3; omega) rfl
  exact ⟨⟨l, h3, h4, by omega⟩, (leaves_abut (s := s13) (race_reachable 13) s13_free (n := 0) (r := 1) (by show 0 < 3; omega) rfl rfl).1⟩

/-- Thread 2 begins to remove key 5. -/
def w1 : State Nat := State.to { s13 with key := Function.update s13.key 2 5, base := Function.update s13.base 2 s13.root,
                                          fn := Function.update s13.fn 2 (some fun _ => none) } 2 (.up s13.root)

example : ∃ s', Relation.ReflTransGen Step w1 s' ∧ s'.m 5 = none ∧ w1.m 5 = some 50 := by
  obtain ⟨s', h1, _, h2, _⟩ := update_finishes (s := w1)
    (.step (race_reachable 13) (.start (s := s13) 2 5 (some fun _ => none) (small 5 (by omega)) rfl)) s13_free (i := 2)
    (by intro h; cases h) (by intro v h; cases h) rfl
  exact ⟨s', h1, by rw [h2]; rfl, rfl⟩

end Verif.Props.C11
