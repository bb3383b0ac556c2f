import Verif.Leaflink.Steps

/-!
# The leaves met when following `next_`
-/
namespace Verif.Leaflink

open Function (update)

/-- Following the pointers `f` from the first argument one meets exactly the leaves of the list. -/
inductive Links (f : Nat → Option Nat) : Option Nat → List Nat → Prop where
  | nil : Links f none []
  | cons {x : Nat} {l : List Nat} (h : Links f (f x) l) : Links f (some x) (x :: l)

theorem Links.unique {f : Nat → Option Nat} {o : Option Nat} {l l' : List Nat} (h : Links f o l) (h' : Links f o l') : l = l' := by
  induction h generalizing l' with
  | nil => cases h'; rfl
  | cons _ ih => cases h' with | cons h' => rw [ih h']

/-- `next_` always points to a leaf with larger keys. -/
def Right (key : Nat → Nat) (s : State) : Prop := ∀ x y, s.next x = some y → key x < key y

theorem step_right {key : Nat → Nat} {s s' : State} (hi : Inv key s) (hr : Right key s) (st : Step key s s') :
    Right key s' := by
  cases st with
  | s2 n nr nx ho =>
    intro x y h
    simp only [Function.update_apply] at h
    split at h
    · rename_i hx
      subst hx
      have h1 := hi.lockLs n nx (by simp [ho, Op.locked]) (by simp [ho, Op.half])
      rw [h] at h1
      obtain ⟨-, -, h3, h4⟩ := hi.lsp n y h1
      exact hi.pendGap n x y (by simp [ho, Op.pending]) h3 h4
    · exact hr x y h
  | s4 n nr nx ho =>
    intro x y h
    simp only [Function.update_apply] at h
    split at h
    · rename_i hx
      subst hx
      cases h
      exact (hi.lsp x _ (hi.s4Ls x _ nx ho).1).2.2.2
    · exact hr x y h
  | u5 n p nx ho =>
    intro x y h
    simp only [Function.update_apply] at h
    split at h
    · rename_i hx
      subst hx
      have h1 := hi.lockLs n nx (by simp [ho, Op.locked]) (by simp [ho, Op.half])
      rw [h] at h1
      exact Nat.lt_trans (hi.lsp x n (hi.holdsP n x (by simp [ho, Op.holds])).1).2.2.2 (hi.lsp n y h1).2.2.2
    · exact hr x y h
  | _ => exact hr

theorem reachable_right {key : Nat → Nat} {s : State} (h : Reachable key s) : Right key s := by
  induction h with
  | init => intro x y h; simp [State.init] at h
  | step h st ih => exact step_right (reachable_inv h) ih st

theorem Links.insert {f : Nat → Option Nat} {n nr : Nat} (hne : nr ≠ n) {o : Option Nat} {l : List Nat} (h : Links f o l)
    (hl : nr ∉ l) : Links (update (update f n (some nr)) nr (f n)) o (insertAfter n nr l) := by
  induction h with
  | nil => exact .nil
  | @cons x l h ih =>
    have h1 : nr ≠ x := fun e => hl (e ▸ List.mem_cons_self ..)
    have ih := ih fun e => hl (List.mem_cons_of_mem _ e)
    unfold insertAfter at ih ⊢
    rw [List.flatMap_cons]
    by_cases hx : x = n
    · subst hx
      rw [if_pos rfl]
      refine .cons ?_
      rw [Function.update_of_ne (Ne.symm hne), Function.update_self]
      refine .cons ?_
      rw [Function.update_self]
      exact ih
    · rw [if_neg hx]
      refine .cons ?_
      rw [Function.update_of_ne (Ne.symm h1), Function.update_of_ne hx]
      exact ih

theorem Links.erase {f : Nat → Option Nat} {n p : Nat} (hne : p ≠ n) (hp : f p = some n) (hu : ∀ x, f x = some n → x = p)
    (k : Nat) {o : Option Nat} {l : List Nat} (hk : l.length ≤ k) (h : Links f o l) (ho : o ≠ some n) :
    Links (update (update f p (f n)) n none) o (l.filter fun x => x ≠ n) := by
  induction k generalizing o l with
  | zero =>
    cases h with
    | nil => exact .nil
    | cons _ => simp at hk
  | succ k ih =>
    cases h with
    | nil => exact .nil
    | @cons x l h =>
      have hx : x ≠ n := fun e => ho (e ▸ rfl)
      rw [List.filter_cons_of_pos (by simpa using hx)]
      refine .cons ?_
      rw [Function.update_of_ne hx]
      by_cases hxp : x = p
      · subst hxp
        rw [Function.update_self]
        rw [hp] at h
        cases h with
        | @cons _ l h =>
          rw [List.filter_cons_of_neg (by simp)]
          refine ih (by simp at hk; omega) h fun e => hne (hu n e).symm
      · rw [Function.update_of_ne hxp]
        exact ih (by simpa using hk) h fun e => hxp (hu x e)

/-- The list of live leaves. -/
structure Listed (s : State) : Prop where
  links : Links s.ls (some 0) s.all
  mem : ∀ x, x ∈ s.all ↔ s.status x = .live

theorem step_listed {key : Nat → Nat} {s s' : State} (hi : Inv key s) (hr : Listed s) (st : Step key s s') : Listed s' := by
  cases st with
  | split n nr hn ho hl hfree hk hk' =>
    refine ⟨hr.links, fun x => ?_⟩
    rw [hr.mem]
    dsimp only
    rw [Function.update_apply]
    split
    · rename_i h; subst h; simp [hfree]
    · rfl
  | s3 n nr nx ho =>
    have hpn : s.status nr = .pending := hi.pendS n nr (by simp [ho, Op.pending])
    have hn : s.status n = .live := hi.opLive n (by simp [ho])
    have hne : nr ≠ n := by rintro rfl; simp [hn] at hpn
    have hls : s.ls n = nx := hi.lockLs n nx (by simp [ho, Op.locked]) (by simp [ho, Op.half])
    refine ⟨?_, fun x => ?_⟩
    · have := hr.links.insert (n := n) (nr := nr) hne (by rw [hr.mem]; simp [hpn])
      rw [hls] at this
      exact this
    · simp only [insertAfter, List.mem_flatMap, Function.update_apply]
      constructor
      · rintro ⟨y, hy, h⟩
        rw [hr.mem] at hy
        split at h <;> simp at h
        · rcases h with rfl | rfl
          · rw [if_neg (Ne.symm hne)]; exact hn
          · rw [if_pos rfl]
        · subst h
          split
          · rfl
          · exact hy
      · intro h
        split at h
        · rename_i hx
          exact ⟨n, (hr.mem n).2 hn, by simp [hx]⟩
        · refine ⟨x, (hr.mem x).2 h, ?_⟩
          split <;> simp_all
  | u5 n p nx ho =>
    have hls : s.ls n = nx := hi.lockLs n nx (by simp [ho, Op.locked]) (by simp [ho, Op.half])
    have hh := hi.holdsP n p (by simp [ho, Op.holds])
    have hn0 := hi.notFirst n (by simp [ho, Op.unlinks])
    have hk1 := (hi.lsp p n hh.1).2.2.2
    have hne : p ≠ n := by rintro rfl; omega
    refine ⟨?_, fun x => ?_⟩
    · have := hr.links.erase (n := n) (p := p) hne hh.1 (fun x hx => by
        have h1 := (hi.lsp x n hx).1
        have h2 := (hi.lsp p n hh.1).1
        rw [h1] at h2
        exact Option.some.inj h2) _ (Nat.le_refl _) (by simpa using Ne.symm hn0)
      rw [hls] at this
      exact this
    · simp only [List.mem_filter, Function.update_apply, hr.mem]
      split <;> simp_all
  | _ => exact ⟨hr.links, hr.mem⟩

theorem reachable_listed {key : Nat → Nat} {s : State} (h : Reachable key s) : Listed s := by
  induction h with
  | init =>
    refine ⟨.cons .nil, fun x => ?_⟩
    simp only [State.init, List.mem_singleton]
    split <;> simp_all
  | step h st ih => exact step_listed (reachable_inv h) ih st

theorem Links.sorted {f : Nat → Option Nat} {key : Nat → Nat} (hf : ∀ x y, f x = some y → key x < key y) {o : Option Nat}
    {l : List Nat} (h : Links f o l) : l.Pairwise fun x y => key x < key y := by
  suffices hs : l.Pairwise (fun x y => key x < key y) ∧ ∀ x, o = some x → ∀ y ∈ l, key x ≤ key y from hs.1
  induction h with
  | nil => exact ⟨.nil, fun _ h => by cases h⟩
  | @cons x l h ih =>
    have hlt : ∀ y ∈ l, key x < key y := by
      intro y hy
      cases hx : f x with
      | none => rw [hx] at h; cases h; simp at hy
      | some z => exact Nat.lt_of_lt_of_le (hf x z hx) (ih.2 z hx y hy)
    refine ⟨List.pairwise_cons.2 ⟨hlt, ih.1⟩, ?_⟩
    rintro _ ⟨⟩ y hy
    rcases List.mem_cons.1 hy with rfl | hy
    · exact Nat.le_refl _
    · exact Nat.le_of_lt (hlt y hy)

/-- Leaves that have been taken out lead back to live ones. -/
theorem Leads.links {s : State} {a t : Option Nat} (h : Leads s a t) {w : List Nat} (hw : Links s.next t w) :
    ∃ d, Links s.next a (d ++ w) ∧ ∀ x ∈ d, s.status x = .dead := by
  induction h with
  | refl t => exact ⟨[], hw, by simp⟩
  | @dead b t hb _ ih =>
    obtain ⟨d, hd, h⟩ := ih hw
    exact ⟨b :: d, .cons hd, by simpa using ⟨hb, h⟩⟩

theorem walk_aux {key : Nat → Nat} {s : State} (hi : Inv key s) (vis : Nat → Bool) (hv : ∀ x, vis x = true ↔ ¬ s.linking x)
    (live : Nat → Bool) (hlv : ∀ x, live x = true ↔ s.status x = .live) (k : Nat) {o : Option Nat} {l : List Nat}
    (hk : l.length ≤ k) (h : Links s.ls o l) (hl : ∀ x ∈ l, s.status x = .live) (hs : ∀ x, o = some x → ¬ s.linking x) :
    ∃ w, Links s.next o w ∧ w.filter live = l.filter vis ∧ ∀ x ∈ w, s.status x = .live ∨ s.status x = .dead := by
  induction k generalizing o l with
  | zero =>
    cases h with
    | nil => exact ⟨[], .nil, rfl, by simp⟩
    | cons _ => simp at hk
  | succ k ih =>
    cases h with
    | nil => exact ⟨[], .nil, rfl, by simp⟩
    | @cons x l h =>
      have hx : s.status x = .live := hl x (List.mem_cons_self ..)
      have hxl : live x = true := (hlv x).2 hx
      have hxv : vis x = true := (hv x).2 (hs x rfl)
      have linked : ∀ y z, s.ls y = some z → s.linking z → ∃ nx, s.op y = .s4 z nx := by
        rintro y z hy ⟨m, nx, hm⟩
        have h1 := (hi.lsp m z (hi.s4Ls m z nx hm).1).1
        rw [(hi.lsp y z hy).1] at h1
        cases h1
        exact ⟨nx, hm⟩
      cases hh : (s.op x).half with
      | false =>
        have hn := hi.next x hx hh
        obtain ⟨w, hw, e, hst⟩ := ih (by simpa using hk) h (fun y hy => hl y (List.mem_cons_of_mem _ hy)) fun z hz hlz => by
          obtain ⟨nx, h1⟩ := linked x z hz hlz
          simp [h1, Op.half] at hh
        refine ⟨x :: w, .cons (hn ▸ hw), ?_, List.forall_mem_cons.2 ⟨.inl hx, hst⟩⟩
        rw [List.filter_cons_of_pos hxl, List.filter_cons_of_pos hxv, e]
      | true =>
        have : ∃ nr nx, s.op x = .s4 nr nx := by
          revert hh
          cases s.op x <;> simp [Op.half]
        obtain ⟨nr, nx, ho⟩ := this
        obtain ⟨h1, h2⟩ := hi.s4Ls x nr nx ho
        have hnr : s.op nr = .idle := hi.rightIdle x nr (by simp [ho, Op.right])
        rw [h1] at h
        cases h with
        | @cons _ l h =>
          obtain ⟨w, hw, e, hst⟩ := ih (by simp at hk; omega) h
            (fun y hy => hl y (List.mem_cons_of_mem _ (List.mem_cons_of_mem _ hy))) fun z hz hlz => by
              obtain ⟨nx, h1⟩ := linked nr z hz hlz
              simp [hnr] at h1
          obtain ⟨d, hd, hdead⟩ := h2.links hw
          refine ⟨x :: (d ++ w), .cons ((hi.lockNext x nx (by simp [ho, Op.locked])).1.symm ▸ hd), ?_,
            List.forall_mem_cons.2 ⟨.inl hx, List.forall_mem_append.2 ⟨fun y hy => .inr (hdead y hy), hst⟩⟩⟩
          have hnv : ¬ vis nr = true := by rw [hv]; exact fun h => h ⟨x, nx, ho⟩
          rw [List.filter_cons_of_pos hxl, List.filter_cons_of_pos hxv, List.filter_cons_of_neg hnv, List.filter_append,
            List.filter_eq_nil_iff.2 fun y hy => by rw [hlv, hdead y hy]; simp, List.nil_append, e]

/-- Steps of the operation on `n` alone. -/
inductive Own (key : Nat → Nat) (n : Nat) : State → State → Prop where
  | refl (s : State) : Own key n s s
  | step {s t u : State} (hs : Step key s t) (hn : s.op n ≠ .idle) (ho : ∀ m, m ≠ n → t.op m = s.op m) (h : Own key n t u) :
      Own key n s u

/-- The operation on `n` can finish by itself. -/
def Fin (key : Nat → Nat) (n : Nat) (s : State) : Prop := ∃ t, Own key n s t ∧ t.op n = .idle

section
variable {key : Nat → Nat} {n : Nat} {s t : State}

theorem fin_step (hs : Step key s t) (hn : s.op n ≠ .idle) (ho : ∀ m, m ≠ n → t.op m = s.op m) (h : Fin key n t) :
    Fin key n s := by
  obtain ⟨u, h1, h2⟩ := h
  exact ⟨u, .step hs hn ho h1, h2⟩

theorem fin_idle (h : s.op n = .idle) : Fin key n s := ⟨s, .refl s, h⟩

theorem fin_s4 {nr : Nat} {nx : Option Nat} (h : s.op n = .s4 nr nx) : Fin key n s :=
  fin_step (.s4 n nr nx h) (by simp [h]) (fun m hm => Function.update_of_ne hm ..) (fin_idle (Function.update_self ..))

theorem fin_s3 {nr : Nat} {nx : Option Nat} (h : s.op n = .s3 nr nx) : Fin key n s :=
  fin_step (.s3 n nr nx h) (by simp [h]) (fun m hm => Function.update_of_ne hm ..) (fin_s4 (Function.update_self ..))

theorem fin_s2 {nr : Nat} {nx : Option Nat} (h : s.op n = .s2 nr nx) : Fin key n s :=
  fin_step (.s2 n nr nx h) (by simp [h]) (fun m hm => Function.update_of_ne hm ..) (fin_s3 (Function.update_self ..))

theorem fin_s1 {nr : Nat} (h : s.op n = .s1 nr) (hm : s.next n ≠ none → s.mark n = false) : Fin key n s := by
  cases hx : s.next n with
  | none =>
    exact fin_step (.s1null n nr h hx) (by simp [h]) (fun m hm => Function.update_of_ne hm ..)
      (fin_s2 (Function.update_self ..))
  | some b =>
    exact fin_step (.s1 n nr b h hx (hm (by simp [hx]))) (by simp [h]) (fun m hm => Function.update_of_ne hm ..)
      (fin_s2 (Function.update_self ..))

theorem fin_s0 {nr : Nat} (h : s.op n = .s0 nr) (hm : s.next n ≠ none → s.mark n = false) : Fin key n s :=
  fin_step (.s0 n nr h) (by simp [h]) (fun m hm => Function.update_of_ne hm ..) (fin_s1 (Function.update_self ..) hm)

theorem fin_u5 {nx : Option Nat} {p : Nat} (h : s.op n = .u5 nx p) : Fin key n s :=
  fin_step (.u5 n p nx h) (by simp [h]) (fun m hm => Function.update_of_ne hm ..) (fin_idle (Function.update_self ..))

theorem fin_u4 {nx : Option Nat} {p : Nat} (h : s.op n = .u4 nx p) : Fin key n s :=
  fin_step (.u4 n p nx h) (by simp [h]) (fun m hm => Function.update_of_ne hm ..) (fin_u5 (Function.update_self ..))

/-- The other operations are unlinks further right that do not hold a predecessor. -/
def Leftmost (key : Nat → Nat) (n : Nat) (s : State) : Prop :=
  ∀ m, m ≠ n → s.op m = .idle ∨ (key n < key m ∧ (s.op m).holds = none)

theorem Leftmost.keep (h : Leftmost key n s) (ho : ∀ m, m ≠ n → t.op m = s.op m) : Leftmost key n t := by
  intro m hm
  rw [ho m hm]
  exact h m hm

theorem leftmost_pred (hi : Inv key s) (hq : Leftmost key n s) (hn : (s.op n).unlinks = true) (hh : (s.op n).holds = none) :
    ∃ q, s.prev n = some q ∧ s.next q = some n ∧ s.mark q = false := by
  have hl : s.status n = .live := hi.opLive n (by intro h; simp [h, Op.unlinks] at hn)
  cases hp : s.lp n with
  | none => exact absurd hp (hi.others n hl (hi.notFirst n hn))
  | some q =>
    have hls := hi.lps q n hp
    obtain ⟨-, hql, -, hk⟩ := hi.lsp q n hls
    have hne : q ≠ n := by rintro rfl; omega
    have hqi : s.op q = .idle := by
      rcases hq q hne with h | h
      · exact h
      · omega
    have hnx : s.next q = some n := (hi.next q hql (by simp [hqi, Op.half])).trans hls
    refine ⟨q, hi.prev q n hls (by simp [hqi, Op.moved]), hnx, ?_⟩
    cases hm : s.mark q with
    | false => rfl
    | true =>
      have := hi.marked q n hql hm (by simp [hqi, Op.locked]) hnx
      rw [hh] at this
      cases this

theorem fin_u2 {nx : Option Nat} (hi : Inv key s) (hq : Leftmost key n s) (h : s.op n = .u2 nx) : Fin key n s := by
  obtain ⟨q, h1, h2, h3⟩ := leftmost_pred hi hq (by simp [h, Op.unlinks]) (by simp [h, Op.holds])
  refine fin_step (.u2 n q nx h h1) (by simp [h]) (fun m hm => Function.update_of_ne hm ..) ?_
  exact fin_step (.u3 n q nx (Function.update_self ..) h2 h3) (by simp) (fun m hm => Function.update_of_ne hm ..)
    (fin_u4 (Function.update_self ..))

theorem fin_u3 {nx : Option Nat} {p : Nat} (hi : Inv key s) (hq : Leftmost key n s) (h : s.op n = .u3 nx p) :
    Fin key n s := by
  by_cases hc : s.next p = some n ∧ s.mark p = false
  · exact fin_step (.u3 n p nx h hc.1 hc.2) (by simp [h]) (fun m hm => Function.update_of_ne hm ..)
      (fin_u4 (Function.update_self ..))
  · have hs : Step key s _ := .u3fail n p nx h hc
    have ho : ∀ m, m ≠ n → Function.update s.op n (Op.u2 nx) m = s.op m := fun m hm => Function.update_of_ne hm ..
    exact fin_step hs (by simp [h]) ho (fin_u2 (step_inv hi hs) (hq.keep ho) (Function.update_self ..))

theorem fin_u1 (hi : Inv key s) (hq : Leftmost key n s) (h : s.op n = .u1) (hm : s.next n ≠ none → s.mark n = false) :
    Fin key n s := by
  cases hx : s.next n with
  | none =>
    have hs : Step key s _ := .u1null n h hx
    have ho : ∀ m, m ≠ n → Function.update s.op n (Op.u2 none) m = s.op m := fun m hm => Function.update_of_ne hm ..
    exact fin_step hs (by simp [h]) ho (fin_u2 (step_inv hi hs) (hq.keep ho) (Function.update_self ..))
  | some b =>
    have hs : Step key s _ := .u1 n b h hx (hm (by simp [hx]))
    have ho : ∀ m, m ≠ n → Function.update s.op n (Op.u2 (some b)) m = s.op m := fun m hm => Function.update_of_ne hm ..
    exact fin_step hs (by simp [h]) ho (fin_u2 (step_inv hi hs) (hq.keep ho) (Function.update_self ..))

end

end Verif.Leaflink
