import Verif.JsonArr.Changes

/-!
# Programs with Json variables
-/
namespace Verif.JsonArr

/-- The statements for which values behave: the source of an assignment is not (part of) the
variable that is changed. -/
def Safe : Op → Prop
  | .edit _ _ _ => True
  | .assign x p y => x ≠ y ∨ p = []
  | .move x _ y => x ≠ y
  | .insert _ _ _ _ => True
  | .read y x p => y ≠ x ∨ p = []

theorem Rep.congr {h D R R'} (hr : Rep h D R)
    (hc : ∀ a, R'.count (.arr (some a)) = R.count (.arr (some a))) : Rep h D R' := by
  refine ⟨hr.den, ?_, ?_, hr.fits, hr.pos⟩
  · intro a n hg; rw [hc]; exact hr.cnt a n hg
  · intro a hg; rw [hc]; exact hr.dead a hg

theorem count_erase {l : List Val} {x : Nat} {v : Val} (hv : l[x]? = some v) (c : Val) :
    l.count c = [v].count c + (l.eraseIdx x).count c := by
  induction l generalizing x with
  | nil => simp at hv
  | cons e l ih =>
    cases x with
    | zero =>
      simp at hv; subst hv
      simp only [List.eraseIdx_cons_zero, List.count_cons, List.count_nil]; omega
    | succ x =>
      have := ih (x := x) (by simpa using hv)
      simp only [List.eraseIdx_cons_succ, List.count_cons, List.count_nil] at this ⊢; omega

theorem count_set_erase {l : List Val} {x : Nat} {v : Val} (hv : l[x]? = some v) (v' c : Val) :
    (l.set x v').count c = [v'].count c + (l.eraseIdx x).count c := by
  have h1 := count_erase hv c
  have h2 := count_set hv v' c
  omega

theorem count_cons' (v : Val) (l : List Val) (c : Val) :
    (v :: l).count c = [v].count c + l.count c := by
  simp only [List.count_cons, List.count_nil]; omega

theorem mem_erase {l : List Val} {x j : Nat} {u : Val} (hj : l[j]? = some u) (hne : j ≠ x) :
    u ∈ l.eraseIdx x := List.mem_eraseIdx_iff_getElem?.2 ⟨j, hne, hj⟩

theorem map_set_eq {D D' : Nat → List JV} {l : List Val} {x : Nat} {v' : Val}
    (hv : ∀ u ∈ l.eraseIdx x, dv D' u = dv D u) :
    (l.set x v').map (dv D') = (l.map (dv D)).set x (dv D' v') := by
  apply List.ext_getElem?
  intro j
  rw [List.getElem?_map]
  by_cases hj : j = x
  · subst hj
    by_cases hl : j < l.length
    · simp [hl]
    · simp [Nat.not_lt.1 hl]
  · rw [List.getElem?_set_ne (Ne.symm hj), List.getElem?_set_ne (Ne.symm hj), List.getElem?_map]
    cases hu : l[j]? with
    | none => rfl
    | some u => simp [hv u (mem_erase hu hj)]

theorem modify_map {α β : Type} (φ : α → β) (g : JV → Option (JV × α)) :
    ∀ (p : List Nat) (t : JV), Spec.modify (fun t => (g t).map fun r => (r.1, φ r.2)) p t
      = (Spec.modify g p t).map fun r => (r.1, φ r.2)
  | [], t => rfl
  | i :: p, t => by
    simp only [Spec.modify, modify_map φ g p]
    cases Spec.modify g p ((Spec.pad i t).getD i .null) <;> rfl

theorem rep_var {h D} {vars : List Val} {x : Nat} {v : Val} (hr : Rep h D vars)
    (hv : vars[x]? = some v) : Rep h D (v :: vars.eraseIdx x) :=
  hr.congr fun a => by rw [count_cons']; exact (count_erase hv _).symm

theorem rep_back {h D} {vars : List Val} {x : Nat} {v v' : Val}
    (hr : Rep h D (v' :: vars.eraseIdx x)) (hv : vars[x]? = some v) : Rep h D (vars.set x v') :=
  hr.congr fun a => by rw [count_cons', count_set_erase hv]

/-! ## Reading elements -/

theorem getPath_ok {h D R} (hr : Rep h D R) : ∀ (p : List Nat) (v : Val) (b : Option Nat),
    (∀ a, v = .arr (some a) → ∃ n, get h a = some n) →
    ∃ w b', getPath h p v b = some (w, b') ∧ dv D w = Spec.read p (dv D v) ∧
      (∀ a, w = .arr (some a) → ∃ n, get h a = some n) ∧
      (∀ a, b' = some a → b = some a ∨ ∃ n, get h a = some n)
  | [], v, b, hv => ⟨v, b, rfl, rfl, hv, fun a ha => .inl ha⟩
  | i :: p, v, b, hv => by
    have hnull : ∃ w b', getPath h p .null none = some (w, b') ∧
        dv D w = Spec.read p .null ∧ (∀ a, w = .arr (some a) → ∃ n, get h a = some n) ∧
        (∀ a, b' = some a → b = some a ∨ ∃ n, get h a = some n) := by
      obtain ⟨w, b', h1, h2, h3, h4⟩ := getPath_ok hr p .null none (by simp)
      refine ⟨w, b', h1, h2, h3, fun a ha => ?_⟩
      rcases h4 a ha with h4 | h4
      · cases h4
      · exact .inr h4
    match v, hv with
    | .null, hv => exact hnull
    | .num _, hv => exact hnull
    | .arr none, hv => simpa [getPath, Spec.read, dv] using hnull
    | .arr (some a), hv =>
      obtain ⟨n, hg⟩ := hv a rfl
      simp only [getPath, hg, dv_arr, Spec.read]
      rw [hr.den a n hg]
      cases he : n.elems[i]? with
      | none => simpa [he] using hnull
      | some w =>
        obtain ⟨w', b', h1, h2, h3, h4⟩ := getPath_ok hr p w (some a) (by
          intro c hc
          exact hr.live_elem hg (hc ▸ List.mem_of_getElem? he))
        refine ⟨w', b', h1, by simpa [he] using h2, h3, fun c hc => ?_⟩
        rcases h4 c hc with h4 | h4
        · cases h4; exact .inr ⟨n, hg⟩
        · exact .inr h4

theorem getPath_same {h h2 D R} (hr : Rep h2 D R)
    (hk : ∀ a n', get h2 a = some n' → ∃ n, get h a = some n ∧ n'.elems = n.elems) :
    ∀ (p : List Nat) (v : Val) (b : Option Nat),
    (∀ a, v = .arr (some a) → ∃ n, get h2 a = some n) → getPath h2 p v b = getPath h p v b
  | [], v, b, hv => rfl
  | i :: p, v, b, hv => by
    have hnull := getPath_same hr hk p .null none (by simp)
    match v, hv with
    | .null, hv => simpa [getPath] using hnull
    | .num _, hv => simpa [getPath] using hnull
    | .arr none, hv => simpa [getPath] using hnull
    | .arr (some a), hv =>
      obtain ⟨n', hg'⟩ := hv a rfl
      obtain ⟨n, hg, he⟩ := hk a n' hg'
      simp only [getPath, hg', hg, he]
      cases hi : n.elems[i]? with
      | none => exact hnull
      | some w =>
        exact getPath_same hr hk p w (some a) fun c hc =>
          hr.live_elem hg' (hc ▸ he ▸ List.mem_of_getElem? hi)

theorem ref_keeps {h v h'} (hr : ref h v = some h') : ∀ a n', get h' a = some n' →
    ∃ n, get h a = some n ∧ n'.elems = n.elems := by
  intro a n' hg
  match v with
  | .null => simp [ref] at hr; subst hr; exact ⟨n', hg, rfl⟩
  | .num _ => simp [ref] at hr; subst hr; exact ⟨n', hg, rfl⟩
  | .arr none => simp [ref] at hr; subst hr; exact ⟨n', hg, rfl⟩
  | .arr (some b) =>
    simp only [ref] at hr
    cases hb : get h b with
    | none => simp [hb] at hr
    | some n =>
      simp only [hb, Option.some.injEq] at hr
      subst hr
      rw [get_set hb] at hg
      split at hg
      · cases hg; subst a; exact ⟨n, hb, rfl⟩
      · exact ⟨n', hg, rfl⟩

/-! ## Statements and programs -/

/-- What a state is, given the values of its variables. -/
def Means (s : State) (env : List JV) : Prop :=
  ∃ D, Rep s.heap D s.vars ∧ s.vars.map (dv D) = env

theorem var_of {D : Nat → List JV} {vars : List Val} {x : Nat} {t : JV}
    (hx : (vars.map (dv D))[x]? = some t) : ∃ v, vars[x]? = some v ∧ dv D v = t := by
  rw [List.getElem?_map] at hx
  exact Option.map_eq_some_iff.1 hx

/-- A change to an element of a variable, nothing used up or handed out. -/
theorem change_ok {w f} {g : JV → JV → Option JV}
    (hf : ChangeOK [] w f fun u _ t => (g u t).map (·, [])) {h D vars x v p r}
    (hr : Rep h D vars) (hv : vars[x]? = some v) (hw : w = .null ∨ w ∈ vars.eraseIdx x)
    (hg : Spec.modify (fun t => (g (dv D w) t).map (·, ())) p (dv D v) = some r) :
    ∃ h' v' D', modify f p h v = some (h', v', []) ∧ Rep h' D' (vars.set x v') ∧
      (vars.set x v').map (dv D') = (vars.map (dv D)).set x r.1 := by
  have hg' : Spec.modify (fun t => (g (dv D w) t).map (·, ([] : List JV))) p (dv D v)
      = some (r.1, []) := by
    have := modify_map (fun _ : Unit => ([] : List JV)) (fun t => (g (dv D w) t).map (·, ())) p
      (dv D v)
    rw [hg] at this
    simp only [Option.map_map] at this
    exact this
  obtain ⟨h', v', out, D', he, hr', hd, ho, hu, _⟩ :=
    modify_ok hf p h D v (vars.eraseIdx x) (r.1, []) (by simpa using rep_var hr hv) hw hg'
  have : out = [] := by simpa using ho
  subst this
  refine ⟨h', v', D', he, rep_back (by simpa using hr') hv, ?_⟩
  rw [map_set_eq hu, hd]

theorem step_ok {s env o env'} (hm : Means s env) (hs : Safe o)
    (he : Spec.step env o = some env') : ∃ s', step s o = some s' ∧ Means s' env' := by
  obtain ⟨D, hr, rfl⟩ := hm
  cases o with
  | edit x p e =>
    simp only [Spec.step, Option.bind_eq_bind, Option.bind_eq_some_iff] at he
    obtain ⟨t, hx, r, hg, he⟩ := he
    cases he
    obtain ⟨v, hv, rfl⟩ := var_of hx
    obtain ⟨h', v', D', h1, h2, h3⟩ := change_ok (g := fun _ t => Spec.edit e t) (edit_ok e)
      hr hv (.inl rfl) hg
    exact ⟨⟨h', s.vars.set x v'⟩, by simp [step, hv, h1], D', h2, h3⟩
  | assign x p y =>
    simp only [Spec.step, Option.bind_eq_bind, Option.bind_eq_some_iff] at he
    obtain ⟨u, hy, t, hx, r, hg, he⟩ := he
    cases he
    obtain ⟨v, hv, rfl⟩ := var_of hx
    obtain ⟨w, hw, rfl⟩ := var_of hy
    by_cases hxy : x = y
    · subst hxy
      have hp : p = [] := by simpa [Safe] using hs
      subst hp
      rw [hv] at hw; cases hw
      simp only [Spec.modify, Option.some.injEq] at hg
      subst hg
      obtain ⟨h', h1, h2⟩ := assign_self_ok (rep_var hr hv)
      refine ⟨⟨h', s.vars.set x v⟩, by simp [step, sourceOf, modify, hv, h1], D,
        rep_back h2 hv, ?_⟩
      exact map_set_eq fun _ _ => rfl
    · have hsrc : sourceOf s x p y = some (s, w) := by
        cases p <;> simp [sourceOf, hw, hxy]
      obtain ⟨h', v', D', h1, h2, h3⟩ := change_ok (g := fun u _ => some u)
        (by simpa using assign_ok w) hr hv (.inr (mem_erase hw (Ne.symm hxy))) hg
      exact ⟨⟨h', s.vars.set x v'⟩, by simp [step, hsrc, hv, h1], D', h2, h3⟩
  | move x p y =>
    simp only [Spec.step, Option.bind_eq_bind, Option.bind_eq_some_iff] at he
    obtain ⟨u, hy, t, hx, r, hg, he⟩ := he
    cases he
    obtain ⟨v, hv, rfl⟩ := var_of hx
    obtain ⟨w, hw, rfl⟩ := var_of hy
    have hxy : x ≠ y := hs
    have hv0 : (s.vars.set y .null)[x]? = some v := by
      rw [List.getElem?_set_ne (Ne.symm hxy)]; exact hv
    have hr0 : Rep s.heap D (v :: ([w] ++ (s.vars.set y .null).eraseIdx x)) := by
      refine hr.congr fun a => ?_
      have h1 := count_erase hv0 (.arr (some a))
      have h2 := count_set hw .null (.arr (some a))
      rw [count_cons', List.count_append]
      have h3 : [Val.null].count (Val.arr (some a)) = 0 := by simp
      omega
    have hg' : Spec.modify (fun t => some (dv D w, [t])) p (dv D v) = some (r.1, [r.2]) := by
      have := modify_map (fun t : JV => [t]) (fun t => some (dv D w, t)) p (dv D v)
      rw [hg] at this
      exact this
    obtain ⟨h', v', out, D', he, hr', hd, ho, hu, _⟩ :=
      modify_ok (moveIn_ok w) p s.heap D v _ (r.1, [r.2]) hr0 (.inl rfl) hg'
    obtain ⟨o, rfl⟩ : ∃ o, out = [o] := by
      cases out with
      | nil => simp at ho
      | cons o out => cases out with
        | nil => exact ⟨o, rfl⟩
        | cons _ _ => simp at ho
    simp only [List.map_cons, List.map_nil, List.cons.injEq, and_true] at ho
    refine ⟨⟨h', (s.vars.set y o).set x v'⟩, by simp [step, hv, hw, he], D', ?_, ?_⟩
    · refine hr'.congr fun a => ?_
      have hv1 : (s.vars.set y o)[x]? = some v := by
        rw [List.getElem?_set_ne (Ne.symm hxy)]; exact hv
      have h1 := count_set hv1 v' (.arr (some a))
      have h2 := count_set hw o (.arr (some a))
      have h3 := count_erase hv0 (.arr (some a))
      have h4 := count_set hw .null (.arr (some a))
      have h5 : [Val.null].count (Val.arr (some a)) = 0 := by simp
      rw [count_cons', List.count_append]
      simp only at *
      omega
    · apply List.ext_getElem?
      intro j
      simp only [List.getElem?_map]
      by_cases hjx : j = x
      · subst hjx
        have hl : j < s.vars.length := (List.getElem?_eq_some_iff.1 hv).1
        simp [hl, hd]
      · rw [List.getElem?_set_ne (Ne.symm hjx), List.getElem?_set_ne (Ne.symm hjx)]
        by_cases hjy : j = y
        · subst hjy
          have hl : j < s.vars.length := (List.getElem?_eq_some_iff.1 hw).1
          simp [hl, ho]
        · rw [List.getElem?_set_ne (Ne.symm hjy), List.getElem?_set_ne (Ne.symm hjy),
            List.getElem?_map]
          cases hj : s.vars[j]? with
          | none => rfl
          | some u =>
            simp only [Option.map_some]
            rw [hu u]
            apply mem_erase (j := j) _ hjx
            rw [List.getElem?_set_ne (Ne.symm hjy)]; exact hj
  | insert x p k y =>
    simp only [Spec.step, Option.bind_eq_bind, Option.bind_eq_some_iff] at he
    obtain ⟨u, hy, t, hx, r, hg, he⟩ := he
    cases he
    obtain ⟨v, hv, rfl⟩ := var_of hx
    obtain ⟨w, hw, rfl⟩ := var_of hy
    obtain ⟨h1, he1, hr1, _, _, _⟩ := ref_ok (v := w) hr (by
      intro a ha
      exact hr.live_root (ha ▸ List.mem_of_getElem? hw))
    have hr0 : Rep h1 D (v :: ([w] ++ s.vars.eraseIdx x)) := by
      refine hr1.congr fun a => ?_
      have h1 := count_erase hv (.arr (some a))
      rw [count_cons' v, List.count_append, count_cons' w s.vars]
      omega
    have hg' : Spec.modify (fun t => (Spec.insert k (dv D w) t).map (·, ([] : List JV))) p (dv D v)
        = some (r.1, []) := by
      have := modify_map (fun _ : Unit => ([] : List JV))
        (fun t => (Spec.insert k (dv D w) t).map (·, ())) p (dv D v)
      rw [hg] at this
      simp only [Option.map_map] at this
      exact this
    obtain ⟨h', v', out, D', he, hr', hd, ho, hu, _⟩ :=
      modify_ok (insertAt_ok k w) p h1 D v _ (r.1, []) hr0 (.inl rfl) hg'
    have : out = [] := by simpa using ho
    subst this
    refine ⟨⟨h', s.vars.set x v'⟩, by simp [step, hv, hw, he1, he], D',
      rep_back (by simpa using hr') hv, ?_⟩
    rw [map_set_eq hu, hd]
  | read y x p =>
    simp only [Spec.step, Option.bind_eq_bind, Option.bind_eq_some_iff] at he
    obtain ⟨t, hx, u, hy, he⟩ := he
    cases he
    obtain ⟨v, hv, rfl⟩ := var_of hx
    obtain ⟨o, ho, rfl⟩ := var_of hy
    obtain ⟨w, b, hp, hd, hwl, hbl⟩ := getPath_ok hr p v none fun a ha =>
      hr.live_root (ha ▸ List.mem_of_getElem? hv)
    obtain ⟨h1, he1, hr1, _, _, _⟩ := ref_ok (v := w) hr hwl
    obtain ⟨h2, he2, hr2, _⟩ := drop_ok (h := h1) (D := D) (ws := [o])
      (R := w :: s.vars.eraseIdx y) (by
        refine hr1.congr fun a => ?_
        have h1 := count_erase ho (.arr (some a))
        rw [List.count_append, count_cons' w (s.vars.eraseIdx y), count_cons' w s.vars]
        omega)
    have hfin : Means ⟨h2, s.vars.set y w⟩ ((s.vars.map (dv D)).set y (Spec.read p (dv D v))) :=
      ⟨D, rep_back hr2 ho, by rw [← hd]; exact map_set_eq fun _ _ => rfl⟩
    refine ⟨⟨h2, s.vars.set y w⟩, ?_, hfin⟩
    cases b with
    | none => simp [step, hv, hp, he1, ho, he2]
    | some a =>
      have hyx : y ≠ x := by
        rcases hs with hs | hs
        · exact hs
        · subst hs; simp [getPath] at hp
      have hvl : v ∈ s.vars.eraseIdx y := mem_erase hv (Ne.symm hyx)
      have hsame := getPath_same (h := s.heap) hr2 (by
        intro c n' hc
        obtain ⟨n1, hn1, h3, _⟩ := dropF_keeps _ _ _ _ he2 c n' hc
        obtain ⟨n, hn, h4⟩ := ref_keeps he1 c n1 hn1
        exact ⟨n, hn, h3.trans h4⟩) p v none (fun c hc =>
          hr2.live_root (by simp [← hc, hvl]))
      obtain ⟨w', b', hp', _, _, hbl'⟩ := getPath_ok hr2 p v none fun c hc =>
        hr2.live_root (by simp [← hc, hvl])
      rw [hsame, hp] at hp'
      cases hp'
      rcases hbl' a rfl with h | ⟨n, hn⟩
      · cases h
      · simp [step, hv, hp, he1, ho, he2, hn]

theorem run_ok : ∀ (os : List Op) (s : State) (env env' : List JV), Means s env →
    (∀ o ∈ os, Safe o) → Spec.run env os = some env' →
    ∃ s', run s os = some s' ∧ Means s' env'
  | [], s, env, env', hm, _, he => by
    simp only [Spec.run, Option.some.injEq] at he; subst he; exact ⟨s, rfl, hm⟩
  | o :: os, s, env, env', hm, hs, he => by
    simp only [Spec.run, Option.bind_eq_bind, Option.bind_eq_some_iff] at he
    obtain ⟨env1, h1, h2⟩ := he
    obtain ⟨s1, h3, h4⟩ := step_ok hm (hs o (by simp)) h1
    obtain ⟨s2, h5, h6⟩ := run_ok os s1 env1 env' h4 (fun o ho => hs o (by simp [ho])) h2
    exact ⟨s2, by simp [run, h3, h5], h6⟩

end Verif.JsonArr
