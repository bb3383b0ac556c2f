import Verif.Tree.Leaf

/-!
Invariant of a whole layer, its contents in order, and what edits have to establish.
-/
namespace Verif.Tree
open Verif.Permuter (Word)
variable {α : Type}

mutual
/-- The slots in use in a (sub)tree, from left to right. -/
def entries : Node α → List (Slot α)
  | .null => []
  | .leaf perm slots => leafEntries perm slots
  | .inode _ _ kids => entriesL kids
def entriesL : List (Node α) → List (Slot α)
  | [] => []
  | c :: cs => entries c ++ entriesL cs
end

/-- Height of a node: 0 for a leaf, `height_` for an internode. -/
def height : Node α → Nat
  | .inode ht _ _ => ht
  | _ => 0

mutual
/-- A subtree responsible for slices in `[lo, hi)`; `lo = none` exactly on the left spine. -/
def Inv (lo hi : Option Nat) : Node α → Prop
  | .null => False
  | .leaf perm slots => LeafInv lo hi perm slots
  | .inode ht keys kids => keys.length ≤ 15 ∧ Chain true lo hi ht keys kids
/-- Children `kids` separated by `keys`, covering `[lo, hi)`.  Only the first child of an
internode (`first`) may be missing, and then its interval is empty. -/
def Chain (first : Bool) (lo hi : Option Nat) (ht : Nat) : List Nat → List (Node α) → Prop
  | [], c :: [] => Inv lo hi c ∧ height c < ht
  | k :: ks, c :: cs =>
    ((c = .null ∧ first = true ∧ lo = some k) ∨ (Inv lo (some k) c ∧ height c < ht ∧ loLt lo k)) ∧
      ltHi k hi ∧ Chain false (some k) hi ht ks cs
  | _, _ => False
end

/-- Result of an insertion below a node of height `h0` responsible for `[lo, hi)`: the
contents become `res`. -/
def Ins.Ok (lo hi : Option Nat) (h0 : Nat) (res : List (Slot α)) : Ins α → Prop
  | .fail => False
  | .done n => Inv lo hi n ∧ height n = h0 ∧ entries n = res
  | .split h _ l k r => h = h0 ∧ Inv lo (some k) l ∧ Inv (some k) hi r ∧ height l = h ∧ height r = h ∧
      loLt lo k ∧ ltHi k hi ∧ entries l ++ entries r = res

/-- Result of a removal below a node of height `h0` responsible for `[lo, hi)`: the contents
become `res`. -/
def Rem.Ok (lo hi : Option Nat) (h0 : Nat) (isRoot : Bool) (res : List (Slot α)) : Rem α → Prop
  | .fail => False
  | .stop n none _ => Inv lo hi n ∧ height n ≤ h0 ∧ entries n = res
  | .stop n (some (ik, nk)) _ => Inv (some nk) hi n ∧ height n ≤ h0 ∧ entries n = res ∧
      inR lo hi ik ∧ lo ≠ none ∧ loLe lo nk ∧ ltHi nk hi
  | .up ik repl => isRoot = false ∧ inR lo hi ik ∧
      ((repl = .null ∧ lo ≠ none ∧ res = []) ∨ (Inv lo hi repl ∧ height repl ≤ h0 ∧ entries repl = res))

theorem entriesL_append (a b : List (Node α)) : entriesL (a ++ b) = entriesL a ++ entriesL b := by
  induction a with
  | nil => simp [entriesL]
  | cons c cs ih => simp [entriesL, ih]

/-- Induction over nodes. -/
theorem Node.ind {P : Node α → Prop} (h0 : P .null) (h1 : ∀ p s, P (.leaf p s))
    (h2 : ∀ ht keys kids, (∀ c ∈ kids, P c) → P (.inode ht keys kids)) (n : Node α) : P n := by
  refine Node.rec (motive_1 := P) (motive_2 := fun l => ∀ c ∈ l, P c) h0 h1 h2 ?_ ?_ n
  · simp
  · intro c cs hc hcs d hd
    rcases List.mem_cons.mp hd with rfl | h
    · exact hc
    · exact hcs _ h

/-- The upper end of a node's interval may grow: it is not stored. -/
theorem Inv.mono_hi {n : Node α} : ∀ {lo hi hi' : Option Nat}, Inv lo hi n →
    (∀ x, ltHi x hi → ltHi x hi') → Inv lo hi' n := by
  induction n using Node.ind with
  | h0 => intro lo hi hi' h; simp [Inv] at h
  | h1 p s =>
    intro lo hi hi' h hh
    simp only [Inv] at h ⊢
    exact ⟨h.ord, h.len, h.sorted, fun s hs => ⟨(h.range s hs).1, hh _ (h.range s hs).2⟩, h.bound⟩
  | h2 ht keys kids ih =>
    intro lo hi hi' h hh
    simp only [Inv] at h ⊢
    refine ⟨h.1, ?_⟩
    have key : ∀ (kids : List (Node α)) (keys : List Nat) (b : Bool) (lo : Option Nat),
        (∀ c ∈ kids, ∀ {lo hi hi' : Option Nat}, Inv lo hi c → (∀ x, ltHi x hi → ltHi x hi') → Inv lo hi' c) →
        Chain b lo hi ht keys kids → Chain b lo hi' ht keys kids := by
      intro kids
      induction kids with
      | nil => intro keys b lo _ hc; cases keys <;> simp [Chain] at hc
      | cons c cs ihc =>
        intro keys b lo hi1 hc
        cases keys with
        | nil =>
          cases cs with
          | nil =>
            simp only [Chain] at hc ⊢
            exact ⟨hi1 c (by simp) hc.1 hh, hc.2⟩
          | cons _ _ => simp [Chain] at hc
        | cons k ks =>
          simp only [Chain] at hc ⊢
          exact ⟨hc.1, hh _ hc.2.1, ihc ks false _ (fun d hd => hi1 d (by simp [hd])) hc.2.2⟩
    exact key kids keys true lo ih h.2

/-- Contents are sorted and lie in the node's interval. -/
theorem Inv.sorted_range {n : Node α} : ∀ {lo hi : Option Nat}, Inv lo hi n →
    SSorted (entries n) ∧ ∀ s ∈ entries n, inR lo hi s.ikey := by
  induction n using Node.ind with
  | h0 => intro lo hi h; simp [Inv] at h
  | h1 p s =>
    intro lo hi h
    simp only [Inv] at h
    exact ⟨h.sorted, h.range⟩
  | h2 ht keys kids ih =>
    intro lo hi h
    simp only [Inv] at h
    simp only [entries]
    have key : ∀ (kids : List (Node α)) (keys : List Nat) (b : Bool) (lo : Option Nat),
        (∀ c ∈ kids, ∀ {lo hi : Option Nat}, Inv lo hi c →
          SSorted (entries c) ∧ ∀ s ∈ entries c, inR lo hi s.ikey) →
        Chain b lo hi ht keys kids →
        SSorted (entriesL kids) ∧ ∀ s ∈ entriesL kids, inR lo hi s.ikey := by
      intro kids
      induction kids with
      | nil => intro keys b lo _ hc; cases keys <;> simp [Chain] at hc
      | cons c cs ihc =>
        intro keys b lo hi1 hc
        cases keys with
        | nil =>
          cases cs with
          | nil =>
            simp only [Chain] at hc
            simp only [entriesL, List.append_nil]
            exact hi1 c (by simp) hc.1
          | cons _ _ => simp [Chain] at hc
        | cons k ks =>
          simp only [Chain] at hc
          simp only [entriesL]
          have hr := ihc ks false _ (fun d hd => hi1 d (by simp [hd])) hc.2.2
          have hlo : loLe lo k := by
            rcases hc.1 with ⟨_, _, h⟩ | ⟨_, _, h⟩
            · subst h; simp
            · exact h.le
          have hr2 : ∀ s ∈ entriesL cs, inR lo hi s.ikey := fun s hs =>
            ⟨hlo.mono (hr.2 s hs).1, (hr.2 s hs).2⟩
          rcases hc.1 with ⟨h1, _, _⟩ | ⟨h1, _, _⟩
          · subst h1
            simp only [entries, List.nil_append]
            exact ⟨hr.1, hr2⟩
          · have hcc := hi1 c (by simp) h1
            constructor
            · unfold SSorted
              rw [List.pairwise_append]
              refine ⟨hcc.1, hr.1, ?_⟩
              intro a ha b' hb
              have h1 := (hcc.2 a ha).2
              have h2 := (hr.2 b' hb).1
              simp only [ltHi_some, loLe_some] at h1 h2
              exact .inl (by simp only [Slot.key]; omega)
            · intro s hs
              rcases List.mem_append.mp hs with hs | hs
              · have := hcc.2 s hs
                refine ⟨this.1, hc.2.1.mono ?_⟩
                have := this.2; simp only [ltHi_some] at this; omega
              · exact hr2 s hs
    exact key kids keys true lo ih h.2

end Verif.Tree
