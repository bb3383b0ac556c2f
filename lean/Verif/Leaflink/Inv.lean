import Verif.Leaflink.Model

/-!
# What holds of the leaf list in every reachable state
-/
namespace Verif.Leaflink

open Function (update)

/-- The value that `lock_next` returned to the operation, once it has returned. -/
def Op.locked : Op → Option (Option Nat)
  | .s2 _ nx | .s3 _ nx | .s4 _ nx | .u2 nx | .u3 nx _ | .u4 nx _ | .u5 nx _ => some nx
  | _ => none

/-- The leaf that a split has made and not yet linked to the right. -/
def Op.pending : Op → Option Nat
  | .s0 nr | .s1 nr | .s2 nr _ | .s3 nr _ => some nr
  | _ => none

/-- The new leaf of a split. -/
def Op.right : Op → Option Nat
  | .s0 nr | .s1 nr | .s2 nr _ | .s3 nr _ | .s4 nr _ => some nr
  | _ => none

def Op.unlinks : Op → Bool
  | .u1 | .u2 _ | .u3 _ _ | .u4 _ _ | .u5 _ _ => true
  | _ => false

/-- The leaf whose `next_` an unlink has marked besides its own. -/
def Op.holds : Op → Option Nat
  | .u4 _ p | .u5 _ p => some p
  | _ => none

/-- A split that has made its new leaf reachable from the right only. -/
def Op.half : Op → Bool
  | .s4 _ _ => true
  | _ => false

/-- The leaf whose `prev_` an unlink has already moved. -/
def Op.moved : Op → Option Nat
  | .u5 nx _ => nx
  | _ => none

/-- Following `next_` from the first through leaves that have been taken out one comes to the second. -/
inductive Leads (s : State) : Option Nat → Option Nat → Prop where
  | refl (t : Option Nat) : Leads s t t
  | dead {b : Nat} {t : Option Nat} (hb : s.status b = .dead) (h : Leads s (s.next b) t) : Leads s (some b) t

structure Inv (key : Nat → Nat) (s : State) : Prop where
  /-- the neighbours among live leaves -/
  lsp : ∀ x y, s.ls x = some y → s.lp y = some x ∧ s.status x = .live ∧ s.status y = .live ∧ key x < key y
  lps : ∀ x y, s.lp y = some x → s.ls x = some y
  first : s.status 0 = .live ∧ s.lp 0 = none ∧ s.prev 0 = none
  others : ∀ x, s.status x = .live → x ≠ 0 → s.lp x ≠ none
  keyInj : ∀ x y, s.status x = .live → s.status y = .live → key x = key y → x = y
  /-- operations -/
  opLive : ∀ n, s.op n ≠ .idle → s.status n = .live
  pendS : ∀ n nr, (s.op n).pending = some nr → s.status nr = .pending
  rightIdle : ∀ n nr, (s.op n).right = some nr → s.op nr = .idle
  rightInj : ∀ n m nr, (s.op n).right = some nr → (s.op m).right = some nr → n = m
  pendKey : ∀ n nr, (s.op n).pending = some nr → key n < key nr
  pendGap : ∀ n nr x, (s.op n).pending = some nr → s.status x = .live → key n < key x → key nr < key x
  notFirst : ∀ n, (s.op n).unlinks = true → n ≠ 0
  lockNext : ∀ n nx, (s.op n).locked = some nx → s.next n = nx ∧ (nx ≠ none → s.mark n = true)
  lockLs : ∀ n nx, (s.op n).locked = some nx → (s.op n).half = false → s.ls n = nx
  s4Ls : ∀ n nr nx, s.op n = .s4 nr nx → s.ls n = some nr ∧ Leads s nx (s.ls nr)
  s3Next : ∀ n nr nx, s.op n = .s3 nr nx → s.next nr = nx ∧ s.mark nr = false
  sPrev : ∀ n nr, (s.op n).pending = some nr → s.op n = .s0 nr ∨ s.prev nr = some n
  u3p : ∀ n nx p, s.op n = .u3 nx p → s.status p = .live ∨ s.status p = .dead
  holdsP : ∀ n p, (s.op n).holds = some p → s.ls p = some n ∧ s.next p = some n ∧ s.mark p = true ∧ (s.op p).locked = none
  u5p : ∀ n p b, s.op n = .u5 (some b) p → s.prev b = some p
  /-- the pointers -/
  next : ∀ x, s.status x = .live → (s.op x).half = false → s.next x = s.ls x
  prev : ∀ x y, s.ls x = some y → (s.op x).moved ≠ some y → s.prev y = some x
  dead : ∀ x, s.status x = .dead → s.mark x = true ∨ s.next x = none
  markSome : ∀ x, s.status x = .live → s.mark x = true → s.next x ≠ none
  marked : ∀ x y, s.status x = .live → s.mark x = true → (s.op x).locked = none → s.next x = some y →
    (s.op y).holds = some x

theorem init_inv (key : Nat → Nat) : Inv key State.init := by
  constructor <;> simp [State.init, Op.locked, Op.pending, Op.right, Op.unlinks, Op.holds, Op.half, Op.moved]

/-- `Leads` only looks at leaves that have been taken out. -/
theorem Leads.keep {s s' : State} (h : ∀ b, s.status b = .dead → s'.status b = .dead ∧ s'.next b = s.next b) {a t : Option Nat}
    (ha : Leads s a t) : Leads s' a t := by
  induction ha with
  | refl t => exact .refl t
  | @dead b t hb _ ih =>
    obtain ⟨h1, h2⟩ := h b hb
    exact .dead h1 (h2 ▸ ih)

theorem Leads.trans {s : State} {a b c : Option Nat} (h : Leads s a b) (h' : Leads s b c) : Leads s a c := by
  induction h with
  | refl t => exact h'
  | dead hb _ ih => exact .dead hb (ih h')

end Verif.Leaflink
