/-!
# Breaking text into lines

`StringAccum::append_break_lines`, /repo/straccum.cc:369-396.

Simplifications:
* a text is the list of its bytes, and `cur` is the part from `line` to `s`, `rest` the part after;
* the appending never fails for want of memory (property C67 is about that);
* at the end of the text `s` is advanced once more, past the null byte, and only compared.
-/
namespace Verif.Accum

/-- `isspace` in the C locale. -/
def isBlank (b : Nat) : Bool := b == 32 || (decide (9 ≤ b) && decide (b ≤ 13))

/-- The loop and what follows, /repo/straccum.cc:377-395: the lines without margin and newline.
`lim` is `linelen` after line 376. -/
def breakLoop (lim : Int) (cur rest : List Nat) : List (List Nat) :=
  if rest = [] then (if cur = [] then [] else [cur])
  else
    let sp := rest.takeWhile isBlank
    let r1 := rest.dropWhile isBlank
    let w := r1.takeWhile (!isBlank ·)
    if ((cur.length + sp.length + w.length : Nat) : Int) > lim ∧ cur ≠ [] then
      match h : r1.dropWhile (!isBlank ·) with
      | [] => cur :: (if w = [] then [] else [w])
      | c :: r3 => cur :: breakLoop lim (w ++ [c]) r3
    else
      match h : r1.dropWhile (!isBlank ·) with
      | [] => if cur ++ sp ++ w = [] then [] else [cur ++ sp ++ w]
      | c :: r3 => breakLoop lim (cur ++ sp ++ w ++ [c]) r3
termination_by rest.length
decreasing_by
  all_goals
    have h1 : ((rest.dropWhile isBlank).dropWhile (!isBlank ·)).length ≤ rest.length :=
      Nat.le_trans (List.dropWhile_sublist _).length_le (List.dropWhile_sublist _).length_le
    rw [h] at h1
    simp at h1
    omega

def breakLines (lim : Int) (text : List Nat) : List (List Nat) := breakLoop lim [] text

/-- What is appended, /repo/straccum.cc:370-396. -/
def appendBreakLines (text : List Nat) (linelen : Int) (margin : List Nat) : List Nat :=
  (breakLines (linelen - margin.length) text).flatMap fun l => margin ++ l ++ [10]

end Verif.Accum
