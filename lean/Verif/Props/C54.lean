import Verif.Json.Round
import Verif.Props.C53

/-!
# C54: the outcome of the streaming parser does not depend on how the text is cut
-/
namespace Verif.Props.C54

open Verif.Json

/-- However the text is cut into chunks (also into empty ones, and inside of numbers, words, escapes and characters), the parser accepts it
if and only if it accepts it in one piece, with the same value, and leaves the same rest.  `Lead`: no chunk may end with 0xE0, 0xED, 0xF0 or 0xF4,
lead bytes after which not all continuations are characters. -/
theorem cut {cs : List Bytes} (hl : ∀ c ∈ cs, ¬ Lead c) :
    ((P.run {} cs).1.st = .final ↔ (P.consume {} cs.flatten true).1.st = .final) ∧
    ((P.run {} cs).1.st = .final → P.run {} cs = P.consume {} cs.flatten true) := by
  have h2 := consume_out ok_start cs.flatten
  rcases run_lead cs {} ok_start hl with h1 | ⟨h1, h3⟩
  · by_cases hf : (P.run {} cs).1.st = .final
    · rcases h2 with ⟨_, h2⟩ | h2 | ⟨_, h2⟩
      · rw [h1] at hf; exact absurd hf h2
      · have e : P.run {} cs = P.consume {} cs.flatten true := h1.trans h2.symm
        exact ⟨by rw [e], fun _ => e⟩
      · rw [h1] at hf; exact absurd hf h2
    · refine ⟨⟨fun h => absurd h hf, fun h => ?_⟩, fun h => absurd h hf⟩
      rcases h2 with ⟨h2, _⟩ | h2 | ⟨h2, _⟩
      · rw [h2] at h; cases h
      · rw [h1]; rw [h2] at h; exact h
      · rw [h2] at h; cases h
  · refine ⟨⟨fun h => (by rw [h1] at h; cases h), fun h => ?_⟩, fun h => (by rw [h1] at h; cases h)⟩
    rcases h2 with ⟨h2, _⟩ | h2 | ⟨h2, _⟩
    · rw [h2] at h; cases h
    · rw [h2] at h; exact absurd h h3
    · rw [h2] at h; cases h

/-- Without that condition: if the parser does not read beyond the end of a chunk, the outcome is the same. -/
theorem cut_any {cs : List Bytes} (hu : (P.run {} cs).1.st ≠ .ub) :
    ((P.run {} cs).1.st = .final ↔ (P.consume {} cs.flatten true).1.st = .final) ∧
    ((P.run {} cs).1.st = .final → P.run {} cs = P.consume {} cs.flatten true) := run_eq hu

/-- So two ways to cut a text are as good as each other. -/
theorem cut_same {cs ds : List Bytes} (h : cs.flatten = ds.flatten) (hc : ∀ c ∈ cs, ¬ Lead c) (hd : ∀ c ∈ ds, ¬ Lead c)
    (hf : (P.run {} cs).1.st = .final) : P.run {} ds = P.run {} cs := by
  have h1 := cut hc
  have h2 := cut hd
  rw [← h] at h2
  rw [h1.2 hf, h2.2 (h2.1.2 (h1.1.1 hf))]

/-- A printed value that arrives in pieces is read as that value. -/
theorem printed {j : J} (hf : Fit 2048 j) (m : Man) {cs : List Bytes} (hc : cs.flatten = unparse m j) (hl : ∀ c ∈ cs, ¬ Lead c) :
    P.run {} cs = ({ st := .final, res := j }, if m.nl then [10] else []) := run_unparse hf m hc hl

/-- A text of ASCII characters can be cut anywhere. -/
theorem ascii {cs : List Bytes} (h : ∀ c ∈ cs, ∀ b ∈ c, b < 128) : ∀ c ∈ cs, ¬ Lead c := by
  rintro c hc ⟨b, hb, hb'⟩
  have := h c hc b (List.mem_of_getLast? hb)
  omega

/-- `[12,true]` in four pieces. -/
example : P.run {} [[91, 49], [], [50, 44, 116], [114, 117, 101, 93]] = ({ st := .final, res := .arr [.num 12, .bool true] }, []) := by
  have := cut (cs := [[91, 49], [], [50, 44, 116], [114, 117, 101, 93]]) (ascii (by decide))
  rw [this.2 rfl]
  rfl

/-- `"😀"` byte by byte: the byte after the first is read before it is there; in one piece all is well. -/
theorem beyond : (P.run {} [[34], [0xF0], [0x9F], [0x98], [0x80], [34]]).1.st = .ub ∧
    P.consume {} [34, 0xF0, 0x9F, 0x98, 0x80, 34] true = ({ st := .final, res := .str [0xF0, 0x9F, 0x98, 0x80] }, []) := ⟨rfl, rfl⟩

/-- Cut after the second byte of the character it is read. -/
example : P.run {} [[34, 0xF0, 0x9F], [0x98], [0x80, 34]] = ({ st := .final, res := .str [0xF0, 0x9F, 0x98, 0x80] }, []) := rfl

/-- `"∀"` byte by byte is read. -/
example : P.run {} [[34], [0xE2], [0x88], [0x80], [34]] = ({ st := .final, res := .str [0xE2, 0x88, 0x80] }, []) := rfl

end Verif.Props.C54
