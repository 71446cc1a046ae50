import Verif.Model.Text

/-! # What a line of a settings file says -/

namespace Mica

/-- `line` consists of `tag` and `val` as its first two words. -/
def IsEntry (line tag val : List Char) : Prop :=
  ∃ a b rest, line = a ++ (tag ++ (b ++ (val ++ rest))) ∧ (∀ c ∈ a, isSpaceC c = true) ∧
    tag ≠ [] ∧ (∀ c ∈ tag, isSpaceC c = false) ∧ b ≠ [] ∧ (∀ c ∈ b, isSpaceC c = true) ∧
    val ≠ [] ∧ (∀ c ∈ val, isSpaceC c = false) ∧ (rest = [] ∨ ∃ c r, rest = c :: r ∧ isSpaceC c = true)

/-- Line `i` of the text sets tag `t` to `v`. -/
def EntryAt (comment : Char → Bool) (lines : List (List Char)) (i : ℕ) (t v : List Char) : Prop :=
  ∃ l, lines[i]? = some l ∧ IsEntry l t v ∧ comment (t.headD ' ') = false

/-- The text: lines closed by newlines, and a last line without. -/
def textOf (lines : List (List Char)) (last : List Char) : List Char :=
  (lines.map fun l => l ++ ['\n']).flatten ++ last

/-- All lines, including a last one without newline. -/
def allLines (lines : List (List Char)) (last : List Char) : List (List Char) :=
  lines ++ (if last = [] then [] else [last])

end Mica
