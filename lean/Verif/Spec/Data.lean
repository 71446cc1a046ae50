import Verif.Model.Data
import Mathlib.Data.List.Forall2
import Mathlib.Data.Nat.Digits.Defs

/-! # The documented format of a data file (docs/getting_started.rst, "Data Format") -/

namespace Mica

/-- `w` is the number `n`, in decimal digits, possibly with blanks around it. -/
def IsField (w : List Char) (n : ℕ) : Prop :=
  ∃ a b, w = a ++ (Nat.toDigits 10 n ++ b) ∧ (∀ c ∈ a, c = ' ' ∨ c = '\t') ∧
    ∀ c ∈ b, c = ' ' ∨ c = '\t' ∨ c = '\r'

/-- `line` is a header line `#n:ns₀:ns₁:…`. -/
def IsHead (line : List Char) (n : ℕ) (ns : List ℕ) : Prop :=
  ∃ w ws, line = '#' :: (w ++ (ws.map fun x => ':' :: x).flatten) ∧ IsField w n ∧
    List.Forall₂ IsField ws ns

/-- Empty line light curves come after all those with points. -/
def EmptyLast (ns : List ℕ) : Prop := ∀ i j : ℕ, i < j → ns[i]? = some 0 → ∀ n, ns[j]? = some n → n = 0

/-- The numbers of a light curve in the order of the file. -/
def rowNums (r : List Row) : List ℝ := (r.map fun x => [x.1, x.2.1, x.2.2]).flatten

/-- The numbers of all data sets in the order of the file. -/
def setNums (sets : List FSet) : List ℝ :=
  (sets.map fun s => rowNums s.con ++ (s.lines.map rowNums).flatten).flatten

/-- The times of a light curve do not decrease. -/
def Ascending (r : List Row) : Prop := r.Pairwise fun x y => x.1 ≤ y.1

/-- A text with a header for data sets with the numbers of points `counts`, followed by `body`. -/
structure IsData (file : List Char) (counts : List (ℕ × List ℕ)) (body : List Char) : Prop where
  ex : ∃ first heads, file = ((first :: heads).map fun l => l ++ ['\n']).flatten ++ body ∧
    IsHead first counts.length [] ∧ List.Forall₂ (fun l c => IsHead l c.1 c.2) heads counts ∧
    ∀ l ∈ first :: heads, l.length < 255

end Mica
