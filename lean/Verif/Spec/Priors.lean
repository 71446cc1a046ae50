import Verif.Model.Priors
import Verif.Spec.Text
import Mathlib.Data.List.Forall2

/-! # Prior strings and files of parameter ranges as documented -/

namespace Mica

/-- `w` is a number with value `v` for the conversion `lf`, whatever separator follows. -/
def IsNum (lf : List Char → Option (ℝ × List Char)) (w : List Char) (v : ℝ) : Prop :=
  ':' ∉ w ∧ ∀ r, (∃ s, r = ':' :: s) ∨ (∃ s, r = ']' :: s) → lf (w ++ r) = some (v, r)

/-- `str` is `[v₀:v₁:…]` (docs/prior.rst). -/
def IsPrior (lf : List Char → Option (ℝ × List Char)) (str : List Char) (vs : List ℝ) : Prop :=
  ∃ w ws v vt, str = '[' :: (w ++ ((ws.map fun x => ':' :: x).flatten ++ [']'])) ∧ IsNum lf w v ∧
    List.Forall₂ (IsNum lf) ws vt ∧ vs = v :: vt

/-- A line that holds the parameter range `e`: not blank, not a comment. -/
def IsParLine (parse : List Char → Option ParLine) (l : List Char) (e : ParLine) : Prop :=
  '\n' ∉ l ∧ l.length < 254 ∧ (∃ a c r, l = a ++ (c :: r) ∧ (∀ x ∈ a, isSpaceC x = true) ∧ isSpaceC c = false ∧
    c ≠ '#') ∧ parse (trimC (l ++ ['\n'])) = some e

end Mica
