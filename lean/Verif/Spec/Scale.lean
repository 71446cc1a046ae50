import Verif.Model.Scale
import Mathlib.Algebra.BigOperators.Group.List.Basic

/-! # Which light curves can be normalised, and what the normalisation promises -/

namespace Mica

/-- The light curves that get normalised: those with points, and the continua unless virtual. -/
def normCurves (vmap : Bool) (sets : List FSet) : List (List Row) :=
  (sets.map fun s => (if vmap then [] else [s.con]) ++ s.lines.filter fun l => !l.isEmpty).flatten

/-- Mean flux. -/
noncomputable def curveMean (f : List ℝ) : ℝ := f.sum / f.length

/-- Positive mean and not constant. -/
def Usable (f : List ℝ) : Prop := 0 < curveMean f ∧ ∃ x ∈ f, ∃ y ∈ f, x ≠ y

/-- The mean is less than a hundredth of half the range. -/
def SmallMean (f : List ℝ) : Prop := ∃ x ∈ f, ∃ y ∈ f, curveMean f < (x - y) / 2 / 100

/-- `h` is half the range of the fluxes. -/
def HalfRange (f : List ℝ) (h : ℝ) : Prop :=
  (∃ x ∈ f, ∃ y ∈ f, h = (x - y) / 2) ∧ ∀ x ∈ f, ∀ y ∈ f, (x - y) / 2 ≤ h

/-- `c` is the light curve `r` divided by a positive factor: times unchanged, fluxes and errors as they
are printed equal to those of the input, relative errors unchanged. -/
structure Scaled (r : List Row) (c : NCurve) : Prop where
  pos : 0 < c.scale
  rows : List.Forall₂ (fun x y : Row => y.1 = x.1 ∧ printed c y.2.1 = x.2.1 ∧ printed c y.2.2 = x.2.2 ∧
    y.2.2 / y.2.1 = x.2.2 / x.2.1) r c.rows

end Mica
