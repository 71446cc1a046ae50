import Verif.Model.Kernel
import Mathlib.MeasureTheory.Measure.Prod

/-!
# What the covariance functions should be: integrals of the damped-random-walk covariance
-/

namespace Mica

open MeasureTheory

open Classical in
/-- Unit-area transfer function of each type with mean lag `c` and width `w`. -/
noncomputable def tfDens : TF → ℝ → ℝ → ℝ → ℝ
  | .gauss, c, w, s => Real.exp (-(s - c) ^ 2 / (2 * w ^ 2)) / (Real.sqrt (2 * Real.pi) * w)
  | .tophat, c, w, s => if |s - c| ≤ w then 1 / (2 * w) else 0
  | .gamma, c, w, s => if c - 2 * w < s then (s - (c - 2 * w)) / w ^ 2 * Real.exp (-(s - (c - 2 * w)) / w) else 0
  | .exp, c, w, s => if c - w < s then 1 / w * Real.exp (-(s - (c - w)) / w) else 0

/-- Covariance of the process at time `0` with its response at time `d` through `ψ`. -/
noncomputable def covLC (tau : ℝ) (ψ : ℝ → ℝ) (d : ℝ) : ℝ := ∫ s, ψ s * Real.exp (-|d - s| / tau)

/-- Covariance of two responses, through `ψ₁` and `ψ₂`, at times differing by `d`. -/
noncomputable def covLL (tau : ℝ) (ψ₁ ψ₂ : ℝ → ℝ) (d : ℝ) : ℝ :=
  ∫ p : ℝ × ℝ, ψ₁ p.1 * ψ₂ p.2 * Real.exp (-|d - p.1 + p.2| / tau)

end Mica
