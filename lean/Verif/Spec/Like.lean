import Mathlib.Analysis.SpecialFunctions.Log.Basic
import Mathlib.LinearAlgebra.Matrix.NonsingularInverse
import Mathlib.LinearAlgebra.Matrix.DotProduct
import Mathlib.Analysis.SpecialFunctions.Sqrt
import Mathlib.Analysis.Real.Pi.Bounds

/-! # The likelihood of Gaussian data with a linear trend -/

namespace Mica

open Matrix

/-- Generalised least-squares estimate of the trend coefficients. -/
noncomputable def glsCoef {n q : ℕ} (C : Matrix (Fin n) (Fin n) ℝ) (L : Matrix (Fin n) (Fin q) ℝ)
    (f : Fin n → ℝ) : Fin q → ℝ :=
  (Lᵀ * (C⁻¹ * L))⁻¹.mulVec (Lᵀ.mulVec (C⁻¹.mulVec f))

/-- Log-likelihood of data `f` with covariance `C` and trend `L`, the coefficients of the trend being
integrated out (up to the additive constant `-(n-q)/2 log 2π`). -/
noncomputable def margLL {n q : ℕ} (C : Matrix (Fin n) (Fin n) ℝ) (L : Matrix (Fin n) (Fin q) ℝ)
    (f : Fin n → ℝ) : ℝ :=
  -(1 / 2) * ((f - L.mulVec (glsCoef C L f)) ⬝ᵥ C⁻¹.mulVec (f - L.mulVec (glsCoef C L f)))
    - 1 / 2 * Real.log C.det - 1 / 2 * Real.log (Lᵀ * (C⁻¹ * L)).det

/-- Density of the normal distribution with mean zero and covariance `C`. -/
noncomputable def gaussDens {n : ℕ} (C : Matrix (Fin n) (Fin n) ℝ) (y : Fin n → ℝ) : ℝ :=
  Real.exp (-(1 / 2) * (y ⬝ᵥ C⁻¹.mulVec y)) / (Real.sqrt (2 * Real.pi) ^ n * Real.sqrt C.det)

end Mica
