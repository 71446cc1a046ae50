import Mathlib.Analysis.SpecialFunctions.Exp
import Mathlib.LinearAlgebra.Matrix.Symmetric

/-! # The covariance of a damped random walk observed with noise -/

namespace Mica

/-- Covariance matrix of a damped random walk with variance `a` and rate `c` at the times `t`, plus
independent noise of variance `N`. -/
noncomputable def drwCov (a c : ℝ) {n : ℕ} (t N : Fin n → ℝ) : Matrix (Fin n) (Fin n) ℝ :=
  fun i j => a * Real.exp (-c * |t i - t j|) + if i = j then N i else 0

end Mica
