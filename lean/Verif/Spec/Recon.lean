import Mathlib.LinearAlgebra.Matrix.DotProduct
import Mathlib.Data.Real.Basic
import Mathlib.Data.Matrix.Mul
import Verif.Spec.Line

/-! # Best linear unbiased prediction -/

namespace Mica

open Matrix

/-- Mean squared error of the prediction `w · f` of a quantity with variance `a` and covariances `s` with
the data `f`, whose covariance is `C` (means being predicted without error). -/
def predErr {n : ℕ} (C : Matrix (Fin n) (Fin n) ℝ) (s : Fin n → ℝ) (a : ℝ) (w : Fin n → ℝ) : ℝ :=
  a - 2 * (w ⬝ᵥ s) + w ⬝ᵥ C.mulVec w

/-- `w` are the weights of the best linear unbiased prediction: for data with mean `L p` the mean of `w · f`
is `l · p`, for all `p`, and no other such weights have a smaller or equal mean squared error. -/
def IsBlup {n q : ℕ} (C : Matrix (Fin n) (Fin n) ℝ) (L : Matrix (Fin n) (Fin q) ℝ) (s : Fin n → ℝ)
    (l : Fin q → ℝ) (a : ℝ) (w : Fin n → ℝ) : Prop :=
  (∀ p, w ⬝ᵥ L.mulVec p = l ⬝ᵥ p) ∧
    ∀ w', (∀ p, w' ⬝ᵥ L.mulVec p = l ⬝ᵥ p) → w' ≠ w → predErr C s a w < predErr C s a w'

/-- Covariance of the signals of two light curves `x.1`, `y.1` (0 the continuum, then the lines) at times
`x.2`, `y.2`, in units of `sigma^2`. -/
noncomputable def pointCov (K : Kernels) (tau : ℝ) (x y : ℕ × ℝ) : ℝ :=
  match x.1, y.1 with
  | 0, 0 => Real.exp (-|x.2 - y.2| / tau)
  | 0, s + 1 => K.Slc x.2 y.2 s
  | s + 1, 0 => K.Slc y.2 x.2 s
  | s + 1, s' + 1 => if s' = s then K.Sll x.2 y.2 s else K.Sll2 x.2 y.2 s s'

/-- Light curve and time of the `p`-th point of a data set. -/
def DSet.pt (d : DSet) (p : ℕ) : ℕ × ℝ :=
  ((locate d.series p).1, (d.ser (locate d.series p).1).t (locate d.series p).2)

/-- The basis functions of the trends at time `x.2` of light curve `x.1`: those of other light curves
vanish. -/
noncomputable def trendAt (nq q : ℕ) (x : ℕ × ℝ) : Fin q → ℝ :=
  fun c => if (c : ℕ) / nq = x.1 then x.2 ^ ((c : ℕ) % nq) else 0

end Mica
