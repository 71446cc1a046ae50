import Verif.Spec.Kernel
import Verif.Spec.Recon

/-! # Contributions of single components to the lines -/

namespace Mica

/-- Transfer function of component `k` of line `j`, with unit area. -/
noncomputable def KEnv.dens (e : KEnv) (j k : ℕ) : ℝ → ℝ := tfDens (e.typ k) (e.comp j k).c (e.comp j k).w

/-- Covariance of the contribution of component `k` to the light curve `x.1` at time `x.2` (the continuum has
no components: itself) with the whole light curve `y.1` at time `y.2`. -/
noncomputable def partCross (e : KEnv) (k : ℕ) (x y : ℕ × ℝ) : ℝ :=
  match x.1, y.1 with
  | 0, 0 => Real.exp (-|x.2 - y.2| / e.taud)
  | 0, s + 1 => ∑ k' ∈ Finset.range e.ng, (e.comp s k').f * covLC e.taud (e.dens s k') (y.2 - x.2)
  | s + 1, 0 => (e.comp s k).f * covLC e.taud (e.dens s k) (x.2 - y.2)
  | s + 1, s' + 1 => ∑ k' ∈ Finset.range e.ng,
      (e.comp s k).f * (e.comp s' k').f * covLL e.taud (e.dens s k) (e.dens s' k') (x.2 - y.2)

/-- Variance of that contribution. -/
noncomputable def partVar (e : KEnv) (k : ℕ) (x : ℕ × ℝ) : ℝ :=
  match x.1 with
  | 0 => 1
  | s + 1 => (e.comp s k).f * (e.comp s k).f * covLL e.taud (e.dens s k) (e.dens s k) 0

/-- The part of the trend of a light curve given to component `k`: for a line its share of the response, nothing
if responses may be negative. -/
noncomputable def partShare (e : KEnv) (k : ℕ) (x : ℕ × ℝ) : ℝ :=
  match x.1 with
  | 0 => 1
  | s + 1 => if e.lin then 0 else (e.comp s k).f / ∑ k' ∈ Finset.range e.ng, (e.comp s k').f

end Mica
