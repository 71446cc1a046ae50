import Verif.Model.Defaults
import Verif.Spec.InitLaw

/-! # Specification for C123: the prior that the arguments of `dnest()` describe -/

open MeasureTheory Set
open scoped ENNReal

namespace Mica

/-- Logarithm of the density of one parameter, up to a constant: flat, `1/x`, or Gaussian. -/
noncomputable def DefCfg.logDensity {n : ℕ} (c : DefCfg n) (i : Fin n) (x : ℝ) : ℝ :=
  match c.ptype i with
  | .uniform => 0
  | .log => -Real.log x
  | .gaussian => -((x - c.mean i) ^ 2 / (2 * c.sd i ^ 2))

/-- The prior (not normalised): independent parameters with these densities on their ranges. -/
noncomputable def DefCfg.prior {n : ℕ} (c : DefCfg n) : Measure (Fin n → ℝ) :=
  Measure.pi fun i => (volume.restrict (Ico (c.lo i) (c.hi i))).withDensity
    fun x => ENNReal.ofReal (Real.exp (c.logDensity i x))

/-- Ranges are not empty, and those of logarithmic priors are positive. -/
structure DefCfg.Ok {n : ℕ} (c : DefCfg n) : Prop where
  lt : ∀ i, c.lo i < c.hi i
  pos : ∀ i, c.ptype i = .log → 0 < c.lo i

/-- The first particle (0 if the draw does not complete). -/
noncomputable def DefCfg.start {n : ℕ} (c : DefCfg n) (mem : Fin n → ℝ) (r : Fin n → ℝ × ℝ) : Fin n → ℝ :=
  match defFromPrior c r mem n with
  | .ok pm => pm
  | _ => fun _ => 0

/-- The law of the first particles: independent uniform and standard Gaussian numbers. -/
noncomputable def DefCfg.startLaw {n : ℕ} (c : DefCfg n) (mem : Fin n → ℝ) : Measure (Fin n → ℝ) :=
  (Measure.pi fun _ : Fin n => unif.prod (ProbabilityTheory.gaussianReal 0 1)).map (c.start mem)

end Mica
