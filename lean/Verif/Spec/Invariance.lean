import Verif.Model.Joint
import Verif.Spec.Reversible
import Mathlib.MeasureTheory.Constructions.Pi
import Mathlib.MeasureTheory.Measure.Lebesgue.Basic
import Mathlib.Probability.Distributions.Gaussian.Real

/-! # Specification for C109: the distribution a sampler step has to leave invariant -/

open MeasureTheory Set
open scoped ENNReal

namespace Mica

/-- Uniform random numbers in [0,1) (`gsl_rng_uniform`). -/
noncomputable def unif : Measure ℝ := volume.restrict (Ico 0 1)

/-- The weight of level `j` of the table: `exp(j/lambda)` while levels are being created, afterwards
`(tries+1)^(-beta)`; divided by the compressed prior mass `X_j`. -/
noncomputable def levelWeight (o : SOpts) (e : Bool) (levels : List Level)
    (j : Fin levels.length) : ℝ≥0∞ :=
  ENNReal.ofReal ((if e then (((levels[j].tries : ℕ) : ℝ) + 1) ^ (-o.beta)
    else Real.exp ((j : ℕ) / o.lam)) / Real.exp levels[j].logX)

/-- Expectation of `f(parameters, level)` under the mixture over the levels of the prior `μ`
restricted to likelihoods above the level's threshold. -/
noncomputable def mixture {n : ℕ} (μ : Measure (Fin n → ℝ)) (L : (Fin n → ℝ) → ℝ)
    (levels : List Level) (W : Fin levels.length → ℝ≥0∞) (f : (Fin n → ℝ) → ℕ → ℝ≥0∞) : ℝ≥0∞ :=
  ∑ j, W j * ∫⁻ x, {x | levels[j].logl.value < L x}.indicator (fun x => f x j) x ∂μ

/-- The task state in which particle `which` has parameters `x`, their likelihood, and level `j`. -/
def withParticle {n : ℕ} (L : (Fin n → ℝ) → ℝ) (t : TaskSt n) (which : ℕ) (tie : ℝ)
    (x : Fin n → ℝ) (j : ℕ) : TaskSt n :=
  { t with particles := t.particles.set which ⟨x, ⟨L x, tie⟩, j⟩ }

/-- `f(parameters, level)` of particle `which` after a step; 0 if the step does not complete. -/
noncomputable def endValue {n : ℕ} (which : ℕ) (f : (Fin n → ℝ) → ℕ → ℝ≥0∞) : Res (TaskSt n) → ℝ≥0∞
  | .ok t => match t.particles[which]? with
    | some p => f p.params p.level
    | none => 0
  | _ => 0

/-- The prior of the continuum model: each free parameter uniform over its range (not normalised),
each fixed one at its value. -/
noncomputable def conPrior {n : ℕ} (c : ConCfg n) : Measure (Fin n → ℝ) :=
  Measure.pi fun i => match c.fix i with
    | some v => Measure.dirac v
    | none => volume.restrict (Ico (c.lo i) (c.hi i))

/-- The law of `dnest_randh`, with `τ` the law of the Student-t number (any law) and a standard
Gaussian number. -/
noncomputable def randhLaw (τ : Measure ℝ) : Measure ℝ :=
  (τ.prod (ProbabilityTheory.gaussianReal 0 1)).map fun p => randh p.1 p.2

/-- The law of the displacement of the level assignment: a uniform and a standard Gaussian number. -/
noncomputable def levelStepLaw : Measure ℤ :=
  (unif.prod (ProbabilityTheory.gaussianReal 0 1)).map fun p => levelStep p.1 p.2

/-- A parameter vector the line model's prior allows: free parameters in their ranges; with the
ordered lag prior the lags of each line that has its own do not decrease. -/
structure InLinePrior (c : LineCfg) (y : Fin c.numParams → ℝ) : Prop where
  range : ∀ i : Fin c.numParams, c.fix i = none → y i ∈ Ico (c.rng i).1 (c.rng i).2
  order : c.typeLag = 0 → ∀ i j k, i < c.nl.length → j < ownLines c i → k + 1 < c.ng →
    extendVec y (lineStart c i j + (3 * k + 2)) ≤ extendVec y (lineStart c i j + (3 * (k + 1) + 2))

open Classical in
/-- The parameter that parameter `a` takes its value from: itself, except that with common lags and
widths (`uniTf = 2`) those of the data sets after the first are those of the same line of the first
one. -/
noncomputable def sourceOf (c : LineCfg) (a : Fin c.numParams) : Fin c.numParams :=
  if h : ∃ s : Fin c.numParams, c.uniTf = 2 ∧ ∃ i j k t, 1 ≤ i ∧ j < c.nl.getD i 0 ∧ k < c.ng ∧
      (t = 2 ∨ t = 3) ∧ (a : ℕ) = lineStart c i j + (3 * k + t) ∧
      (s : ℕ) = lineStart c 0 j + (3 * k + t)
  then h.choose else a

open Classical in
/-- The prior of the line model (not normalised): the free parameters have density
`exp(logPrior)` on the allowed vectors, fixed ones have their values, common ones are copies. -/
noncomputable def linePrior (c : LineCfg) : Measure (Fin c.numParams → ℝ) :=
  ((Measure.pi fun i : Fin c.numParams => match c.fix i with
      | some v => Measure.dirac v
      | none => (volume : Measure ℝ)).withDensity
    fun y => if InLinePrior c y then ENNReal.ofReal (Real.exp (logPrior c (extendVec y))) else 0).map
    fun y a => y (sourceOf c a)

end Mica
