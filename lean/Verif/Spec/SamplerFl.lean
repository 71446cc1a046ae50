import Verif.Model.SamplerFl
import Verif.Spec.Sampler

/-!
# Specifications for the sampler with likelihoods that need not be numbers
-/

namespace Mica

variable {d : ℕ}

/-- The likelihood never is plus infinity, and a finite value is not below `-DBL_MAX` (every finite
double satisfies the latter). -/
def NoInf (L : (Fin d → ℝ) → Fl) : Prop :=
  ∀ x, L x ≠ .inf false ∧ ∀ v, L x = .fin v → -DBL_MAX ≤ v

/-- The real likelihood in which NaN and minus infinity are replaced by the lowest double. -/
noncomputable def floorL (L : (Fin d → ℝ) → Fl) (x : Fin d → ℝ) : ℝ :=
  match L x with
  | .fin v => v
  | _ => -DBL_MAX

/-- Inputs the random number generator can deliver in one round, as `ValidRound`. -/
structure FValidRound (o : SOpts) (i : FRoundIn d) : Prop where
  nTasks : i.steps.length = o.totalTask
  nSteps : ∀ l ∈ i.steps, l.length = o.threadSteps
  which : ∀ l ∈ i.steps, ∀ st ∈ l, st.which < o.numParticles
  killU : i.kill.u.length = o.numParticles
  killC : ∀ a ∈ i.kill.attempts, ∀ c ∈ a, c.1 < o.numParticles
  saveTask : i.saveTask < o.totalTask
  saveParticle : i.saveParticle < o.numParticles

/-- States of a fresh run after any number of rounds. -/
def FReachable (o : SOpts) (L : (Fin d → ℝ) → Fl) (s : FSampler d) : Prop :=
  ∃ tie draws ins, ValidDraws o draws ∧ (∀ i ∈ ins, FValidRound o i) ∧
    fRun o L ins (fInitSampler o L tie draws) = .ok s

end Mica
