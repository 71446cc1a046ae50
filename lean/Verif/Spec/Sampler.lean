import Verif.Model.Sampler

/-!
# Specifications for the nested sampler, stated on observable state only
-/

namespace Mica

/-- Thresholds start at the lowest double and never decrease with the level. -/
def ThresholdsOK (ls : List Level) : Prop :=
  (∃ l0, ls[0]? = some l0 ∧ l0.logl.value = -DBL_MAX) ∧
  ∀ (i j : ℕ) (a b : Level), i ≤ j → ls[i]? = some a → ls[j]? = some b → a.logl.value ≤ b.logl.value

/-- A particle's level exists and the particle's likelihood reaches the threshold of that level. -/
def ParticleOK {d : ℕ} (ls : List Level) (p : Particle d) : Prop :=
  ∃ lv, ls[p.level]? = some lv ∧ lv.logl.value ≤ p.logl.value

/-- The recorded likelihood is the likelihood of the recorded parameters. -/
def LikelihoodCurrent {d : ℕ} (L : (Fin d → ℝ) → ℝ) (p : Particle d) : Prop :=
  p.logl.value = L p.params

/-- Counter consistency of one level. -/
def CountsOK (l : Level) : Prop := l.exceeds ≤ l.visits ∧ l.accepts ≤ l.tries

/-- Inputs the random number generator can deliver in one round. -/
structure ValidRound {d : ℕ} (o : SOpts) (i : RoundIn d) : Prop where
  nTasks : i.steps.length = o.totalTask
  nSteps : ∀ l ∈ i.steps, l.length = o.threadSteps
  which : ∀ l ∈ i.steps, ∀ st ∈ l, st.which < o.numParticles
  killU : i.kill.u.length = o.numParticles
  killC : ∀ a ∈ i.kill.attempts, ∀ c ∈ a, c.1 < o.numParticles
  saveTask : i.saveTask < o.totalTask
  saveParticle : i.saveParticle < o.numParticles

/-- Prior draws of the right shape. -/
structure ValidDraws {d : ℕ} (o : SOpts) (draws : List (List ((Fin d → ℝ) × ℝ))) : Prop where
  nTasks : draws.length = o.totalTask
  nPart : ∀ l ∈ draws, l.length = o.numParticles

/-- States of a fresh run after any number of rounds. -/
def Reachable {d : ℕ} (o : SOpts) (L : (Fin d → ℝ) → ℝ) (s : Sampler d) : Prop :=
  ∃ tie draws ins, ValidDraws o draws ∧ (∀ i ∈ ins, ValidRound o i) ∧
    run o L ins (initSampler o L tie draws) = .ok s

/-- Counter `f` of level `j` of a level table (0 if there is no such level). -/
def counterAt (f : Level → ℕ) (ls : List Level) (j : ℕ) : ℤ :=
  match ls[j]? with
  | some l => f l
  | none => 0

/-- `a` is at least `b` in the order "likelihood value, then tiebreaker". -/
def LogL.ge (a b : LogL) : Prop := b.value < a.value ∨ (b.value = a.value ∧ b.tie ≤ a.tie)

end Mica
