import Verif.Model.Joint
import Verif.Model.Restart
import Verif.Spec.Sampler
import Verif.Model.SampleText

/-!
# The sampler with the model's own moves, from the first draw to the last sample

Model/Sampler.lean takes the proposed parameters as inputs.  Here they are computed by the model's `perturb`, and the
first particles by its `from_prior`, as in the code.
-/

namespace Mica

variable {n : ℕ}

/-- Random numbers of one MCMC step with the model's own move: the stream of parameters to try, the size of the step, the
change of the tiebreaker and the acceptance number. -/
structure StepInP (n : ℕ) where
  which : ℕ
  uOrder : ℝ
  cands : List (Fin n)
  h : ℝ
  uTie : ℝ
  uAcc : ℝ
  la : LAIn

/-- Body of the loop of `dnest_mcmc_run`, cdnest/dnest.c:695-725, with the model's own move. -/
noncomputable def mcmcStepP (P : Perturb n) (o : SOpts) (L : (Fin n → ℝ) → ℝ) (maxLv : ℕ) (i : StepInP n)
    (t : TaskSt n) : Res (TaskSt n) := do
  let t ← samplerMove P o L maxLv i.which i.cands i.uTie
    (i.uOrder, (i.h, i.uAcc), (i.la.step, i.la.uDir, i.la.uAcc)) t
  let e ← enoughLevels o maxLv t.levels
  if e then return t
  else do
    let last ← Res.get t.levels (t.levels.length - 1)
    let p ← Res.get t.particles i.which
    if last.logl.value < p.logl.value then
      if t.above.length < 2 * o.newLevelInterval then
        return { t with above := t.above ++ [p.logl] }
      else .ub
    else return t

/-- `dnest_mcmc_run`, cdnest/dnest.c:690-726. -/
noncomputable def mcmcRunP (P : Perturb n) (o : SOpts) (L : (Fin n → ℝ) → ℝ) (maxLv : ℕ) :
    List (StepInP n) → TaskSt n → Res (TaskSt n)
  | [], t => .ok t
  | i :: is, t => do
    let t ← mcmcStepP P o L maxLv i t
    mcmcRunP P o L maxLv is t

/-- The MCMC phase on every task (cdnest/dnest.c:231-233); task 0 is the root and has its own level limit. -/
noncomputable def runTasksP (P : Perturb n) (o : SOpts) (L : (Fin n → ℝ) → ℝ) (levels : List Level)
    (limits : List (Lim n)) :
    ℕ → List (List (Particle n)) → List (List (StepInP n)) → Res (List (TaskSt n))
  | _, [], _ => .ok []
  | _, _ :: _, [] => .hang
  | maxLv, ps :: pss, is :: iss => do
    let t ← mcmcRunP P o L maxLv is ⟨ps, levels, limits, []⟩
    let ts ← runTasksP P o L levels limits o.maxNumLevels pss iss
    return t :: ts

/-- Random numbers of one round. -/
structure RoundInP (n : ℕ) where
  steps : List (List (StepInP n))
  kill : KillIn
  saveTask : ℕ
  saveParticle : ℕ

/-- One iteration of the loop of `dnest_run`, cdnest/dnest.c:224-382, with the model's own moves. -/
noncomputable def roundP (P : Perturb n) (o : SOpts) (L : (Fin n → ℝ) → ℝ) (i : RoundInP n)
    (s : Sampler n) : Res (Sampler n) := do
  let ts ← runTasksP P o L s.levels s.limits s.maxLvRoot s.tasks i.steps
  let s ← gatherTasks o s ts i.kill
  saveStep o ⟨[], i.kill, i.saveTask, i.saveParticle⟩ s

/-- What the random number generator can deliver in one round (cdnest/dnest.c:697, 516-541, 620-640). -/
structure ValidRoundP (o : SOpts) (i : RoundInP n) : Prop where
  nTasks : i.steps.length = o.totalTask
  nSteps : ∀ l ∈ i.steps, l.length = o.threadSteps
  which : ∀ l ∈ i.steps, ∀ st ∈ l, st.which < o.numParticles
  killU : i.kill.u.length = o.numParticles
  killC : ∀ a ∈ i.kill.attempts, ∀ c ∈ a, c.1 < o.numParticles
  saveTask : i.saveTask < o.totalTask
  saveParticle : i.saveParticle < o.numParticles

/-- Everything that a user can do with one model: start from particles drawn by the model's `from_prior` (`D` says which
vectors it can give), run rounds, stop at any time and resume from any snapshot of an earlier moment, with another number
of samples asked for; the rows found in the sample file are rows of an earlier moment of a run of the same model
(cdnest/dnest.c:199-382, 1115-1145, 1790-2063). -/
inductive WholeRun (P : Perturb n) (D : (Fin n → ℝ) → Prop) (L : (Fin n → ℝ) → ℝ) : SOpts → Sampler n → Prop
  | start (o : SOpts) (tie : ℝ) (draws : List (List ((Fin n → ℝ) × ℝ))) :
      ValidDraws o draws → (∀ l ∈ draws, ∀ x ∈ l, D x.1) → WholeRun P D L o (initSampler o L tie draws)
  | round {o : SOpts} {a b : Sampler n} (i : RoundInP n) :
      WholeRun P D L o a → ValidRoundP o i → roundP P o L i a = .ok b → WholeRun P D L o b
  | resume {o : SOpts} {a b c : Sampler n} (m m' : ℕ) (file : List (Particle n)) :
      WholeRun P D L o a → WholeRun P D L { o with maxNumSaves := m' } c → (∀ r ∈ file, r ∈ c.saved) →
      readRestart { o with maxNumSaves := m } L file (writeRestart o a) = .ok b →
      WholeRun P D L { o with maxNumSaves := m } b

/-- What the continuum model draws (`from_prior_con`, src/dnest_con.c:107-123) with numbers of the generator. -/
def ConDrawn (c : ConCfg n) (x : Fin n → ℝ) : Prop :=
  ∃ u : Fin n → ℝ, (∀ i, 0 ≤ u i ∧ u i ≤ 1) ∧ x = fromPriorCon c u

/-- What the line models draw (`from_prior_line` and the others, src/dnest_line.c:459-532) into whatever memory. -/
def LineDrawn (c : LineCfg) (x : Fin c.numParams → ℝ) : Prop :=
  ∃ (d : LineDraw) (mem pm : ℕ → ℝ), (∀ i, 0 ≤ d.u i ∧ d.u i ≤ 1) ∧ c.fromPrior d mem = .ok pm ∧ ∀ i, x i = pm i

/-- The row that `save_particle`, cdnest/dnest.c:605-688, prints of a particle; `id` is the number of the particle
among those of all tasks. -/
def savedRow (id : ℕ) (p : Particle n) : SavedRow := ⟨List.ofFn p.params, p.level, p.logl.value, p.logl.tie, id⟩

end Mica
