import Verif.Model.Joint
import Verif.Model.SamplerFl
import Verif.Model.Vmap
import Verif.Model.Whole
import Verif.Spec.SamplerFl

/-!
# The sampler in double values with the model's own moves

As Model/Whole.lean, but the likelihood and the `logH` returned by a move may be any double, as is the case in the
virtual-continuum mode (whose move divides by the scatter of the continuum parameters, which may be zero).
-/

namespace Mica

open Classical

variable {n : ℕ}

/-- The model's `perturb` function, as `Perturb`; `logH` may be any double. -/
abbrev FPerturb (n : ℕ) := ConStep n → (Fin n → ℝ) → Res ((Fin n → ℝ) × Fl)

/-- `update_particle` including its call of `perturb`, cdnest/dnest.c:729-779, as `perturbUpdate`. -/
noncomputable def fPerturbUpdate (P : FPerturb n) (L : (Fin n → ℝ) → Fl) (which : ℕ)
    (cands : List (Fin n)) (h uTie uAcc : ℝ) (t : FTaskSt n) : Res (FTaskSt n) := do
  let p ← Res.get t.particles which
  let q ← P ⟨cands, h, p.level, t.levels.length, limitAt t.limits⟩ p.params
  fUpdateParticle L which ⟨q.1, q.2, uTie, uAcc⟩ t

/-- The two moves of one particle in random order, cdnest/dnest.c:709-718, as `samplerMove`. -/
noncomputable def fSamplerMove (P : FPerturb n) (o : SOpts) (L : (Fin n → ℝ) → Fl) (maxLv : ℕ) (i : StepInP n)
    (t : FTaskSt n) : Res (FTaskSt n) :=
  if i.uOrder ≤ 0.5 then do
    let t ← fPerturbUpdate P L i.which i.cands i.h i.uTie i.uAcc t
    fUpdateLevelAssignment o maxLv i.which i.la t
  else do
    let t ← fUpdateLevelAssignment o maxLv i.which i.la t
    fPerturbUpdate P L i.which i.cands i.h i.uTie i.uAcc t

/-- Body of the loop of `dnest_mcmc_run`, cdnest/dnest.c:695-725, with the model's own move. -/
noncomputable def fMcmcStepP (P : FPerturb n) (o : SOpts) (L : (Fin n → ℝ) → Fl) (maxLv : ℕ) (i : StepInP n)
    (t : FTaskSt n) : Res (FTaskSt n) := do
  let t ← fSamplerMove P o L maxLv i t
  let e ← fEnoughLevels o maxLv t.levels
  if e then return t
  else do
    let last ← Res.get t.levels (t.levels.length - 1)
    let p ← Res.get t.particles i.which
    if Fl.lt last.logl.value p.logl.value then
      if t.above.length < 2 * o.newLevelInterval then
        return { t with above := t.above ++ [p.logl] }
      else .ub
    else return t

/-- `dnest_mcmc_run`, cdnest/dnest.c:690-726. -/
noncomputable def fMcmcRunP (P : FPerturb n) (o : SOpts) (L : (Fin n → ℝ) → Fl) (maxLv : ℕ) :
    List (StepInP n) → FTaskSt n → Res (FTaskSt n)
  | [], t => .ok t
  | i :: is, t => do
    let t ← fMcmcStepP P o L maxLv i t
    fMcmcRunP P o L maxLv is t

/-- The MCMC phase on every task (cdnest/dnest.c:231-233); task 0 is the root and has its own level limit. -/
noncomputable def fRunTasksP (P : FPerturb n) (o : SOpts) (L : (Fin n → ℝ) → Fl) (levels : List FLevel)
    (limits : List (Lim n)) :
    ℕ → List (List (FParticle n)) → List (List (StepInP n)) → Res (List (FTaskSt n))
  | _, [], _ => .ok []
  | _, _ :: _, [] => .hang
  | maxLv, ps :: pss, is :: iss => do
    let t ← fMcmcRunP P o L maxLv is ⟨ps, levels, limits, []⟩
    let ts ← fRunTasksP P o L levels limits o.maxNumLevels pss iss
    return t :: ts

/-- One iteration of the loop of `dnest_run`, cdnest/dnest.c:224-382, with the model's own moves. -/
noncomputable def fRoundP (P : FPerturb n) (o : SOpts) (L : (Fin n → ℝ) → Fl) (i : RoundInP n)
    (s : FSampler n) : Res (FSampler n) := do
  let ts ← fRunTasksP P o L s.levels s.limits s.maxLvRoot s.tasks i.steps
  let s ← fGatherTasks o s ts i.kill
  fSaveStep o ⟨[], i.kill, i.saveTask, i.saveParticle⟩ s

/-- States of a fresh run from particles drawn by the model's `from_prior` (`D` says which vectors it can give) after any
number of rounds (cdnest/dnest.c:199-382, 1115-1145). -/
inductive FWholeRun (P : FPerturb n) (D : (Fin n → ℝ) → Prop) (L : (Fin n → ℝ) → Fl) (o : SOpts) : FSampler n → Prop
  | start (tie : ℝ) (draws : List (List ((Fin n → ℝ) × ℝ))) :
      ValidDraws o draws → (∀ l ∈ draws, ∀ x ∈ l, D x.1) → FWholeRun P D L o (fInitSampler o L tie draws)
  | round {a b : FSampler n} (i : RoundInP n) :
      FWholeRun P D L o a → ValidRoundP o i → fRoundP P o L i a = .ok b → FWholeRun P D L o b

/-- `perturb_vmap_prior0`/`perturb_vmap_prior1` as the sampler sees them (src/dnest_vmap.c:402-526). -/
noncomputable def vmapPerturb (c : LineCfg) : FPerturb c.numParams := fun s x => do
  let q ← c.vPerturb s (extendVec x)
  return (fun i => q.1 i, q.2)

/-- What `from_prior_vmap` draws (src/dnest_vmap.c:299-366) into whatever memory. -/
def VmapDrawn (c : LineCfg) (x : Fin c.numParams → ℝ) : Prop :=
  ∃ (d : LineDraw) (mem pm : ℕ → ℝ), (∀ i, 0 ≤ d.u i ∧ d.u i ≤ 1) ∧ c.vFromPrior d mem = .ok pm ∧ ∀ i, x i = pm i

/-- A move whose `logH` is a number, among the moves of this file. -/
noncomputable def Perturb.toFl (P : Perturb n) : FPerturb n := fun s x => do
  let q ← P s x
  return (q.1, .fin q.2)

end Mica
