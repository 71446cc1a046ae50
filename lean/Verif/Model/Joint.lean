import Verif.Model.Sampler
import Verif.Model.LineParams
import Mathlib.Analysis.SpecialFunctions.Pow.Real

/-!
# One step of the sampler with the models' own moves

`updateParticle` (Model/Sampler.lean) takes the proposal as an input.  Here the proposal is computed
by the model's `perturb` from the particle, its level and the level limits, as in the code.
-/

namespace Mica

/-- `dnest_randh`, cdnest/dnest.c:1546-1549: `a` is the Student-t number, `g` the Gaussian one. -/
noncomputable def randh (a g : ℝ) : ℝ := (10 : ℝ) ^ (1.5 - 3 * |a|) * g

/-- The cast of a `double` to `int`: truncation towards zero.  Simplification: no overflow. -/
noncomputable def truncInt (x : ℝ) : ℤ := if 0 ≤ x then ⌊x⌋ else ⌈x⌉

/-- `(int)(pow(10.0, 2*gsl_rng_uniform(..))*gsl_ran_ugaussian(..))`, cdnest/dnest.c:785-786. -/
noncomputable def levelStep (u g : ℝ) : ℤ := truncInt ((10 : ℝ) ^ (2 * u) * g)

/-- The model's `perturb` function (a pointer in `DNestFptrSet`, cdnest/dnest.h): proposal and
`logH` from the sampler's context and a particle. -/
abbrev Perturb (n : ℕ) := ConStep n → (Fin n → ℝ) → Res ((Fin n → ℝ) × ℝ)

/-- `dnest_get_limit` for a level and a parameter, cdnest/dnest.c:1611-1616.  Simplification: reading
outside the allocated table gives (0,0); the models' moves never do (`C16`). -/
noncomputable def limitAt {n : ℕ} (limits : List (Lim n)) (l : ℤ) (k : Fin n) : ℝ × ℝ :=
  ((limits[l.toNat]?).getD fun _ => (0, 0)) k

/-- `update_particle` including its call of `perturb`, cdnest/dnest.c:729-779
(`dnest_which_level_update` is the particle's level, line 741). -/
noncomputable def perturbUpdate {n : ℕ} (P : Perturb n) (L : (Fin n → ℝ) → ℝ) (which : ℕ)
    (cands : List (Fin n)) (h uTie uAcc : ℝ) (t : TaskSt n) : Res (TaskSt n) := do
  let p ← Res.get t.particles which
  let q ← P ⟨cands, h, p.level, t.levels.length, limitAt t.limits⟩ p.params
  updateParticle L which ⟨q.1, q.2, uTie, uAcc⟩ t

/-- The two moves of one particle in random order, cdnest/dnest.c:709-718.  `r` holds the random
numbers: the order, then the step and acceptance number of the particle move, then displacement,
direction and acceptance number of the level move. -/
noncomputable def samplerMove {n : ℕ} (P : Perturb n) (o : SOpts) (L : (Fin n → ℝ) → ℝ) (maxLv : ℕ)
    (which : ℕ) (cands : List (Fin n)) (uTie : ℝ) (r : ℝ × (ℝ × ℝ) × (ℤ × ℝ × ℝ)) (t : TaskSt n) :
    Res (TaskSt n) :=
  let la : LAIn := ⟨r.2.2.1, r.2.2.2.1, r.2.2.2.2⟩
  if r.1 ≤ 0.5 then do
    let t ← perturbUpdate P L which cands r.2.1.1 uTie r.2.1.2 t
    updateLevelAssignment o maxLv which la t
  else do
    let t ← updateLevelAssignment o maxLv which la t
    perturbUpdate P L which cands r.2.1.1 uTie r.2.1.2 t

/-- `perturb_con` as the sampler sees it (src/dnest_con.c:160-193; `logH` is 0). -/
noncomputable def conPerturb {n : ℕ} (c : ConCfg n) : Perturb n := fun s x => do
  let q ← perturbCon c s x
  return (q, 0)

/-- A parameter vector of the sampler as the function `LineCfg.perturb` works on. -/
def extendVec {n : ℕ} (x : Fin n → ℝ) : ℕ → ℝ := fun i => if h : i < n then x ⟨i, h⟩ else 0

/-- `perturb_line_prior0`/`perturb_line_prior1` as the sampler sees them
(src/dnest_line.c:570-705). -/
noncomputable def linePerturb (c : LineCfg) : Perturb c.numParams := fun s x => do
  let q ← c.perturb s (extendVec x)
  return (fun i => q.1 i, q.2)

end Mica
