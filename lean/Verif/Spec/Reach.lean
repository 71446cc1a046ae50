import Verif.Model.Joint

/-!
# Sequences of sampler steps of one particle

For the statements of `C131`: which states of a particle can be reached by the sampler's own moves.
-/

namespace Mica

/-- The random numbers of one step of the sampler (`samplerMove`): indices drawn for the parameter to
move, the number added to the tiebreaker, and the numbers of the two moves. -/
structure MoveIn (n : ℕ) where
  cands : List (Fin n)
  uTie : ℝ
  r : ℝ × (ℝ × ℝ) × (ℤ × ℝ × ℝ)

/-- Uniform numbers are in `[0,1)`; the acceptance numbers are moreover positive, so that no step of a
path rests on drawing exactly zero. -/
def MoveIn.Drawn {n : ℕ} (i : MoveIn n) : Prop :=
  (0 ≤ i.uTie ∧ i.uTie < 1) ∧ (0 ≤ i.r.1 ∧ i.r.1 < 1) ∧ (0 < i.r.2.1.2 ∧ i.r.2.1.2 < 1) ∧
    (0 ≤ i.r.2.2.2.1 ∧ i.r.2.2.2.1 < 1) ∧ 0 < i.r.2.2.2.2 ∧ i.r.2.2.2.2 < 1

/-- Steps of particle `which` one after the other: the loop of `dnest_mcmc_run`,
cdnest/dnest.c:692-726, when the particle drawn is always `which`.  Simplification: the list of
likelihoods above the last level, which the moves do not look at, is left out. -/
noncomputable def runMoves {n : ℕ} (P : Perturb n) (o : SOpts) (L : (Fin n → ℝ) → ℝ) (maxLv which : ℕ) :
    List (MoveIn n) → TaskSt n → Res (TaskSt n)
  | [], t => .ok t
  | i :: is, t => do
    let t ← samplerMove P o L maxLv which i.cands i.uTie i.r t
    runMoves P o L maxLv which is t

/-- From task state `t` some run of steps takes particle `which` to the parameters `y` at level `k`,
leaving the other particles and the thresholds of the levels as they were. -/
def CanReach {n : ℕ} (P : Perturb n) (o : SOpts) (L : (Fin n → ℝ) → ℝ) (maxLv which : ℕ)
    (t : TaskSt n) (y : Fin n → ℝ) (k : ℕ) : Prop :=
  ∃ is : List (MoveIn n), (∀ i ∈ is, i.Drawn) ∧ ∃ t' tie, runMoves P o L maxLv which is t = .ok t' ∧
    t'.particles = t.particles.set which ⟨y, ⟨L y, tie⟩, k⟩ ∧
    t'.levels.map (·.logl) = t.levels.map (·.logl)

end Mica
