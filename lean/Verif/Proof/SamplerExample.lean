import Verif.Proof.Sampler
import Mathlib.Tactic.NormNum

/-!
# A concrete run of the sampler

One task, one particle, one step per round.  In the first round the particle moves, its likelihood is
collected, a level is created (and, the table being full, counts are renormalised), and the particle
is saved.  It witnesses that the hypotheses of the sampler theorems are met by non-trivial runs.
-/

namespace Mica

theorem DBL_MAX_pos : 0 < DBL_MAX := by
  unfold DBL_MAX; norm_num

theorem DBL_MAX_big : 5 ≤ DBL_MAX := by
  unfold DBL_MAX
  have h : (1 : ℝ) ≤ 2 ^ 971 := one_le_pow₀ (by norm_num)
  have h2 : (5 : ℝ) ≤ 2 ^ 53 - 1 := by norm_num
  calc (5 : ℝ) = 5 * 1 := by ring
    _ ≤ (2 ^ 53 - 1) * 2 ^ 971 := mul_le_mul h2 h (by norm_num) (by linarith)

/-- Options of the example: levels are created until there are two. -/
noncomputable def exOpts : SOpts where
  numParticles := 1
  newLevelInterval := 1
  saveInterval := 1
  threadSteps := 1
  maxNumLevels := 2
  maxNumSaves := 3
  lam := 1
  beta := 1
  ptol := 0.1
  compression := 2
  regularisation := 1
  sizeAllAboveMax := 6
  totalTask := 1
  flagLimits := true

@[simp] theorem exOpts_numParticles : exOpts.numParticles = 1 := rfl
@[simp] theorem exOpts_newLevelInterval : exOpts.newLevelInterval = 1 := rfl
@[simp] theorem exOpts_saveInterval : exOpts.saveInterval = 1 := rfl
@[simp] theorem exOpts_threadSteps : exOpts.threadSteps = 1 := rfl
@[simp] theorem exOpts_maxNumLevels : exOpts.maxNumLevels = 2 := rfl
@[simp] theorem exOpts_maxNumSaves : exOpts.maxNumSaves = 3 := rfl
@[simp] theorem exOpts_compression : exOpts.compression = 2 := rfl
@[simp] theorem exOpts_regularisation : exOpts.regularisation = 1 := rfl
@[simp] theorem exOpts_sizeAllAboveMax : exOpts.sizeAllAboveMax = 6 := rfl
@[simp] theorem exOpts_totalTask : exOpts.totalTask = 1 := rfl
@[simp] theorem exOpts_flagLimits : exOpts.flagLimits = true := rfl

/-- Likelihood of the example: the parameter itself, cut off at -5. -/
noncomputable def exL : (Fin 1 → ℝ) → ℝ := fun x => max (x 0) (-5)

/-- A prior draw at 1. -/
noncomputable def exDraws : List (List ((Fin 1 → ℝ) × ℝ)) := [[(fun _ => 1, 0)]]

/-- One round: the particle moves to 3. -/
noncomputable def exRound : RoundIn 1 where
  steps := [[⟨0, 0, ⟨fun _ => 3, 0, 0, 0⟩, ⟨1, 0, 0⟩⟩]]
  kill := ⟨[0], []⟩
  saveTask := 0
  saveParticle := 0

theorem exL_bound : ∀ x, -DBL_MAX ≤ exL x := by
  intro x
  have : (5 : ℝ) ≤ DBL_MAX := DBL_MAX_big
  have h := le_max_right (x 0) (-5 : ℝ)
  unfold exL; linarith

theorem exRound_valid : ValidRound exOpts exRound where
  nTasks := rfl
  nSteps := by simp [exRound, exOpts]
  which := by simp [exRound, exOpts]
  killU := rfl
  killC := by simp [exRound]
  saveTask := by simp [exRound, exOpts]
  saveParticle := by simp [exRound, exOpts]

theorem exDraws_valid : ValidDraws exOpts exDraws := ⟨rfl, by simp [exDraws, exOpts]⟩

theorem ex_wrap : dnestWrap 0 0 1 = .ok 0 := by norm_num [dnestWrap, cmod]

theorem exL_three : exL (fun _ => 3) = 3 := by norm_num [exL]

theorem ex_lt : -DBL_MAX < (3 : ℝ) := by have := DBL_MAX_pos; linarith

theorem ex_enough (l : List Level) : enoughLevels exOpts 2 l = .ok (decide (l.length ≥ 2)) := by
  simp [enoughLevels]

/-- Level table of the example at the start. -/
noncomputable def exLv0 : List Level := [⟨⟨-DBL_MAX, 0⟩, 0, 0, 0, 0, 0⟩]

theorem ex_up (lim : List (Lim 1)) :
    updateParticle exL 0 ⟨fun _ => 3, 0, 0, 0⟩ ⟨[⟨fun _ => 1, ⟨1, 0⟩, 0⟩], exLv0, lim, []⟩ =
      .ok ⟨[⟨fun _ => 3, ⟨3, 0⟩, 0⟩], [⟨⟨-DBL_MAX, 0⟩, 0, 0, 0, 1, 1⟩], lim, []⟩ := by
  have : acceptUP (⟨⟨-DBL_MAX, 0⟩, 0, 0, 0, 0, 0⟩ : Level)
      (⟨fun _ => 3, 0, 0, 0⟩ : UPIn 1) 3 := by
    simp only [acceptUP]; exact ⟨by simp, ex_lt⟩
  simp [updateParticle, exLv0, Res.get, ex_wrap, exL_three, this, visitLoop]

theorem ex_la (lim0 : Lim 1) (lims : List (Lim 1)) :
    updateLevelAssignment exOpts 2 0 ⟨1, 0, 0⟩
      ⟨[⟨fun _ => 3, ⟨3, 0⟩, 0⟩], [⟨⟨-DBL_MAX, 0⟩, 0, 0, 0, 1, 1⟩], lim0 :: lims, []⟩ =
      .ok ⟨[⟨fun _ => 3, ⟨3, 0⟩, 0⟩], [⟨⟨-DBL_MAX, 0⟩, 0, 0, 0, 1, 1⟩],
        extendLim lim0 (fun _ => 3) :: lims, []⟩ := by
  have hm : modInt (proposeLevel 0 ⟨1, 0, 0⟩) 1 = .ok 0 := by norm_num [modInt, proposeLevel]
  simp [updateLevelAssignment, Res.get, hm, logPush, ex_enough, ex_lt, Real.exp_nonneg]

theorem ex_mcmc (lim0 : Lim 1) (lims : List (Lim 1)) :
    mcmcRun exOpts exL 2 [⟨0, 0, ⟨fun _ => 3, 0, 0, 0⟩, ⟨1, 0, 0⟩⟩]
      ⟨[⟨fun _ => 1, ⟨1, 0⟩, 0⟩], exLv0, lim0 :: lims, []⟩ =
      .ok ⟨[⟨fun _ => 3, ⟨3, 0⟩, 0⟩], [⟨⟨-DBL_MAX, 0⟩, 0, 0, 0, 1, 1⟩],
        extendLim lim0 (fun _ => 3) :: lims, [⟨3, 0⟩]⟩ := by
  have h0 : (0 : ℝ) ≤ 0.5 := by norm_num
  simp [mcmcRun, mcmcStep, mcmcMove, h0, ex_up, ex_la, ex_enough, Res.get, ex_lt]

/-- The state after the round. -/
theorem ex_run : ∃ s, run exOpts exL [exRound] (initSampler exOpts exL 0 exDraws) = .ok s ∧
    s.levels.map (·.logl) = [⟨-DBL_MAX, 0⟩, ⟨3, 0⟩] ∧ s.saved = [⟨fun _ => 3, ⟨3, 0⟩, 0⟩] := by
  have h1 : exL (fun _ => 1) = 1 := by norm_num [exL]
  have hf : ¬ finished exOpts (initSampler exOpts exL 0 exDraws) := by
    simp [finished, initSampler]
  have ht : runTasks exOpts exL exLv0 (initSampler exOpts exL 0 exDraws).limits 2
      (initSampler exOpts exL 0 exDraws).tasks exRound.steps = .ok
      [⟨[⟨fun _ => 3, ⟨3, 0⟩, 0⟩], [⟨⟨-DBL_MAX, 0⟩, 0, 0, 0, 1, 1⟩],
        [extendLim (fun _ => (DBL_MAX, -DBL_MAX)) (fun _ => 3), fun _ => (DBL_MAX, -DBL_MAX)],
        [⟨3, 0⟩]⟩] := by
    simp [initSampler, exDraws, exRound, runTasks, initParticle, h1, SOpts.levelCap,
      List.replicate, ex_mcmc]
  have hd : finished exOpts (initSampler exOpts exL 0 exDraws) = False := by simp [hf]
  simp only [run, hd, if_false, round]
  rw [show (initSampler exOpts exL 0 exDraws).levels = exLv0 from rfl,
    show (initSampler exOpts exL 0 exDraws).maxLvRoot = 2 from rfl, ht]
  simp only [Res.ok_bind, gatherTasks]
  have hfl : ⌊(2 : ℝ)⁻¹⌋₊ = 0 := by rw [Nat.floor_eq_zero]; norm_num
  simp [doBookkeeping, createLevel, initSampler, Res.get, ex_enough, mergeLevels, addTask,
    addCounts, msortC, SOpts.levelCap, hfl, saveStep, exRound, recalcLogX_map, renormLevel_logl]

/-- The state after the round is reachable. -/
theorem ex_reachable : ∃ s, Reachable exOpts exL s ∧
    s.levels.map (·.logl) = [⟨-DBL_MAX, 0⟩, ⟨3, 0⟩] ∧ s.saved = [⟨fun _ => 3, ⟨3, 0⟩, 0⟩] := by
  obtain ⟨s, hs, h⟩ := ex_run
  exact ⟨s, ⟨0, exDraws, [exRound], exDraws_valid, by simpa using exRound_valid, hs⟩, h⟩

end Mica
