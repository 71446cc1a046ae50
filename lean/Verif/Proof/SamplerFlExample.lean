import Verif.Proof.SamplerFl
import Verif.Proof.SamplerExample

/-! Concrete runs of the sampler with likelihoods that are not numbers. -/

namespace Mica

open Classical

/-- A likelihood that is `w` at 7 and an ordinary number elsewhere. -/
noncomputable def flL (w : Fl) : (Fin 1 → ℝ) → Fl := fun x => if x 0 = 7 then w else .fin (exL x)

/-- A prior draw at `a`. -/
noncomputable def flDraws (a : ℝ) : List (List ((Fin 1 → ℝ) × ℝ)) := [[(fun _ => a, 0)]]

/-- One round, with one proposal at 7. -/
noncomputable def flRound : FRoundIn 1 where
  steps := [[⟨0, 0, ⟨fun _ => 7, .fin 0, 0, 0⟩, ⟨1, 0, 0⟩⟩]]
  kill := ⟨[0], []⟩
  saveTask := 0
  saveParticle := 0

theorem flRound_valid : FValidRound exOpts flRound where
  nTasks := rfl
  nSteps := by simp [flRound, exOpts]
  which := by simp [flRound, exOpts]
  killU := rfl
  killC := by simp [flRound]
  saveTask := by simp [flRound, exOpts]
  saveParticle := by simp [flRound, exOpts]

theorem flDraws_valid (a : ℝ) : ValidDraws exOpts (flDraws a) := ⟨rfl, by simp [flDraws, exOpts]⟩

theorem flL_noInf {w : Fl} (h : w = .nan ∨ w = .inf true) : NoInf (flL w) := by
  intro x
  unfold flL
  split
  · rcases h with rfl | rfl <;> simp
  · simpa using exL_bound x

theorem flL_seven (w : Fl) : flL w (fun _ => 7) = w := by simp [flL]

theorem fl_enough (l : List FLevel) : fEnoughLevels exOpts 2 l = .ok (decide (l.length ≥ 2)) := by
  simp [fEnoughLevels]

theorem fl_mod : modInt (proposeLevel 0 ⟨1, 0, 0⟩) 1 = .ok 0 := by norm_num [modInt, proposeLevel]

theorem fl_la (p : FParticle 1) (hp : p.level = 0) (l : FLevel) (hl : l.logl.value = .fin (-DBL_MAX))
    (hv : ¬ Fl.lt (.fin (-DBL_MAX)) p.logl.value) (lims : List (Lim 1)) :
    fUpdateLevelAssignment exOpts 2 0 ⟨1, 0, 0⟩ ⟨[p], [l], lims, []⟩ = .ok ⟨[p], [l], lims, []⟩ := by
  simp [fUpdateLevelAssignment, Res.get, hp, fl_mod, fLogPush, fl_enough, hl, hv]

/-- The level table at the start. -/
noncomputable def flLv0 : FLevel := ⟨⟨.fin (-DBL_MAX), 0⟩, 0, 0, 0, 0, 0⟩

theorem fl_up_bad {w : Fl} (h : w = .nan ∨ w = .inf true) (lims : List (Lim 1)) :
    fUpdateParticle (flL w) 0 ⟨fun _ => 7, .fin 0, 0, 0⟩
      ⟨[⟨fun _ => 7, ⟨w, 0⟩, 0⟩], [flLv0], lims, []⟩ =
      .ok ⟨[⟨fun _ => 7, ⟨w, 0⟩, 0⟩], [{ flLv0 with tries := 1 }], lims, []⟩ := by
  have hlt : ∀ c, ¬ Fl.lt (.fin c) w := by rcases h with rfl | rfl <;> simp [Fl.lt]
  have hacc : ¬ fAcceptUP flLv0 (⟨fun _ => 7, .fin 0, 0, 0⟩ : FUPIn 1) w := fun g => hlt _ g.2
  simp [fUpdateParticle, Res.get, ex_wrap, flL_seven, hacc, fVisitLoop]
  simp [flLv0]

/-- A run that starts at a point whose likelihood is not a number saves that point. -/
theorem fl_run_bad {w : Fl} (h : w = .nan ∨ w = .inf true) :
    ∃ s, fRun exOpts (flL w) [flRound] (fInitSampler exOpts (flL w) 0 (flDraws 7)) = .ok s ∧
      s.saved = [⟨fun _ => 7, ⟨w, 0⟩, 0⟩] := by
  have hlt : ∀ c, ¬ Fl.lt (.fin c) w := by rcases h with rfl | rfl <;> simp [Fl.lt]
  have hd : fFinished exOpts (fInitSampler exOpts (flL w) 0 (flDraws 7)) = False := by
    simp [fFinished, fInitSampler]
  have h0 : (0 : ℝ) ≤ 0.5 := by norm_num
  have ht : fRunTasks exOpts (flL w) [flLv0] (fInitSampler exOpts (flL w) 0 (flDraws 7)).limits 2
      (fInitSampler exOpts (flL w) 0 (flDraws 7)).tasks flRound.steps = .ok
      [⟨[⟨fun _ => 7, ⟨w, 0⟩, 0⟩], [{ flLv0 with tries := 1 }],
        (fInitSampler exOpts (flL w) 0 (flDraws 7)).limits, []⟩] := by
    have hla := fl_la ⟨fun _ => 7, ⟨w, 0⟩, 0⟩ rfl { flLv0 with tries := 1 } rfl (hlt _)
    simp [fInitSampler, flDraws, flRound, fRunTasks, fInitParticle, flL_seven, fMcmcRun, fMcmcStep,
      fMcmcMove, h0, fl_up_bad h, hla, fl_enough, Res.get]
    rw [if_neg (show ¬ Fl.lt flLv0.logl.value w from hlt _)]
    rfl
  simp only [fRun, hd, if_false, fRound]
  rw [show (fInitSampler exOpts (flL w) 0 (flDraws 7)).levels = [flLv0] from rfl,
    show (fInitSampler exOpts (flL w) 0 (flDraws 7)).maxLvRoot = 2 from rfl, ht]
  simp only [Res.ok_bind, fGatherTasks]
  simp [fDoBookkeeping, fInitSampler, Res.get, fl_enough, fMergeLevels, fAddTask, fAddCounts, fSaveStep,
    flRound]

theorem fl_up_inf (lims : List (Lim 1)) :
    fUpdateParticle (flL (.inf false)) 0 ⟨fun _ => 7, .fin 0, 0, 0⟩
      ⟨[⟨fun _ => 1, ⟨.fin 1, 0⟩, 0⟩], [flLv0], lims, []⟩ =
      .ok ⟨[⟨fun _ => 7, ⟨.inf false, 0⟩, 0⟩], [{ flLv0 with accepts := 1, tries := 1 }], lims, []⟩ := by
  have hacc : fAcceptUP flLv0 (⟨fun _ => 7, .fin 0, 0, 0⟩ : FUPIn 1) (.inf false) := by
    simp [fAcceptUP, Fl.lt, Fl.exp, Fl.le, flLv0]
  simp [fUpdateParticle, Res.get, ex_wrap, flL_seven, hacc, fVisitLoop]
  simp [flLv0]

theorem fRecalc_value (o : SOpts) (ls : List FLevel) :
    (fRecalcLogX o ls).map (·.logl.value) = ls.map (·.logl.value) := by
  have hf : ∀ (ls : List FLevel) (p : FLevel), (fRecalcFrom o p ls).map (·.logl.value) =
      ls.map (·.logl.value) := by
    intro ls
    induction ls with
    | nil => intro p; rfl
    | cons l ls ih => intro p; simp [fRecalcFrom, ih]
  cases ls with
  | nil => rfl
  | cons l ls => simp [fRecalcLogX, hf]

theorem fRenorm_value (r : ℕ) (l : FLevel) : (fRenormLevel r l).logl.value = l.logl.value := by
  unfold fRenormLevel
  by_cases h1 : l.tries ≥ r <;> by_cases h2 : l.visits ≥ r <;> simp only [h1, h2, if_true, if_false]

/-- A run that meets a likelihood of plus infinity makes it a threshold. -/
theorem fl_run_inf :
    ∃ s, fRun exOpts (flL (.inf false)) [flRound]
        (fInitSampler exOpts (flL (.inf false)) 0 (flDraws 1)) = .ok s ∧
      s.levels.map (·.logl.value) = [.fin (-DBL_MAX), .inf false] := by
  have h1 : flL (.inf false) (fun _ => 1) = .fin 1 := by norm_num [flL, exL]
  have hd : fFinished exOpts (fInitSampler exOpts (flL (.inf false)) 0 (flDraws 1)) = False := by
    simp [fFinished, fInitSampler]
  have h0 : (0 : ℝ) ≤ 0.5 := by norm_num
  have hla : ∀ (lim0 : Lim 1) (lims : List (Lim 1)), fUpdateLevelAssignment exOpts 2 0 ⟨1, 0, 0⟩
      ⟨[⟨fun _ => 7, ⟨.inf false, 0⟩, 0⟩], [{ flLv0 with accepts := 1, tries := 1 }], lim0 :: lims, []⟩ =
      .ok ⟨[⟨fun _ => 7, ⟨.inf false, 0⟩, 0⟩], [{ flLv0 with accepts := 1, tries := 1 }],
        extendLim lim0 (fun _ => 7) :: lims, []⟩ := by
    intro lim0 lims
    simp [fUpdateLevelAssignment, Res.get, fl_mod, fLogPush, fl_enough, flLv0, Fl.lt, Real.exp_nonneg]
  have ht : fRunTasks exOpts (flL (.inf false)) [flLv0]
      (fInitSampler exOpts (flL (.inf false)) 0 (flDraws 1)).limits 2
      (fInitSampler exOpts (flL (.inf false)) 0 (flDraws 1)).tasks flRound.steps = .ok
      [⟨[⟨fun _ => 7, ⟨.inf false, 0⟩, 0⟩], [{ flLv0 with accepts := 1, tries := 1 }],
        [extendLim (fun _ => (DBL_MAX, -DBL_MAX)) (fun _ => 7), fun _ => (DBL_MAX, -DBL_MAX)],
        [⟨.inf false, 0⟩]⟩] := by
    simp [fInitSampler, flDraws, flRound, fRunTasks, fInitParticle, h1, fMcmcRun, fMcmcStep,
      fMcmcMove, h0, fl_up_inf, SOpts.levelCap, List.replicate, hla, fl_enough, Res.get]
    simp [flLv0, Fl.lt]
  have hfl : ⌊(2 : ℝ)⁻¹⌋₊ = 0 := by rw [Nat.floor_eq_zero]; norm_num
  simp only [fRun, hd, if_false, fRound]
  rw [show (fInitSampler exOpts (flL (.inf false)) 0 (flDraws 1)).levels = [flLv0] from rfl,
    show (fInitSampler exOpts (flL (.inf false)) 0 (flDraws 1)).maxLvRoot = 2 from rfl, ht]
  simp only [Res.ok_bind, fGatherTasks]
  simp [fDoBookkeeping, fCreateLevel, fInitSampler, Res.get, fl_enough, fMergeLevels, fAddTask,
    fAddCounts, msortC, SOpts.levelCap, hfl, fSaveStep, flRound, fRecalc_value, fRenorm_value, flLv0]

end Mica
