import Verif.Proof.Invariance6

/-!
# Helper lemmas for C109: the laws of the random steps are symmetric
-/

open MeasureTheory Set

namespace Mica

theorem measurable_randh : Measurable fun p : ℝ × ℝ => randh p.1 p.2 := by
  unfold randh
  have : Measurable fun p : ℝ × ℝ => 1.5 - 3 * |p.1| := by fun_prop
  exact (this.const_pow _).mul measurable_snd

theorem truncInt_neg (x : ℝ) : truncInt (-x) = -truncInt x := by
  unfold truncInt
  rcases lt_trichotomy x 0 with h | rfl | h
  · rw [if_pos (by linarith), if_neg (by linarith), Int.floor_neg]
  · simp
  · rw [if_neg (by linarith), if_pos h.le, Int.ceil_neg]

theorem measurable_truncInt : Measurable truncInt :=
  Measurable.ite (measurableSet_le measurable_const measurable_id) Int.measurable_floor
    Int.measurable_ceil

theorem measurable_levelStep : Measurable fun p : ℝ × ℝ => levelStep p.1 p.2 := by
  unfold levelStep
  have : Measurable fun p : ℝ × ℝ => 2 * p.1 := by fun_prop
  exact measurable_truncInt.comp ((this.const_pow _).mul measurable_snd)

theorem gauss_neg (τ : Measure ℝ) [IsProbabilityMeasure τ] :
    (τ.prod (ProbabilityTheory.gaussianReal 0 1)).map (fun p => (p.1, -p.2)) =
      τ.prod (ProbabilityTheory.gaussianReal 0 1) := by
  have h := ProbabilityTheory.gaussianReal_map_neg (μ := 0) (v := 1)
  rw [neg_zero] at h
  conv_rhs => rw [← Measure.map_id (μ := τ), ← h]
  exact Measure.map_prod_map τ _ measurable_id measurable_neg |>.symm

instance (τ : Measure ℝ) [IsProbabilityMeasure τ] : IsProbabilityMeasure (randhLaw τ) :=
  Measure.isProbabilityMeasure_map measurable_randh.aemeasurable

instance : IsProbabilityMeasure levelStepLaw :=
  Measure.isProbabilityMeasure_map measurable_levelStep.aemeasurable

theorem randhLaw_symm (τ : Measure ℝ) [IsProbabilityMeasure τ] :
    (randhLaw τ).map (fun h => -h) = randhLaw τ := by
  unfold randhLaw
  rw [Measure.map_map measurable_neg measurable_randh]
  conv_rhs => rw [← gauss_neg τ]
  rw [Measure.map_map measurable_randh (by fun_prop)]
  congr 1
  funext p
  simp [randh]

theorem levelStepLaw_symm : levelStepLaw.map (fun k => -k) = levelStepLaw := by
  unfold levelStepLaw
  rw [Measure.map_map measurable_neg measurable_levelStep]
  conv_rhs => rw [← gauss_neg unif]
  rw [Measure.map_map measurable_levelStep (by fun_prop)]
  congr 1
  funext p
  simp [levelStep, truncInt_neg]

end Mica
