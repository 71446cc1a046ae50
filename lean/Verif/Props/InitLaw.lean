import Verif.Proof.InitOrder
import Verif.Props.LineParams

/-! # C120: the first particles are drawn from the prior -/

open MeasureTheory Set
open scoped ENNReal

namespace Mica

/-- **C120, continuum.** With independent uniform random numbers the first particles of the continuum run have exactly the
distribution of the prior: free parameters independent and uniform over their ranges, fixed ones at their values. -/
theorem C120_continuum {n : ℕ} (c : ConCfg n) (h : ∀ i, c.fix i = none → c.lo i < c.hi i) :
    (Measure.pi fun _ : Fin n => unif).map (fromPriorCon c) = normalised (conPrior c) := by
  let g : Fin n → ℝ → ℝ := fun i u => match c.fix i with
    | some v => v
    | none => c.lo i + u * (c.hi i - c.lo i)
  let m : Fin n → Measure ℝ := fun i => match c.fix i with
    | some v => Measure.dirac v
    | none => volume.restrict (Ico (c.lo i) (c.hi i))
  let k : Fin n → ℝ≥0∞ := fun i => match c.fix i with
    | some _ => 1
    | none => (ENNReal.ofReal (c.hi i - c.lo i))⁻¹
  have hg : ∀ i, Measurable (g i) := fun i => by
    simp only [g]
    cases c.fix i with
    | some v => exact measurable_const
    | none => simp only; fun_prop
  have hmf : ∀ i, IsFiniteMeasure (m i) := fun i => by
    simp only [m]
    cases c.fix i with
    | some v => simp only; infer_instance
    | none => simp only; infer_instance
  have hk : ∀ i, k i ≠ ∞ := fun i => by
    simp only [k]
    cases hf : c.fix i with
    | some v => simp
    | none =>
      simp only [ne_eq, ENNReal.inv_eq_top, ENNReal.ofReal_eq_zero, not_le]
      exact sub_pos.2 (h i hf)
  have he : ∀ i, unif.map (g i) = k i • m i := fun i => by
    simp only [g, k, m]
    cases hf : c.fix i with
    | some v => simp only [Measure.map_const, measure_univ, one_smul]
    | none => exact map_unif (h i hf)
  have hp : ∀ i, IsProbabilityMeasure (unif.map (g i)) := fun i => Measure.isProbabilityMeasure_map (hg i).aemeasurable
  have e1 : (Measure.pi fun _ : Fin n => unif).map (fromPriorCon c) = (∏ i, k i) • conPrior c := by
    have hfp : fromPriorCon c = fun u i => g i (u i) := rfl
    rw [hfp]
    have e2 : (Measure.pi fun _ : Fin n => unif).map (fun u i => g i (u i)) = Measure.pi fun i => unif.map (g i) :=
      Measure.pi_map_pi fun i => (hg i).aemeasurable
    rw [e2]
    simp only [he]
    exact pi_smul m hmf k hk
  have : IsProbabilityMeasure ((Measure.pi fun _ : Fin n => unif).map (fromPriorCon c)) :=
    Measure.isProbabilityMeasure_map (measurable_pi_lambda _ fun i => (hg i).comp (measurable_pi_apply i)).aemeasurable
  exact eq_normalised e1

/-- What the prior asks of the lags: with the ordered lag prior those of a line are in order. -/
def lagOrder (c : LineCfg) : Set (Fin c.numParams → ℝ) :=
  {y | c.typeLag = 0 → ∀ i j k, i < c.nl.length → j < ownLines c i → k + 1 < c.ng →
    extendVec y (lineStart c i j + (3 * k + 2)) ≤ extendVec y (lineStart c i j + (3 * (k + 1) + 2))}

theorem lagOrder_univ (c : LineCfg) (ho : c.ordered = false) : lagOrder c = univ := by
  refine eq_univ_of_forall fun y h i j k _ _ hk => ?_
  unfold LineCfg.ordered at ho
  simp only [decide_eq_false_iff_not, not_and] at ho
  exact absurd (ho h) (by omega)

theorem oneLaw_agrees (c : LineCfg) (hl : ∀ i < c.numParams, c.numVar ≤ i → c.fix i = none → (c.rng i).1 < (c.rng i).2)
    (i : Fin c.numParams) (hi : c.numVar ≤ (i : ℕ) ∨ c.fix i ≠ none) :
    oneLaw c i = normalised ((oneBase c i).withDensity (oneDensity c i)) := by
  cases hf : c.fix i with
  | some w =>
    have hd : oneDensity c i w ≠ 0 := by
      unfold oneDensity
      rw [if_neg (by rw [hf]; simp), one_mul]
      split
      · simp [Real.exp_pos]
      · simp
    rw [oneLaw_fixed hf]
    have hb : oneBase c i = Measure.dirac w := by simp [oneBase, hf]
    rw [hb, dirac_withDensity]
    refine eq_normalised (k := (oneDensity c i w)⁻¹) ?_
    rw [smul_smul, ENNReal.inv_mul_cancel hd (oneDensity_ne_top c i w), one_smul]
  | none =>
    have hi' : c.numVar ≤ (i : ℕ) := by
      rcases hi with h | h
      · exact h
      · exact absurd hf h
    rw [oneLaw_line hf hi' (hl i i.2 hi' hf), line_factor hf hi']

/-- **C120, line model.** Without penalties and common lags, the law of the first particles and the prior are both a product over the
parameters, restricted to the vectors with ordered lags if the lag prior is the ordered one; for each line parameter and each fixed one
the factors agree.  Missing for the full claim: the variability parameters, for which it is false (below); penalties; common lags. -/
theorem C120_line_partial (c : LineCfg) (hpos : c.posivity = false) (hgap : c.gap = false) (huni : c.uniTf ≠ 2)
    (hr : ∀ i < c.numVar, (c.rng i).1 < (c.rng i).2)
    (hl : ∀ i < c.numParams, c.numVar ≤ i → c.fix i = none → (c.rng i).1 < (c.rng i).2) (mem : ℕ → ℝ) (v : ℕ → ℕ → ℝ × ℝ) :
    ∃ σ π : Fin c.numParams → Measure ℝ, startLaw c mem v = normalised ((Measure.pi σ).restrict (lagOrder c)) ∧
      linePrior c = (Measure.pi π).restrict (lagOrder c) ∧
      (∀ i, IsProbabilityMeasure (σ i)) ∧ (∀ i, SigmaFinite (π i)) ∧
      ∀ i : Fin c.numParams, c.numVar ≤ (i : ℕ) ∨ c.fix i ≠ none → σ i = normalised (π i) := by
  refine ⟨fun i => oneLaw c i, fun i => (oneBase c i).withDensity (oneDensity c i), ?_, ?_,
    fun i => inferInstance, fun i => inferInstance, fun i hi => oneLaw_agrees c hl i hi⟩
  · have hprob : IsProbabilityMeasure (startLaw c mem v) := startLaw_prob c hpos huni hr hl mem v
    cases ho : c.ordered with
    | true =>
      rw [show lagOrder c = monoBlocks c.cenEmb from ext fun y => c.order_monoBlocks (ordered_type ho) huni y]
      exact eq_normalised (startLaw_ordered c ho hpos huni hr (lag_range ho huni hl) mem v).2
    | false =>
      rw [lagOrder_univ c ho, Measure.restrict_univ]
      refine eq_normalised (k := 1) ?_
      rw [one_smul]
      exact startLaw_pi c ho hpos huni hr mem v
  · cases ho : c.ordered with
    | true =>
      rw [show lagOrder c = monoBlocks c.cenEmb from ext fun y => c.order_monoBlocks (ordered_type ho) huni y]
      exact linePrior_ordered c (ordered_type ho) hpos hgap huni
    | false =>
      rw [lagOrder_univ c ho, Measure.restrict_univ]
      exact linePrior_pi c ho hpos hgap huni

/-! ## Variability parameters -/

theorem factor_of_pi {n : ℕ} {μ ν : Fin n → Measure ℝ} (hμ : ∀ i, IsProbabilityMeasure (μ i)) (hν : ∀ i, SigmaFinite (ν i))
    (h : Measure.pi μ = normalised (Measure.pi ν)) (i : Fin n) (A : Set ℝ) : μ i A * ν i univ = ν i A := by
  have hT : (Measure.pi ν univ)⁻¹ * Measure.pi ν univ = 1 := by
    have h1 : Measure.pi μ univ = 1 := measure_univ
    rw [h] at h1
    simpa [normalised] using h1
  have hT0 : Measure.pi ν univ ≠ 0 := by intro h0; rw [h0] at hT; simp at hT
  have hT1 : Measure.pi ν univ ≠ ∞ := by intro h0; rw [h0] at hT; simp at hT
  have hbox := congrArg (fun m => m (univ.pi (Function.update (fun _ => univ) i A))) h
  simp only [normalised, Measure.smul_apply, smul_eq_mul, Measure.pi_pi] at hbox
  have hprod : ∀ (m : Fin n → Measure ℝ), ∏ j, m j (Function.update (fun _ => univ) i A j) =
      m i A * ∏ j ∈ Finset.univ.erase i, m j univ := by
    intro m
    rw [← Finset.mul_prod_erase Finset.univ _ (Finset.mem_univ i), Function.update_self]
    congr 1
    refine Finset.prod_congr rfl fun j hj => ?_
    rw [Function.update_of_ne (Finset.ne_of_mem_erase hj)]
  rw [hprod μ, hprod ν] at hbox
  have hone : ∏ j ∈ Finset.univ.erase i, μ j univ = 1 := Finset.prod_eq_one fun j _ => measure_univ
  rw [hone, mul_one] at hbox
  have hTe : Measure.pi ν univ = ν i univ * ∏ j ∈ Finset.univ.erase i, ν j univ := by
    rw [Measure.pi_univ, ← Finset.mul_prod_erase Finset.univ _ (Finset.mem_univ i)]
  set R := ∏ j ∈ Finset.univ.erase i, ν j univ with hR
  have hR0 : R ≠ 0 := by intro h0; rw [hTe, h0, mul_zero] at hT0; exact hT0 rfl
  have hR1 : R ≠ ∞ := by
    intro h0
    rw [hTe, h0] at hT1
    have : ν i univ = 0 := by
      by_contra hne
      exact hT1 (ENNReal.mul_top hne)
    rw [hTe, this, zero_mul] at hT0
    exact hT0 rfl
  have key : μ i A * ν i univ * R = ν i A * R := by
    rw [mul_assoc, ← hTe, hbox]
    rw [mul_comm, ← mul_assoc, mul_comm (Measure.pi ν univ), hT, one_mul]
  exact (ENNReal.mul_left_inj hR0 hR1).1 key

/-- Mass of a factor of the prior. -/
theorem factor_mass (c : LineCfg) (hr : ∀ i < c.numVar, (c.rng i).1 < (c.rng i).2)
    (hl : ∀ i < c.numParams, c.numVar ≤ i → c.fix i = none → (c.rng i).1 < (c.rng i).2) (i : Fin c.numParams) :
    (oneBase c i).withDensity (oneDensity c i) univ ≠ 0 ∧ (oneBase c i).withDensity (oneDensity c i) univ ≠ ∞ := by
  by_cases hi : c.numVar ≤ (i : ℕ) ∨ c.fix i ≠ none
  · have h := oneLaw_agrees c hl i hi
    have h1 : (1 : ℝ≥0∞) = ((oneBase c i).withDensity (oneDensity c i) univ)⁻¹ * (oneBase c i).withDensity (oneDensity c i) univ := by
      have : oneLaw c i univ = 1 := measure_univ
      rw [h] at this
      rw [← this]; simp [normalised]
    constructor
    · intro h0; rw [h0] at h1; simp at h1
    · intro h0; rw [h0] at h1; simp at h1
  · push Not at hi
    obtain ⟨hi, hf⟩ := hi
    have hb : oneBase c i = volume := by simp [oneBase, hf]
    have hlt := hr i hi
    have hden : oneDensity c i = (Ico (c.rng i).1 (c.rng i).2).indicator fun t =>
        ENNReal.ofReal (Real.exp (-((t - c.varPar i) ^ 2 / (2 * c.varStd i ^ 2)))) := by
      funext t
      unfold oneDensity
      rw [if_pos hf, if_pos hi]
      by_cases ht : t ∈ Ico (c.rng i).1 (c.rng i).2
      · rw [indicator_of_mem ht, indicator_of_mem ht]; simp
      · rw [indicator_of_notMem ht, indicator_of_notMem ht]; simp
    have hmeas : Measurable fun t => ENNReal.ofReal (Real.exp (-((t - c.varPar i) ^ 2 / (2 * c.varStd i ^ 2)))) :=
      ENNReal.measurable_ofReal.comp (Real.measurable_exp.comp (by fun_prop))
    rw [hb, withDensity_apply _ MeasurableSet.univ, Measure.restrict_univ, hden, lintegral_indicator measurableSet_Ico]
    constructor
    · rw [Ne, lintegral_eq_zero_iff hmeas]
      intro h0
      have hz : volume.restrict (Ico (c.rng i).1 (c.rng i).2) univ = 0 := by
        refine measure_mono_null ?_ (ae_iff.1 h0)
        intro t _
        simp [Real.exp_pos]
      rw [Measure.restrict_apply_univ, Real.volume_Ico] at hz
      simp only [ENNReal.ofReal_eq_zero, tsub_le_iff_right, zero_add] at hz
      linarith
    · refine ne_of_lt (lt_of_le_of_lt (lintegral_mono (g := fun _ => 1) fun t => ?_) ?_)
      · rw [ENNReal.ofReal_le_one, Real.exp_le_one_iff]
        have : 0 ≤ (t - c.varPar i) ^ 2 / (2 * c.varStd i ^ 2) := by positivity
        linarith
      · simp

/-- If the law is the prior, it is so for each variability parameter. -/
theorem factor_of_law (c : LineCfg) (hpos : c.posivity = false) (hgap : c.gap = false) (huni : c.uniTf ≠ 2)
    (hr : ∀ i < c.numVar, (c.rng i).1 < (c.rng i).2)
    (hl : ∀ i < c.numParams, c.numVar ≤ i → c.fix i = none → (c.rng i).1 < (c.rng i).2) (mem : ℕ → ℝ) (v : ℕ → ℕ → ℝ × ℝ)
    (heq : startLaw c mem v = normalised (linePrior c)) (i : Fin c.numParams) (hi : (i : ℕ) < c.numVar) {A : Set ℝ} (hA : MeasurableSet A) :
    oneLaw c i A * (oneBase c i).withDensity (oneDensity c i) univ = (oneBase c i).withDensity (oneDensity c i) A := by
  cases ho : c.ordered with
  | false =>
    rw [startLaw_pi c ho hpos huni hr mem v, linePrior_pi c ho hpos hgap huni] at heq
    exact factor_of_pi (μ := fun i : Fin c.numParams => oneLaw c i)
      (ν := fun i : Fin c.numParams => (oneBase c i).withDensity (oneDensity c i)) (fun i => inferInstance) (fun i => inferInstance) heq i A
  | true =>
    rw [(startLaw_ordered c ho hpos huni hr (lag_range ho huni hl) mem v).2, linePrior_ordered c (ordered_type ho) hpos hgap huni] at heq
    have hlag : ∀ b k, oneLaw c (c.cenEmb (b, k)) = normalised (volume.restrict (Ico c.lagRange.1 c.lagRange.2)) := by
      intro b k
      obtain ⟨h1, h2, h3⟩ := lag_facts c ho huni b k
      rw [oneLaw_line h1 h3 (lag_range ho huni hl b k), h2]
    have hpr : ∀ b k, (oneBase c (c.cenEmb (b, k))).withDensity (oneDensity c (c.cenEmb (b, k))) =
        volume.restrict (Ico c.lagRange.1 c.lagRange.2) := by
      intro b k
      obtain ⟨h1, h2, h3⟩ := lag_facts c ho huni b k
      rw [line_factor h1 h3, h2]
    exact factor_ordered c ho (σ := fun i : Fin c.numParams => oneLaw c i)
      (ν := fun i : Fin c.numParams => (oneBase c i).withDensity (oneDensity c i)) (fun i => inferInstance)
      (fun b k => by
        rw [hlag]
        refine ⟨fun x => ?_⟩
        simp [normalised])
      (fun b k k' => by rw [hlag, hlag]) (factor_mass c hr hl)
      (fun b k => by rw [hpr]; infer_instance) (fun b k k' => by rw [hpr, hpr]) heq i (var_notMem c hi) hA

/-- The law of a folded Gaussian number with the range's length as deviation: the lowest eighth of the range has at least 1/40. -/
theorem folded_low {lo hi : ℝ} (h : lo < hi) :
    ENNReal.ofReal (1 / 40) ≤ ((ProbabilityTheory.gaussianReal 0 1).map fun z => folded lo hi (z * (hi - lo)))
      (Ico lo (lo + (hi - lo) / 8)) := by
  have hW : 0 < hi - lo := sub_pos.2 h
  have hm : Measurable fun z => folded lo hi (z * (hi - lo)) := (measurable_folded lo hi).comp (by fun_prop)
  rw [Measure.map_apply hm measurableSet_Ico]
  set a : ℝ := Int.fract (lo / (hi - lo) + 1 / 2) - 1 / 2 with ha
  have ha0 : -(1 / 2) ≤ a := by have := Int.fract_nonneg (lo / (hi - lo) + 1 / 2); linarith
  have ha1 : a < 1 / 2 := by have := Int.fract_lt_one (lo / (hi - lo) + 1 / 2); linarith
  have hsub : Ico a (a + 1 / 8) ⊆ (fun z => folded lo hi (z * (hi - lo))) ⁻¹' Ico lo (lo + (hi - lo) / 8) := by
    intro z hz
    have e1 : (z * (hi - lo) - lo) / (hi - lo) = z - lo / (hi - lo) := by field_simp
    have e2 : z - lo / (hi - lo) = (z - a) - (⌊lo / (hi - lo) + 1 / 2⌋ : ℤ) := by
      rw [ha, Int.fract]; ring
    have e3 : Int.fract ((z * (hi - lo) - lo) / (hi - lo)) = z - a := by
      rw [e1, e2, Int.fract_sub_intCast, Int.fract_eq_self]
      exact ⟨by linarith [hz.1], by linarith [hz.2]⟩
    simp only [mem_preimage, folded, e3]
    constructor
    · have : 0 ≤ z - a := by linarith [hz.1]
      nlinarith
    · have : z - a < 1 / 8 := by linarith [hz.2]
      nlinarith
  refine le_trans ?_ (measure_mono hsub)
  rw [ProbabilityTheory.gaussianReal_apply 0 one_ne_zero]
  have hb : ∀ x ∈ Ico a (a + 1 / 8), ENNReal.ofReal (1 / 5) ≤ ProbabilityTheory.gaussianPDF 0 1 x := by
    intro x hx
    unfold ProbabilityTheory.gaussianPDF ProbabilityTheory.gaussianPDFReal
    apply ENNReal.ofReal_le_ofReal
    have h1 : x ^ 2 ≤ 1 / 2 := by
      have : -(5 / 8) ≤ x := by linarith [hx.1]
      have : x ≤ 5 / 8 := by linarith [hx.2]
      nlinarith
    have h2 : (3 : ℝ) / 4 ≤ Real.exp (-(x - 0) ^ 2 / (2 * ((1 : NNReal) : ℝ))) := by
      have := Real.add_one_le_exp (-(x - 0) ^ 2 / (2 * ((1 : NNReal) : ℝ)))
      simp only [NNReal.coe_one, sub_zero, mul_one] at this ⊢
      linarith
    have h3 : (1 : ℝ) / 3 ≤ (Real.sqrt (2 * Real.pi * ((1 : NNReal) : ℝ)))⁻¹ := by
      rw [one_div]
      have hpos : 0 < Real.sqrt (2 * Real.pi * ((1 : NNReal) : ℝ)) := Real.sqrt_pos.2 (by simp [Real.pi_pos])
      apply inv_anti₀ hpos
      rw [Real.sqrt_le_left (by norm_num)]
      have := Real.pi_le_four
      simp only [NNReal.coe_one, mul_one]
      linarith
    have := mul_le_mul h3 h2 (by norm_num) (le_trans (by norm_num) h3)
    linarith
  have h4 := setLIntegral_mono (μ := (volume : Measure ℝ)) (s := Ico a (a + 1 / 8)) (f := fun _ => ENNReal.ofReal (1 / 5))
    (ProbabilityTheory.measurable_gaussianPDF 0 1) hb
  rw [setLIntegral_const, Real.volume_Ico] at h4
  refine le_trans ?_ h4
  rw [← ENNReal.ofReal_mul (by norm_num)]
  apply ENNReal.ofReal_le_ofReal
  linarith

/-- **C120 fails for the variability parameters.** If a free variability parameter has the usual range of five deviations around its
value (none of its ends cut), the first particles of the line run do not have the distribution of the prior: that is a Gaussian, while
the draw puts more than 1/40 into the lowest eighth of the range. -/
theorem C120_line_fails (c : LineCfg) (hpos : c.posivity = false) (hgap : c.gap = false) (huni : c.uniTf ≠ 2)
    (hr : ∀ i < c.numVar, (c.rng i).1 < (c.rng i).2)
    (hl : ∀ i < c.numParams, c.numVar ≤ i → c.fix i = none → (c.rng i).1 < (c.rng i).2)
    (i : ℕ) (hi : i < c.numVar) (hf : c.fix i = none) (hs : 0 < c.varStd i)
    (hrng : c.rng i = (c.varPar i - 5 * c.varStd i, c.varPar i + 5 * c.varStd i)) (mem : ℕ → ℝ) (v : ℕ → ℕ → ℝ × ℝ) :
    startLaw c mem v ≠ normalised (linePrior c) := by
  intro heq
  have hip : i < c.numParams := by unfold LineCfg.numParams; omega
  set s := c.varStd i with hsd
  set m := c.varPar i with hmd
  have key := factor_of_law c hpos hgap huni hr hl mem v heq ⟨i, hip⟩ hi (A := Ico (m - 5 * s) (m - 5 * s + 10 * s / 8)) measurableSet_Ico
  simp only at key
  rw [oneLaw_var hf hi, hrng] at key
  have hlow := folded_low (lo := m - 5 * s) (hi := m + 5 * s) (by linarith)
  have ew : (m + 5 * s) - (m - 5 * s) = 10 * s := by ring
  simp only [ew] at hlow key
  have hb : oneBase c i = volume := by simp [oneBase, hf]
  rw [hb] at key
  have hden : ∀ t ∈ Ico (m - 5 * s) (m + 5 * s), oneDensity c i t = ENNReal.ofReal (Real.exp (-((t - m) ^ 2 / (2 * s ^ 2)))) := by
    intro t ht
    unfold oneDensity
    rw [if_pos hf, if_pos hi, hrng, indicator_of_mem ht]
    simp
    rfl
  -- the total mass is at least `s`
  have htot : ENNReal.ofReal s ≤ (volume.withDensity (oneDensity c i)) univ := by
    refine le_trans ?_ (measure_mono (subset_univ (Ico (m - s) (m + s))))
    rw [withDensity_apply _ measurableSet_Ico]
    have h1 : ∀ t ∈ Ico (m - s) (m + s), ENNReal.ofReal (1 / 2) ≤ oneDensity c i t := by
      intro t ht
      rw [hden t ⟨by linarith [ht.1], by linarith [ht.2]⟩]
      apply ENNReal.ofReal_le_ofReal
      have h2 : (t - m) ^ 2 / (2 * s ^ 2) ≤ 1 / 2 := by
        rw [div_le_iff₀ (by positivity)]
        have : (t - m) ^ 2 ≤ s ^ 2 := sq_le_sq' (by linarith [ht.1]) (by linarith [ht.2])
        linarith
      have := Real.add_one_le_exp (-((t - m) ^ 2 / (2 * s ^ 2)))
      linarith
    have h4 := setLIntegral_mono (μ := (volume : Measure ℝ)) (s := Ico (m - s) (m + s)) (f := fun _ => ENNReal.ofReal (1 / 2))
      (measurable_oneDensity c i) h1
    rw [setLIntegral_const, Real.volume_Ico] at h4
    refine le_trans ?_ h4
    rw [← ENNReal.ofReal_mul (by norm_num)]
    apply ENNReal.ofReal_le_ofReal
    linarith
  -- the mass of the lowest eighth
  have hsmall : (volume.withDensity (oneDensity c i)) (Ico (m - 5 * s) (m - 5 * s + 10 * s / 8)) ≤
      ENNReal.ofReal (1 / 64 * s) := by
    rw [withDensity_apply _ measurableSet_Ico]
    have h1 : ∀ t ∈ Ico (m - 5 * s) (m - 5 * s + 10 * s / 8), oneDensity c i t ≤ ENNReal.ofReal (1 / 128) := by
      intro t ht
      rw [hden t ⟨ht.1, by linarith [ht.2]⟩]
      apply ENNReal.ofReal_le_ofReal
      have h2 : 7 ≤ (t - m) ^ 2 / (2 * s ^ 2) := by
        rw [le_div_iff₀ (by positivity)]
        have : (15 / 4 * s) ^ 2 ≤ (t - m) ^ 2 := by
          rw [← neg_sq (t - m)]
          exact pow_le_pow_left₀ (by positivity) (by linarith [ht.2]) 2
        nlinarith [sq_nonneg s]
      have h3 : Real.exp (-((t - m) ^ 2 / (2 * s ^ 2))) ≤ Real.exp (-7) := Real.exp_le_exp.2 (by linarith)
      have h4 : Real.exp (-7) ≤ 1 / 128 := by
        rw [Real.exp_neg, one_div]
        apply inv_anti₀ (by norm_num)
        have h5 : (2 : ℝ) ≤ Real.exp 1 := by have := Real.add_one_le_exp (1 : ℝ); linarith
        have h6 : Real.exp 7 = Real.exp 1 ^ 7 := by rw [← Real.exp_nat_mul]; norm_num
        rw [h6]
        calc (128 : ℝ) = 2 ^ 7 := by norm_num
          _ ≤ _ := pow_le_pow_left₀ (by norm_num) h5 7
      linarith
    have h4 := setLIntegral_mono (μ := (volume : Measure ℝ)) (s := Ico (m - 5 * s) (m - 5 * s + 10 * s / 8))
      (g := fun _ => ENNReal.ofReal (1 / 128)) measurable_const h1
    rw [setLIntegral_const, Real.volume_Ico] at h4
    refine le_trans h4 ?_
    rw [← ENNReal.ofReal_mul (by norm_num)]
    apply ENNReal.ofReal_le_ofReal
    linarith
  have hfin := mul_le_mul' hlow htot
  rw [key, ← ENNReal.ofReal_mul (by norm_num)] at hfin
  have := le_trans hfin hsmall
  rw [ENNReal.ofReal_le_ofReal_iff (by positivity)] at this
  linarith

/-! ## Cases that meet the hypotheses -/

/-- Three continuum parameters, the first fixed. -/
example : (Measure.pi fun _ : Fin 3 => unif).map
    (fromPriorCon ⟨fun _ => -1, fun i => i + 1, fun i => if i = 0 then some 0 else none⟩) =
    normalised (conPrior (n := 3) ⟨fun _ => -1, fun i => i + 1, fun i => if i = 0 then some 0 else none⟩) := by
  refine C120_continuum _ fun i _ => ?_
  have : (0 : ℝ) ≤ ((i : ℕ) : ℝ) := by positivity
  simp only
  linarith

/-- One data set with one line of three components, the variability parameters known to 0.1. -/
noncomputable def lineCfgNarrow (ty : ℕ) : LineCfg := { lineCfgEx ty 0 [1] false with gap := false, varStd := fun _ => 1 / 10 }

theorem lineCfgNarrow_rng (ty : ℕ) (q : ℕ) (hq : q < 3) : (lineCfgNarrow ty).rng q = (1 / 2, 3 / 2) := by
  have h := (lineCfgNarrow ty).rng_var 0 q hq (by simpa [LineCfg.numVar, lineCfgNarrow, lineCfgEx] using hq)
  rw [Nat.mul_zero, Nat.zero_add] at h
  rw [h]
  have h10 : (2 : ℝ) ≤ Real.log 10 := by
    rw [Real.le_log_iff_exp_le (by norm_num)]
    have h1 := Real.exp_one_lt_d9
    have h2 : Real.exp 2 = Real.exp 1 ^ 2 := by rw [← Real.exp_nat_mul]; norm_num
    rw [h2]
    have h3 := pow_le_pow_left₀ (Real.exp_pos 1).le h1.le 2
    refine le_trans h3 (by norm_num)
  have h11 : Real.log 10 ≤ Real.log (1 + 10) := Real.log_le_log (by norm_num) (by norm_num)
  have hpi : Real.log 10 ≤ Real.log (300 * 2 * Real.pi) :=
    Real.log_le_log (by norm_num) (by linarith [Real.two_le_pi])
  have h4 : Real.log (1 / 10 ^ 4) ≤ 0 := Real.log_nonpos (by norm_num) (by norm_num)
  have : q = 0 ∨ q = 1 ∨ q = 2 := by omega
  rcases this with rfl | rfl | rfl
  all_goals
    simp only [LineCfg.varParRange, LineCfg.varRange, lineCfgNarrow, lineCfgEx, Real.log_one, Prod.mk.injEq]
    constructor
    · rw [max_eq_left (by linarith)]; norm_num
    · rw [min_eq_left (le_trans (by norm_num : _ ≤ (2 : ℝ)) (by first | exact h10 | exact h10.trans h11 | exact h10.trans hpi))]; norm_num

theorem lineCfgNarrow_fix (ty : ℕ) (hty : ty ≤ 1) (q : ℕ) (h0 : q ≠ 0) : (lineCfgNarrow ty).fix q = none := by
  have hc : (lineCfgNarrow ty).fixWrites = [(0, Real.log 1)] := by
    have : ¬ (2 ≤ ty ∧ ty ≤ 3) := by omega
    simp [LineCfg.fixWrites, lineCfgNarrow, lineCfgEx, LineCfg.numVar, this]
  unfold LineCfg.fix applyFix
  rw [hc]
  simp [Function.update_of_ne h0]

theorem lineCfgNarrow_line (ty : ℕ) (hty : ty ≤ 1) (i : ℕ) (hi : i < (lineCfgNarrow ty).numParams) (hv : (lineCfgNarrow ty).numVar ≤ i) :
    ((lineCfgNarrow ty).rng i).1 < ((lineCfgNarrow ty).rng i).2 := by
  generalize hc : lineCfgNarrow ty = c at *
  have hn : c.numVar = 3 := by rw [← hc]; rfl
  have hblk : c.blk = 10 := by rw [← hc]; rfl
  have hnb : c.nblocks = 1 := by rw [← hc]; simp [LineCfg.nblocks, lineCfgNarrow, lineCfgEx]
  have hng : c.ng = 3 := by rw [← hc]; rfl
  have hnp : c.numParams = 13 := by rw [LineCfg.numParams, LineCfg.numLine_eq, hn, hblk, hnb]
  have hlr : c.lagRange = (0, 30) := by rw [← hc]; simp only [LineCfg.lagRange, lineCfgNarrow, lineCfgEx]; norm_num
  have htl : c.typeLag = ty := by rw [← hc]; rfl
  rw [hnp] at hi
  rw [hn] at hv
  by_cases h3 : i = 3
  · subst h3
    have := c.rng_err 0 (by rw [hnb]; norm_num)
    rw [Nat.mul_zero, hn, Nat.zero_add] at this
    rw [this]
    exact Real.log_lt_log (by norm_num) (by norm_num)
  · obtain ⟨k, t, hk, ht, rfl⟩ : ∃ k t, k < 3 ∧ t < 3 ∧ i = 3 + (1 + 3 * k + t) := ⟨(i - 4) / 3, (i - 4) % 3, by omega, by omega, by omega⟩
    have := c.rng_comp 0 k t (by rw [hnb]; norm_num) (by rw [hng]; exact hk) ht
    rw [Nat.mul_zero, hn, Nat.zero_add] at this
    rw [this]
    have : t = 0 ∨ t = 1 ∨ t = 2 := by omega
    rcases this with rfl | rfl | rfl
    · rw [← hc]
      simp only [List.getD_cons_zero, LineCfg.ampWindow, LineCfg.ampRange, lineCfgNarrow, lineCfgEx]
      exact Real.log_lt_log (by norm_num) (by norm_num)
    · simp only [List.getD_cons_succ, List.getD_cons_zero]
      unfold LineCfg.lagWindow
      rw [hlr, hng, htl, if_neg (by omega)]
      split
      · norm_num
      · simp only
        push_cast
        linarith
    · simp only [List.getD_cons_succ, List.getD_cons_zero]
      unfold LineCfg.widthWindow
      have hwp : c.widthPrior = none := by rw [← hc]; rfl
      rw [hwp]
      simp only
      rw [htl, if_neg (by omega), ← hc]
      simp only [LineCfg.widthRange, lineCfgNarrow, lineCfgEx]
      exact Real.log_lt_log (by norm_num) (by norm_num)

/-- Both with the ordered lag prior (0) and with a range for each lag (1). -/
example (ty : ℕ) (hty : ty ≤ 1) (mem : ℕ → ℝ) (v : ℕ → ℕ → ℝ × ℝ) :
    startLaw (lineCfgNarrow ty) mem v ≠ normalised (linePrior (lineCfgNarrow ty)) := by
  have hn : (lineCfgNarrow ty).numVar = 3 := rfl
  refine C120_line_fails (lineCfgNarrow ty) rfl rfl (by simp [lineCfgNarrow, lineCfgEx]) (fun i hi => ?_)
    (fun i hi hv _ => lineCfgNarrow_line ty hty i hi hv) 2
    (by rw [hn]; norm_num) (lineCfgNarrow_fix ty hty 2 (by norm_num)) (by simp [lineCfgNarrow]) ?_ mem v
  · rw [lineCfgNarrow_rng ty i (by rw [hn] at hi; exact hi)]; norm_num
  · rw [lineCfgNarrow_rng ty 2 (by norm_num)]
    simp only [lineCfgNarrow, lineCfgEx]
    norm_num

/-- The same configurations meet the hypotheses of `C120_line_partial`. -/
example (ty : ℕ) (hty : ty ≤ 1) : (lineCfgNarrow ty).posivity = false ∧ (lineCfgNarrow ty).gap = false ∧ (lineCfgNarrow ty).uniTf ≠ 2 ∧
    (∀ i < (lineCfgNarrow ty).numVar, ((lineCfgNarrow ty).rng i).1 < ((lineCfgNarrow ty).rng i).2) ∧
    ∀ i < (lineCfgNarrow ty).numParams, (lineCfgNarrow ty).numVar ≤ i → (lineCfgNarrow ty).fix i = none →
      ((lineCfgNarrow ty).rng i).1 < ((lineCfgNarrow ty).rng i).2 := by
  refine ⟨rfl, rfl, by simp [lineCfgNarrow, lineCfgEx], fun i hi => ?_, fun i hi hv _ => lineCfgNarrow_line ty hty i hi hv⟩
  rw [lineCfgNarrow_rng ty i hi]; norm_num

end Mica
