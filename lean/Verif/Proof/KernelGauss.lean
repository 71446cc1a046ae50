import Verif.Proof.KernelTop
import Mathlib.Probability.Distributions.Gaussian.Real
import Mathlib.Analysis.SpecialFunctions.Gaussian.GaussianIntegral

/-! The complementary error function and the Gaussian transfer function. -/

namespace Mica
open MeasureTheory Set Filter Topology

theorem intg_gauss : Integrable fun u : ℝ => Real.exp (-u ^ 2) := by
  have := integrable_exp_neg_mul_sq (show (0 : ℝ) < 1 by norm_num)
  refine this.congr (Eventually.of_forall fun u => ?_)
  simp only [neg_mul, one_mul]

theorem erfc_deriv (x : ℝ) : HasDerivAt erfc (-(2 / Real.sqrt Real.pi * Real.exp (-x ^ 2))) x := by
  have h : ∀ x, erfc x = 2 / Real.sqrt Real.pi *
      ((∫ u in Ioi (0 : ℝ), Real.exp (-u ^ 2)) - ∫ u in (0 : ℝ)..x, Real.exp (-u ^ 2)) := by
    intro x
    unfold erfc
    rw [← intervalIntegral.integral_interval_add_Ioi (a := 0) (b := x) intg_gauss.integrableOn intg_gauss.integrableOn]
    ring
  have hc : Continuous fun u : ℝ => Real.exp (-u ^ 2) := by fun_prop
  have hd := intervalIntegral.integral_hasDerivAt_right (a := 0) (b := x) (f := fun u : ℝ => Real.exp (-u ^ 2))
    (hc.intervalIntegrable _ _) (hc.stronglyMeasurableAtFilter _ _) hc.continuousAt
  rw [show erfc = _ from funext h]
  refine ((hd.const_sub _).const_mul (2 / Real.sqrt Real.pi)).congr_deriv ?_
  ring

theorem erfc_pos (x : ℝ) : 0 < erfc x := by
  unfold erfc
  refine mul_pos (div_pos (by norm_num) (Real.sqrt_pos.2 Real.pi_pos)) ?_
  rw [setIntegral_pos_iff_support_of_nonneg_ae]
  · have : (Function.support fun u : ℝ => Real.exp (-u ^ 2)) = univ := by
      ext u; simp [(Real.exp_pos (-u ^ 2)).ne']
    rw [this, univ_inter]
    simp
  · exact Eventually.of_forall fun u => (Real.exp_pos _).le
  · exact intg_gauss.integrableOn

theorem erfc_lim : Tendsto erfc atTop (𝓝 0) := by
  have h : ∀ x, erfc x = 2 / Real.sqrt Real.pi *
      ((∫ u in Ioi (0 : ℝ), Real.exp (-u ^ 2)) - ∫ u in (0 : ℝ)..x, Real.exp (-u ^ 2)) := by
    intro x
    unfold erfc
    rw [← intervalIntegral.integral_interval_add_Ioi (a := 0) (b := x) intg_gauss.integrableOn intg_gauss.integrableOn]
    ring
  rw [show erfc = _ from funext h]
  have := (((intervalIntegral_tendsto_integral_Ioi 0 intg_gauss.integrableOn tendsto_id).const_sub
    (∫ u in Ioi (0 : ℝ), Real.exp (-u ^ 2))).const_mul (2 / Real.sqrt Real.pi))
  rw [sub_self, mul_zero] at this
  exact this

theorem exp_logErfc (a z : ℝ) : Real.exp (a + logErfc z) = Real.exp a * erfc z := by
  rw [Real.exp_add, logErfc, Real.exp_log (erfc_pos z)]

/-- Centred Gaussian transfer function. -/
noncomputable def gaud (w s : ℝ) : ℝ := Real.exp (-s ^ 2 / (2 * w ^ 2)) / (Real.sqrt (2 * Real.pi) * w)

theorem tfDens_gauss (c w : ℝ) : tfDens .gauss c w = fun s => gaud w (s - c) := by
  ext s; simp [tfDens, gaud]

theorem gaud_neg (w s : ℝ) : gaud w (-s) = gaud w s := by simp [gaud]

theorem gaud_pos {w : ℝ} (hw : 0 < w) (s : ℝ) : 0 < gaud w s := by
  unfold gaud
  have : 0 < Real.sqrt (2 * Real.pi) := Real.sqrt_pos.2 (by positivity)
  positivity

theorem gaud_continuous (w : ℝ) : Continuous (gaud w) := by unfold gaud; fun_prop

theorem gaud_pdf {w : ℝ} (hw : 0 < w) (s : ℝ) : gaud w s = ProbabilityTheory.gaussianPDFReal 0 (w ^ 2).toNNReal s := by
  unfold gaud ProbabilityTheory.gaussianPDFReal
  rw [Real.coe_toNNReal _ (sq_nonneg w), sub_zero]
  rw [Real.sqrt_mul' _ (sq_nonneg w), Real.sqrt_sq hw.le]
  ring

theorem gaud_integrable {w : ℝ} (hw : 0 < w) : Integrable (gaud w) := by
  rw [show gaud w = _ from funext (gaud_pdf hw)]
  exact ProbabilityTheory.integrable_gaussianPDFReal _ _

theorem gaud_integral {w : ℝ} (hw : 0 < w) : ∫ s, gaud w s = 1 := by
  rw [show gaud w = _ from funext (gaud_pdf hw)]
  refine ProbabilityTheory.integral_gaussianPDFReal_eq_one 0 ?_
  rw [Ne, Real.toNNReal_eq_zero, not_le]
  positivity

/-- `½ exp(x/t + w²/2t²) erfc((x/w + w/t)/√2)`. -/
noncomputable def gp (t w x : ℝ) : ℝ :=
  1 / 2 * Real.exp (x / t + w ^ 2 / (2 * t ^ 2)) * erfc ((x / w + w / t) / Real.sqrt 2)

theorem gp_nonneg (t w x : ℝ) : 0 ≤ gp t w x := by
  unfold gp
  have := erfc_pos ((x / w + w / t) / Real.sqrt 2)
  positivity

theorem gauss_const {w : ℝ} (hw : 0 < w) : 1 / 2 * (2 / Real.sqrt Real.pi) * (1 / w / Real.sqrt 2) = 1 / (Real.sqrt (2 * Real.pi) * w) := by
  rw [Real.sqrt_mul (by norm_num)]
  have h1 : Real.sqrt 2 ≠ 0 := by positivity
  have h2 : Real.sqrt Real.pi ≠ 0 := by positivity
  field_simp

theorem erfc_comp_deriv {t w : ℝ} (s : ℝ) :
    HasDerivAt (fun s => erfc ((s / w + w / t) / Real.sqrt 2))
      (-(2 / Real.sqrt Real.pi * Real.exp (-((s / w + w / t) / Real.sqrt 2) ^ 2)) * (1 / w / Real.sqrt 2)) s := by
  have h1 : HasDerivAt (fun s : ℝ => (s / w + w / t) / Real.sqrt 2) (1 / w / Real.sqrt 2) s :=
    ((((hasDerivAt_id s).div_const w)).add_const (w / t)).div_const _
  exact (erfc_deriv _).comp s h1

theorem gauss_sq {t w : ℝ} (ht : 0 < t) (hw : 0 < w) (s : ℝ) :
    w ^ 2 / (2 * t ^ 2) + -((s / w + w / t) / Real.sqrt 2) ^ 2 = -s / t + -s ^ 2 / (2 * w ^ 2) := by
  rw [div_pow, Real.sq_sqrt (by norm_num)]
  field_simp; ring

theorem gp_deriv {t w : ℝ} (ht : 0 < t) (hw : 0 < w) (x : ℝ) : HasDerivAt (gp t w) (gp t w x / t - gaud w x) x := by
  have h1 : HasDerivAt (fun x : ℝ => Real.exp (x / t + w ^ 2 / (2 * t ^ 2)))
      (Real.exp (x / t + w ^ 2 / (2 * t ^ 2)) * (1 / t)) x :=
    (((hasDerivAt_id x).div_const t).add_const _).exp
  refine ((h1.const_mul (1 / 2)).mul (erfc_comp_deriv x)).congr_deriv ?_
  have he : Real.exp (x / t + w ^ 2 / (2 * t ^ 2)) * Real.exp (-((x / w + w / t) / Real.sqrt 2) ^ 2) =
      Real.exp (-x ^ 2 / (2 * w ^ 2)) := by
    rw [← Real.exp_add, add_assoc, gauss_sq ht hw]
    congr 1; ring
  unfold gp gaud
  rw [div_eq_mul_one_div (Real.exp (-x ^ 2 / (2 * w ^ 2))), ← gauss_const hw, ← he]
  ring

/-- `gp` is the part of the average over lags beyond `x`. -/
theorem gp_integral {t w : ℝ} (ht : 0 < t) (hw : 0 < w) (x : ℝ) :
    IntegrableOn (fun s => gaud w s * Real.exp ((x - s) / t)) (Ioi x) ∧
      ∫ s in Ioi x, gaud w s * Real.exp ((x - s) / t) = gp t w x := by
  have hd : ∀ s ∈ Ici x, HasDerivAt
      (fun s => -(1 / 2 * Real.exp (x / t + w ^ 2 / (2 * t ^ 2)) * erfc ((s / w + w / t) / Real.sqrt 2)))
      (gaud w s * Real.exp ((x - s) / t)) s := by
    intro s _
    refine ((erfc_comp_deriv s).const_mul (1 / 2 * Real.exp (x / t + w ^ 2 / (2 * t ^ 2)))).neg.congr_deriv ?_
    have he : Real.exp (x / t + w ^ 2 / (2 * t ^ 2)) * Real.exp (-((s / w + w / t) / Real.sqrt 2) ^ 2) =
        Real.exp (-s ^ 2 / (2 * w ^ 2)) * Real.exp ((x - s) / t) := by
      rw [← Real.exp_add, ← Real.exp_add, add_assoc, gauss_sq ht hw]
      congr 1; ring
    unfold gaud
    rw [div_eq_mul_one_div (Real.exp (-s ^ 2 / (2 * w ^ 2))), ← gauss_const hw]
    linear_combination (1 / 2 * (2 / Real.sqrt Real.pi) * (1 / w / Real.sqrt 2)) * he
  have hl : Tendsto
      (fun s => -(1 / 2 * Real.exp (x / t + w ^ 2 / (2 * t ^ 2)) * erfc ((s / w + w / t) / Real.sqrt 2))) atTop (𝓝 0) := by
    have h1 : Tendsto (fun s : ℝ => (s / w + w / t) / Real.sqrt 2) atTop atTop :=
      (tendsto_atTop_add_const_right _ _ (tendsto_id.atTop_div_const hw)).atTop_div_const (by positivity)
    have := ((erfc_lim.comp h1).const_mul (1 / 2 * Real.exp (x / t + w ^ 2 / (2 * t ^ 2)))).neg
    rw [mul_zero, neg_zero] at this
    exact this
  have hI : IntegrableOn (fun s => gaud w s * Real.exp ((x - s) / t)) (Ioi x) := by
    refine integrableOn_Ioi_deriv_of_nonneg' hd ?_ hl
    intro s _
    exact mul_nonneg (gaud_pos hw s).le (Real.exp_pos _).le
  refine ⟨hI, ?_⟩
  rw [integral_Ioi_of_hasDerivAt_of_tendsto' hd hI hl]
  unfold gp; ring

theorem gp_le_one {t w : ℝ} (ht : 0 < t) (hw : 0 < w) (x : ℝ) : gp t w x ≤ 1 := by
  obtain ⟨h1, h2⟩ := gp_integral ht hw x
  rw [← h2, ← gaud_integral hw]
  calc ∫ s in Ioi x, gaud w s * Real.exp ((x - s) / t) ≤ ∫ s in Ioi x, gaud w s := by
        refine setIntegral_mono_on h1 (gaud_integrable hw).integrableOn measurableSet_Ioi fun s hs => ?_
        have : Real.exp ((x - s) / t) ≤ 1 := by
          rw [Real.exp_le_one_iff]
          exact div_nonpos_of_nonpos_of_nonneg (by linarith [mem_Ioi.1 hs]) ht.le
        nlinarith [gaud_pos hw s]
    _ ≤ ∫ s, gaud w s :=
        setIntegral_le_integral (gaud_integrable hw) (Eventually.of_forall fun s => (gaud_pos hw s).le)

theorem covLC_gau {t w : ℝ} (ht : 0 < t) (hw : 0 < w) (x : ℝ) :
    covLC t (gaud w) x = gp t w (-x) + gp t w x := by
  unfold covLC
  rw [← intervalIntegral.integral_Iic_add_Ioi (b := x) (covLC_integrable ht (gaud_integrable hw) x).integrableOn
    (covLC_integrable ht (gaud_integrable hw) x).integrableOn]
  congr 1
  · rw [← (gp_integral ht hw (-x)).2, ← integral_comp_neg_Iic]
    refine setIntegral_congr_fun measurableSet_Iic fun s hs => ?_
    simp only [gaud_neg]
    rw [abs_of_nonneg (by linarith [mem_Iic.1 hs] : 0 ≤ x - s)]
    congr 3; ring
  · rw [← (gp_integral ht hw x).2]
    refine setIntegral_congr_fun measurableSet_Ioi fun s hs => ?_
    rw [abs_of_neg (by linarith [mem_Ioi.1 hs] : x - s < 0)]
    congr 3; ring

/-! ### Gaussian with Gaussian -/

theorem covLL_gaugau {t w v : ℝ} (ht : 0 < t) (hw : 0 < w) (hv : 0 < v) (d : ℝ) :
    covLL t (gaud w) (gaud v) d = covLC t (gaud (Real.sqrt (w * w + v * v))) d := by
  have hA : 0 < Real.sqrt (w * w + v * v) := Real.sqrt_pos.2 (by positivity)
  rw [(covLL_outer ht (gaud_integrable hw) (gaud_integrable hv) d).2]
  have hnn : ∀ {w : ℝ}, 0 < w → (w ^ 2).toNNReal ≠ 0 := by
    intro w hw
    rw [Ne, Real.toNNReal_eq_zero, not_le]; positivity
  have hG : ∀ {w : ℝ}, 0 < w → ∀ f : ℝ → ℝ, ∫ s, gaud w s * f s = ∫ s, f s ∂(ProbabilityTheory.gaussianReal 0 (w ^ 2).toNNReal) := by
    intro w hw f
    rw [ProbabilityTheory.integral_gaussianReal_eq_integral_smul (hnn hw)]
    simp only [gaud_pdf hw, smul_eq_mul]
  have hsum : (Real.sqrt (w * w + v * v) ^ 2).toNNReal = (v ^ 2).toNNReal + (w ^ 2).toNNReal := by
    rw [← Real.toNNReal_add (sq_nonneg _) (sq_nonneg _), Real.sq_sqrt (by positivity)]
    congr 1; ring
  unfold covLC
  rw [hG hA, hsum]
  have hconv := ProbabilityTheory.gaussianReal_conv_gaussianReal (m₁ := 0) (m₂ := 0) (v₁ := (v ^ 2).toNNReal) (v₂ := (w ^ 2).toNNReal)
  rw [add_zero] at hconv
  have hc : Continuous fun s : ℝ => Real.exp (-|d - s| / t) := by fun_prop
  rw [← hconv, integral_conv]
  · rw [← integral_neg_eq_self]
    have : ∀ s, gaud v (-s) * (∫ r, gaud w r * Real.exp (-|d + -s - r| / t)) =
        gaud v s * ∫ r, Real.exp (-|d - (s + r)| / t) ∂(ProbabilityTheory.gaussianReal 0 (w ^ 2).toNNReal) := by
      intro s
      rw [gaud_neg, ← hG hw]
      congr 2; ext r
      rw [show d + -s - r = d - (s + r) by ring]
    simp only [this]
    rw [hG hv (fun s => ∫ r, Real.exp (-|d - (s + r)| / t) ∂(ProbabilityTheory.gaussianReal 0 (w ^ 2).toNNReal))]
  · refine Integrable.of_bound hc.aestronglyMeasurable 1 (Eventually.of_forall fun s => ?_)
    rw [Real.norm_eq_abs, Real.abs_exp]
    exact exp_abs_le_one ht _

end Mica
