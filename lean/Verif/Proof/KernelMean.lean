import Verif.Proof.KernelPsd
import Mathlib.Analysis.SpecialFunctions.Gaussian.GaussianIntegral

/-!
# First moments of the transfer functions
-/

namespace Mica
open MeasureTheory Set Filter Topology

theorem integral_odd {f : ℝ → ℝ} (h : ∀ s, f (-s) = f s) : ∫ s, s * f s = 0 := by
  have : ∫ s, s * f s = - ∫ s, s * f s := by
    conv_lhs => rw [← integral_neg_eq_self]
    rw [← integral_neg]
    congr 1; ext s; rw [h]; ring
  linarith

theorem gaud_mean_integrable {w : ℝ} (hw : 0 < w) : Integrable fun s => s * gaud w s := by
  have h := (integrable_mul_exp_neg_mul_sq (b := 1 / (2 * w ^ 2)) (by positivity)).div_const (Real.sqrt (2 * Real.pi) * w)
  refine h.congr (Eventually.of_forall fun s => ?_)
  simp only [gaud]
  rw [mul_div_assoc, show -(1 / (2 * w ^ 2)) * s ^ 2 = -s ^ 2 / (2 * w ^ 2) by ring]

theorem topd_mean_integrable (w : ℝ) : Integrable fun s => s * topd w s := by
  have h : (fun s => s * topd w s) = Set.indicator (Icc (-w) w) fun s => s * (1 / (2 * w)) := by
    ext s
    simp only [topd, indicator, mem_Icc, abs_le]
    split <;> simp
  rw [h, integrable_indicator_iff measurableSet_Icc]
  exact Continuous.integrableOn_Icc (by fun_prop)

theorem expd_mean {w : ℝ} (hw : 0 < w) : (fun s => s * expd w s) = fun s => w * gamd w s := by
  ext s; simp only [expd, gamd]
  split
  · field_simp
  · simp

theorem gamd_mean {w : ℝ} (hw : 0 < w) :
    (Integrable fun s => s * gamd w s) ∧ ∫ s, s * gamd w s = 2 * w := by
  have he : (fun s => s * gamd w s) = Set.indicator (Ioi 0) fun s => s ^ 2 / w ^ 2 * Real.exp (-s / w) := by
    ext s
    simp only [gamd, indicator, mem_Ioi]
    split
    · ring
    · simp
  have hd : ∀ s : ℝ, HasDerivAt (fun s => -((s ^ 2 / w + 2 * s + 2 * w) * Real.exp (-s / w))) (s ^ 2 / w ^ 2 * Real.exp (-s / w)) s := by
    intro s
    have h1 : HasDerivAt (fun s : ℝ => s ^ 2 / w + 2 * s + 2 * w) (2 * s / w + 2) s := by
      have := ((((hasDerivAt_id s).pow 2).div_const w).add ((hasDerivAt_id s).const_mul 2)).add_const (2 * w)
      refine this.congr_deriv ?_
      simp
    have h2 : HasDerivAt (fun s : ℝ => Real.exp (-s / w)) (Real.exp (-s / w) * (-1 / w)) s :=
      ((hasDerivAt_id s).neg.div_const w).exp
    refine (h1.mul h2).neg.congr_deriv ?_
    field_simp
    ring
  have hl : Tendsto (fun s => -((s ^ 2 / w + 2 * s + 2 * w) * Real.exp (-s / w))) atTop (𝓝 0) := by
    have hp : ∀ n : ℕ, Tendsto (fun s : ℝ => (s / w) ^ n * Real.exp (-(s / w))) atTop (𝓝 0) := fun n =>
      (Real.tendsto_pow_mul_exp_neg_atTop_nhds_zero n).comp (tendsto_id.atTop_div_const hw)
    have := (((hp 2).const_mul w).add (((hp 1).const_mul (2 * w)).add ((hp 0).const_mul (2 * w)))).neg
    simp only [mul_zero, add_zero, neg_zero] at this
    refine this.congr fun s => ?_
    rw [neg_div]
    generalize Real.exp (-(s / w)) = E
    field_simp
    ring
  have hnn : ∀ s ∈ Ioi (0 : ℝ), 0 ≤ s ^ 2 / w ^ 2 * Real.exp (-s / w) := fun s _ => by positivity
  rw [he]
  refine ⟨?_, ?_⟩
  · rw [integrable_indicator_iff measurableSet_Ioi]
    exact integrableOn_Ioi_deriv_of_nonneg' (fun s _ => hd s) hnn hl
  · rw [integral_indicator measurableSet_Ioi, integral_Ioi_of_hasDerivAt_of_nonneg' (fun s _ => hd s) hnn hl]
    simp

theorem mean_shift {f : ℝ → ℝ} (h : Integrable f) (h1 : Integrable fun s => s * f s) (c : ℝ) :
    (Integrable fun s => s * f (s - c)) ∧ ∫ s, s * f (s - c) = (∫ s, s * f s) + c * ∫ s, f s := by
  have e : (fun s => s * f (s - c)) = fun s => (fun u => u * f u + c * f u) (s - c) := by
    ext s; simp only; ring
  have hi : Integrable fun u => u * f u + c * f u := h1.add (h.const_mul c)
  rw [e]
  refine ⟨hi.comp_sub_right c, ?_⟩
  rw [integral_sub_right_eq_self (fun u => u * f u + c * f u), integral_add h1 (h.const_mul c), integral_const_mul]

theorem tfDens_mean_aux (T : TF) (c : ℝ) {w : ℝ} (hw : 0 < w) :
    (Integrable fun s => s * tfDens T c w s) ∧ ∫ s, s * tfDens T c w s = c := by
  cases T
  · rw [tfDens_gauss]
    have := mean_shift (gaud_integrable hw) (gaud_mean_integrable hw) c
    rw [integral_odd (f := gaud w) (fun s => by simp [gaud]), gaud_integral hw] at this
    simpa using this
  · rw [tfDens_tophat]
    have := mean_shift (topd_integrable w) (topd_mean_integrable w) c
    rw [integral_odd (f := topd w) (fun s => by simp [topd]), topd_integral hw] at this
    simpa using this
  · rw [tfDens_gamma]
    have := mean_shift (gamd_integrable hw) (gamd_mean hw).1 (c - 2 * w)
    rw [(gamd_mean hw).2, gamd_integral hw] at this
    simpa using this
  · rw [tfDens_exp]
    have := mean_shift (expd_integrable hw) (by rw [expd_mean hw]; exact (gamd_integrable hw).const_mul w) (c - w)
    rw [expd_mean hw, integral_const_mul, gamd_integral hw, expd_integral hw] at this
    simpa using this

theorem tfDens_mean_integrable (T : TF) (c : ℝ) {w : ℝ} (hw : 0 < w) : Integrable fun s => s * tfDens T c w s :=
  (tfDens_mean_aux T c hw).1

theorem tfDens_mean (T : TF) (c : ℝ) {w : ℝ} (hw : 0 < w) : ∫ s, s * tfDens T c w s = c :=
  (tfDens_mean_aux T c hw).2

end Mica
