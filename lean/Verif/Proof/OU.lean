import Mathlib.Analysis.SpecialFunctions.ImproperIntegrals
import Mathlib.MeasureTheory.Integral.Prod
import Mathlib.LinearAlgebra.Matrix.PosDef
import Mathlib.Tactic

/-!
The kernel `exp(-c |u - v|)` integrated against finite measures gives positive semi-definite matrices:
it is the overlap of two one-sided exponentials.
-/

namespace Mica

open MeasureTheory Set

/-- One-sided exponential. -/
noncomputable def ouH (c r : ℝ) : ℝ := if 0 ≤ r then Real.exp (-c * r) else 0

theorem ouH_nonneg (c r : ℝ) : 0 ≤ ouH c r := by
  unfold ouH; split <;> positivity

theorem measurable_ouH (c : ℝ) : Measurable (ouH c) :=
  Measurable.ite measurableSet_Ici (by fun_prop) measurable_const

theorem ouH_mul_indicator (c u v : ℝ) : (fun x => ouH c (u - x) * ouH c (v - x)) =
    (Iic (min u v)).indicator fun x => Real.exp (-c * (u + v)) * Real.exp (2 * c * x) := by
  ext x
  simp only [ouH, indicator, mem_Iic, le_min_iff, sub_nonneg]
  by_cases hu : x ≤ u <;> by_cases hv : x ≤ v <;> simp [hu, hv]
  rw [← Real.exp_add, ← Real.exp_add]
  congr 1
  ring

theorem ouH_integrable {c : ℝ} (hc : 0 < c) (u v : ℝ) :
    Integrable (fun x => ouH c (u - x) * ouH c (v - x)) := by
  rw [ouH_mul_indicator]
  rw [integrable_indicator_iff measurableSet_Iic]
  exact (integrableOn_exp_mul_Iic (by positivity) _).const_mul _

theorem ouH_overlap {c : ℝ} (hc : 0 < c) (u v : ℝ) :
    ∫ x, ouH c (u - x) * ouH c (v - x) = Real.exp (-c * |u - v|) / (2 * c) := by
  rw [ouH_mul_indicator, integral_indicator measurableSet_Iic, integral_const_mul,
    integral_exp_mul_Iic (by positivity)]
  rw [mul_div_assoc', ← Real.exp_add]
  congr 2
  rcases le_total u v with h | h
  · rw [min_eq_left h, abs_of_nonpos (by linarith)]; ring
  · rw [min_eq_right h, abs_of_nonneg (by linarith)]; ring

/-- Covariance of two weighted averages of the process. -/
noncomputable def ouCov (c : ℝ) (μ ν : Measure ℝ) : ℝ :=
  ∫ z, Real.exp (-c * |z.1 - z.2|) ∂(μ.prod ν)

/-- The average of the one-sided exponential. -/
noncomputable def ouG (c : ℝ) (μ : Measure ℝ) (x : ℝ) : ℝ := ∫ u, ouH c (u - x) ∂μ

theorem ou_kernel_integrable {c : ℝ} (hc : 0 < c) (ρ : Measure (ℝ × ℝ)) [IsFiniteMeasure ρ] :
    Integrable (fun z : ℝ × ℝ => Real.exp (-c * |z.1 - z.2|)) ρ := by
  refine Integrable.of_bound (C := 1) (by fun_prop) (Filter.Eventually.of_forall fun z => ?_)
  rw [Real.norm_eq_abs, Real.abs_exp, Real.exp_le_one_iff]
  have := abs_nonneg (z.1 - z.2)
  nlinarith

theorem ou_prod_integrable {c : ℝ} (hc : 0 < c) (ρ : Measure (ℝ × ℝ)) [IsFiniteMeasure ρ] :
    Integrable (Function.uncurry fun (x : ℝ) (z : ℝ × ℝ) => ouH c (z.1 - x) * ouH c (z.2 - x))
      (volume.prod ρ) := by
  have hm : Measurable (Function.uncurry fun (x : ℝ) (z : ℝ × ℝ) => ouH c (z.1 - x) * ouH c (z.2 - x)) := by
    apply Measurable.mul
    · exact (measurable_ouH c).comp (by fun_prop)
    · exact (measurable_ouH c).comp (by fun_prop)
  refine (integrable_prod_iff' hm.aestronglyMeasurable).2 ⟨?_, ?_⟩
  · exact Filter.Eventually.of_forall fun z => ouH_integrable hc z.1 z.2
  · have e : (fun z : ℝ × ℝ => ∫ x, ‖Function.uncurry (fun (x : ℝ) (z : ℝ × ℝ) =>
        ouH c (z.1 - x) * ouH c (z.2 - x)) (x, z)‖) =
        fun z => Real.exp (-c * |z.1 - z.2|) / (2 * c) := by
      ext z
      rw [← ouH_overlap hc]
      congr 1
      ext x
      simp only [Function.uncurry]
      rw [Real.norm_of_nonneg (mul_nonneg (ouH_nonneg _ _) (ouH_nonneg _ _))]
    rw [e]
    exact (ou_kernel_integrable hc ρ).div_const _

/-- The covariance is an inner product of square integrable functions. -/
theorem ouCov_eq {c : ℝ} (hc : 0 < c) (μ ν : Measure ℝ) [IsFiniteMeasure μ] [IsFiniteMeasure ν] :
    Integrable (fun x => ouG c μ x * ouG c ν x) ∧
    ouCov c μ ν = 2 * c * ∫ x, ouG c μ x * ouG c ν x := by
  have hint := ou_prod_integrable hc (μ.prod ν)
  have e : ∀ x, ∫ z, ouH c (z.1 - x) * ouH c (z.2 - x) ∂(μ.prod ν) = ouG c μ x * ouG c ν x := by
    intro x
    exact integral_prod_mul (μ := μ) (ν := ν) (fun u => ouH c (u - x)) (fun v => ouH c (v - x))
  constructor
  · have := hint.integral_prod_left
    simp only [Function.uncurry, e] at this
    exact this
  · have hsw := integral_integral_swap hint
    simp only [e, ouH_overlap hc] at hsw
    rw [hsw, integral_div, ouCov]
    field_simp

/-- Covariance matrices of averages of the process are positive semi-definite. -/
theorem ouCov_posSemidef {c : ℝ} (hc : 0 < c) {ι : Type*} [Fintype ι] (μ : ι → Measure ℝ)
    [∀ i, IsFiniteMeasure (μ i)] : (Matrix.of fun i j => ouCov c (μ i) (μ j)).PosSemidef := by
  refine Matrix.PosSemidef.of_dotProduct_mulVec_nonneg ?_ ?_
  · ext i j
    simp only [Matrix.conjTranspose_apply, Matrix.of_apply, star_trivial]
    rw [(ouCov_eq hc (μ j) (μ i)).2, (ouCov_eq hc (μ i) (μ j)).2]
    congr 2
    ext x
    ring
  · intro a
    have e : star a ⬝ᵥ (Matrix.of fun i j => ouCov c (μ i) (μ j)).mulVec a =
        2 * c * ∫ x, (∑ i, a i * ouG c (μ i) x) ^ 2 := by
      have : ∀ x, (∑ i, a i * ouG c (μ i) x) ^ 2 =
          ∑ i, ∑ j, a i * a j * (ouG c (μ i) x * ouG c (μ j) x) := by
        intro x
        rw [sq, Finset.sum_mul_sum]
        refine Finset.sum_congr rfl fun i _ => Finset.sum_congr rfl fun j _ => ?_
        ring
      simp only [this]
      rw [integral_finsetSum _ fun i _ => integrable_finset_sum _ fun j _ =>
        ((ouCov_eq hc (μ i) (μ j)).1.const_mul _)]
      simp only [dotProduct, Matrix.mulVec, Matrix.of_apply, star_trivial, Finset.mul_sum]
      refine Finset.sum_congr rfl fun i _ => ?_
      rw [integral_finsetSum _ fun j _ => ((ouCov_eq hc (μ i) (μ j)).1.const_mul _), Finset.mul_sum]
      refine Finset.sum_congr rfl fun j _ => ?_
      rw [integral_const_mul, (ouCov_eq hc (μ i) (μ j)).2]
      ring
    rw [e]
    have : 0 ≤ ∫ x, (∑ i, a i * ouG c (μ i) x) ^ 2 := integral_nonneg fun x => sq_nonneg _
    positivity

/-- Point values. -/
theorem ouCov_dirac (c u v : ℝ) :
    ouCov c (Measure.dirac u) (Measure.dirac v) = Real.exp (-c * |u - v|) := by
  rw [ouCov, Measure.dirac_prod_dirac, integral_dirac]

end Mica
