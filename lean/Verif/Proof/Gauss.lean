import Verif.Proof.Like
import Mathlib.Analysis.SpecialFunctions.Gaussian.GaussianIntegral
import Mathlib.MeasureTheory.Integral.Pi
import Mathlib.MeasureTheory.Measure.Lebesgue.Basic

/-! Helper lemmas: Gaussian integrals in several variables. -/

namespace Mica

open Matrix MeasureTheory

theorem integral_std_gaussian (q : ℕ) :
    ∫ x : Fin q → ℝ, Real.exp (-(1 / 2) * (x ⬝ᵥ x)) = Real.sqrt (2 * Real.pi) ^ q := by
  have h : ∀ x : Fin q → ℝ, Real.exp (-(1 / 2) * (x ⬝ᵥ x)) = ∏ i, Real.exp (-(1 / 2) * x i ^ 2) := by
    intro x
    rw [← Real.exp_sum, dotProduct, Finset.mul_sum]
    congr 1
    apply Finset.sum_congr rfl
    intro i _
    ring
  simp only [h]
  rw [integral_fintype_prod_volume_eq_pow (fun x : ℝ => Real.exp (-(1 / 2) * x ^ 2)), integral_gaussian,
    Fintype.card_fin]
  congr 2
  ring

open scoped MatrixOrder ComplexOrder in
theorem posDef_factor {q : ℕ} {A : Matrix (Fin q) (Fin q) ℝ} (hA : A.PosDef) :
    ∃ B : Matrix (Fin q) (Fin q) ℝ, A = Bᵀ * B ∧ B.det ≠ 0 := by
  obtain ⟨B, hB⟩ := CStarAlgebra.nonneg_iff_eq_star_mul_self.mp hA.posSemidef.nonneg
  have hB' : A = Bᵀ * B := by
    rw [hB, star_eq_conjTranspose, conjTranspose_eq_transpose_of_trivial]
  refine ⟨B, hB', ?_⟩
  intro h
  have := hA.det_pos
  rw [hB', Matrix.det_mul, h, mul_zero] at this
  exact lt_irrefl _ this

theorem integral_gaussian_quad {q : ℕ} {A : Matrix (Fin q) (Fin q) ℝ} (hA : A.PosDef) :
    ∫ x : Fin q → ℝ, Real.exp (-(1 / 2) * (x ⬝ᵥ A.mulVec x)) =
      Real.sqrt (2 * Real.pi) ^ q / Real.sqrt A.det := by
  obtain ⟨B, hB, hd⟩ := posDef_factor hA
  have h1 : ∀ x : Fin q → ℝ, x ⬝ᵥ A.mulVec x = (toLin' B x) ⬝ᵥ (toLin' B x) := by
    intro x
    rw [hB, ← Matrix.mulVec_mulVec, Matrix.dotProduct_mulVec, Matrix.vecMul_transpose, toLin'_apply]
  simp only [h1]
  have hm : Measurable (toLin' B) := (toLin' B).continuous_of_finiteDimensional.measurable
  have hg : Continuous fun y : Fin q → ℝ => Real.exp (-(1 / 2) * (y ⬝ᵥ y)) := by
    unfold dotProduct; fun_prop
  rw [← integral_map (μ := volume) (φ := toLin' B) (f := fun y => Real.exp (-(1 / 2) * (y ⬝ᵥ y)))
    hm.aemeasurable hg.aestronglyMeasurable, Real.map_matrix_volume_pi_eq_smul_volume_pi hd,
    integral_smul_measure, integral_std_gaussian, ENNReal.toReal_ofReal (abs_nonneg _)]
  have hdet : A.det = B.det ^ 2 := by rw [hB, Matrix.det_mul, Matrix.det_transpose]; ring
  rw [hdet, Real.sqrt_sq_eq_abs, smul_eq_mul, abs_inv]
  ring

/-- The normal density integrates to one. -/
theorem gaussDens_integral {n : ℕ} {C : Matrix (Fin n) (Fin n) ℝ} (hC : C.PosDef) :
    ∫ y, gaussDens C y = 1 := by
  have hp : 0 < Real.sqrt (2 * Real.pi) := Real.sqrt_pos.2 (by positivity)
  have hd := Real.sqrt_pos.2 hC.det_pos
  have hd' := Real.sqrt_pos.2 hC.inv.det_pos
  unfold gaussDens
  rw [integral_div, integral_gaussian_quad hC.inv]
  have : Real.sqrt C⁻¹.det * Real.sqrt C.det = 1 := by
    rw [← Real.sqrt_mul hC.inv.det_pos.le, ← Matrix.det_mul,
      Matrix.nonsing_inv_mul _ (isUnit_iff_ne_zero.2 hC.det_pos.ne'), Matrix.det_one, Real.sqrt_one]
  field_simp
  linarith

variable {n q : ℕ} {C : Matrix (Fin n) (Fin n) ℝ} {L : Matrix (Fin n) (Fin q) ℝ}

theorem dot_symm {A : Matrix (Fin n) (Fin n) ℝ} (hA : Aᵀ = A) (x y : Fin n → ℝ) :
    x ⬝ᵥ A.mulVec y = y ⬝ᵥ A.mulVec x := by
  rw [Matrix.dotProduct_mulVec, dotProduct_comm, ← Matrix.mulVec_transpose, hA]

/-- The normal equations. -/
theorem gls_normal (hC : C.PosDef) (hL : Function.Injective L.mulVec) (f : Fin n → ℝ) :
    Lᵀ.mulVec (C⁻¹.mulVec (f - L.mulVec (glsCoef C L f))) = 0 := by
  have hq := trend_posDef hC hL
  have h1 : Lᵀ.mulVec (C⁻¹.mulVec (L.mulVec (glsCoef C L f))) = Lᵀ.mulVec (C⁻¹.mulVec f) := by
    rw [Matrix.mulVec_mulVec, Matrix.mulVec_mulVec, glsCoef, Matrix.mulVec_mulVec, Matrix.mul_assoc Lᵀ C⁻¹ L,
      Matrix.mul_nonsing_inv _
      (isUnit_iff_ne_zero.2 hq.det_pos.ne'), Matrix.one_mulVec]
  rw [Matrix.mulVec_sub, Matrix.mulVec_sub, h1, sub_self]

/-- Decomposition of the quadratic form about the least-squares estimate. -/
theorem quad_split (hC : C.PosDef) (hL : Function.Injective L.mulVec) (f : Fin n → ℝ) (p : Fin q → ℝ) :
    (f - L.mulVec p) ⬝ᵥ C⁻¹.mulVec (f - L.mulVec p) =
      (f - L.mulVec (glsCoef C L f)) ⬝ᵥ C⁻¹.mulVec (f - L.mulVec (glsCoef C L f)) +
      (p - glsCoef C L f) ⬝ᵥ (Lᵀ * (C⁻¹ * L)).mulVec (p - glsCoef C L f) := by
  set g := glsCoef C L f
  set r := f - L.mulVec g with hr
  have h0 : Lᵀ.mulVec (C⁻¹.mulVec r) = 0 := gls_normal hC hL f
  have e : f - L.mulVec p = r - L.mulVec (p - g) := by rw [hr, Matrix.mulVec_sub]; abel
  have hcross : L.mulVec (p - g) ⬝ᵥ C⁻¹.mulVec r = 0 := by
    rw [← Matrix.vecMul_transpose, ← Matrix.dotProduct_mulVec, h0, dotProduct_zero]
  have hcross' : r ⬝ᵥ C⁻¹.mulVec (L.mulVec (p - g)) = 0 := by
    rw [dot_symm (inv_symm (posDef_symm hC)), hcross]
  have hq : L.mulVec (p - g) ⬝ᵥ C⁻¹.mulVec (L.mulVec (p - g)) =
      (p - g) ⬝ᵥ (Lᵀ * (C⁻¹ * L)).mulVec (p - g) := by
    rw [← Matrix.mulVec_mulVec, ← Matrix.mulVec_mulVec, Matrix.dotProduct_mulVec (p - g) Lᵀ,
      Matrix.vecMul_transpose]
  rw [e]
  generalize L.mulVec (p - g) = w at *
  rw [Matrix.mulVec_sub, sub_dotProduct, dotProduct_sub, dotProduct_sub, hcross, hcross', hq]
  ring

/-- The trend coefficients integrated out. -/
theorem marginal (hC : C.PosDef) (hL : Function.Injective L.mulVec) (f : Fin n → ℝ) :
    ∫ p : Fin q → ℝ, gaussDens C (f - L.mulVec p) =
      Real.exp (margLL C L f) * Real.sqrt (2 * Real.pi) ^ q / Real.sqrt (2 * Real.pi) ^ n := by
  have hq := trend_posDef hC hL
  have hp : 0 < Real.sqrt (2 * Real.pi) := Real.sqrt_pos.2 (by positivity)
  have hfac : ∀ p : Fin q → ℝ, gaussDens C (f - L.mulVec p) =
      (Real.exp (-(1 / 2) * ((f - L.mulVec (glsCoef C L f)) ⬝ᵥ C⁻¹.mulVec (f - L.mulVec (glsCoef C L f)))) /
        (Real.sqrt (2 * Real.pi) ^ n * Real.sqrt C.det)) *
      Real.exp (-(1 / 2) * ((p - glsCoef C L f) ⬝ᵥ (Lᵀ * (C⁻¹ * L)).mulVec (p - glsCoef C L f))) := by
    intro p
    rw [gaussDens, quad_split hC hL f p, mul_add, Real.exp_add]
    ring
  simp only [hfac]
  rw [integral_const_mul, integral_sub_right_eq_self (fun p : Fin q → ℝ =>
    Real.exp (-(1 / 2) * (p ⬝ᵥ (Lᵀ * (C⁻¹ * L)).mulVec p))), integral_gaussian_quad hq]
  have hs : ∀ x : ℝ, 0 < x → Real.exp (1 / 2 * Real.log x) = Real.sqrt x := by
    intro x hx
    rw [Real.sqrt_eq_rpow, Real.rpow_def_of_pos hx]
    congr 1; ring
  rw [margLL, Real.exp_sub, Real.exp_sub, hs _ hC.det_pos, hs _ hq.det_pos]
  field_simp

theorem exp_marg_pos (hC : C.PosDef) (hL : Function.Injective L.mulVec) (f : Fin n → ℝ) :
    margLL C L f = Real.log (∫ p : Fin q → ℝ, gaussDens C (f - L.mulVec p)) +
      ((n : ℝ) - q) / 2 * Real.log (2 * Real.pi) := by
  have hp : 0 < Real.sqrt (2 * Real.pi) := Real.sqrt_pos.2 (by positivity)
  rw [marginal hC hL, Real.log_div (by positivity) (by positivity), Real.log_mul (by positivity) (by positivity),
    Real.log_exp, Real.log_pow, Real.log_pow, Real.log_sqrt (by positivity)]
  ring

/-- Adding a trend to the data does not change the likelihood. -/
theorem margLL_shift (hC : C.PosDef) (hL : Function.Injective L.mulVec) (f : Fin n → ℝ) (p : Fin q → ℝ) :
    margLL C L (f + L.mulVec p) = margLL C L f := by
  have hq := trend_posDef hC hL
  have hg : glsCoef C L (f + L.mulVec p) = glsCoef C L f + p := by
    unfold glsCoef
    rw [Matrix.mulVec_add, Matrix.mulVec_add, Matrix.mulVec_add]
    congr 1
    rw [Matrix.mulVec_mulVec p C⁻¹, Matrix.mulVec_mulVec, Matrix.mulVec_mulVec, Matrix.mul_assoc,
      Matrix.nonsing_inv_mul _ (isUnit_iff_ne_zero.2 hq.det_pos.ne'), Matrix.one_mulVec]
  unfold margLL
  rw [hg, Matrix.mulVec_add, add_sub_add_right_eq_sub]

end Mica
