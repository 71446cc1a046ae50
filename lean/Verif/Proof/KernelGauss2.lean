import Verif.Proof.KernelGauss

/-! Gaussian with exponential, gamma and top-hat; the formulas of the code with Gaussians. -/

namespace Mica
open MeasureTheory Set Filter Topology

/-- At most quadratic growth. -/
def Growth (A : ℝ → ℝ) : Prop := ∃ C, ∀ y, |A y| ≤ C * (1 + y ^ 2)

theorem Growth.add {A B : ℝ → ℝ} (h : Growth A) (h' : Growth B) : Growth fun y => A y + B y := by
  obtain ⟨C, h⟩ := h
  obtain ⟨D, h'⟩ := h'
  refine ⟨C + D, fun y => ?_⟩
  have := abs_add_le (A y) (B y)
  linarith [h y, h' y]

theorem Growth.const_mul {A : ℝ → ℝ} (h : Growth A) (c : ℝ) : Growth fun y => c * A y := by
  obtain ⟨C, h⟩ := h
  refine ⟨|c| * C, fun y => ?_⟩
  rw [abs_mul, mul_assoc]
  exact mul_le_mul_of_nonneg_left (h y) (abs_nonneg c)

theorem Growth.poly_mul {A : ℝ → ℝ} {M : ℝ} (h : ∀ y, |A y| ≤ M) (a b c : ℝ) :
    Growth fun y => (a + b * y + c * y ^ 2) * A y := by
  refine ⟨(|a| + |b| + |c|) * M, fun y => ?_⟩
  have hM : 0 ≤ M := (abs_nonneg _).trans (h 0)
  rw [abs_mul]
  have h1 : |a + b * y + c * y ^ 2| ≤ (|a| + |b| + |c|) * (1 + y ^ 2) := by
    have e1 : |b * y| ≤ |b| * (1 + y ^ 2) := by
      rw [abs_mul]
      refine mul_le_mul_of_nonneg_left ?_ (abs_nonneg b)
      rw [← sq_abs y]; nlinarith [sq_nonneg (|y| - 1), sq_nonneg (|y|)]
    have e2 : |c * y ^ 2| ≤ |c| * (1 + y ^ 2) := by
      rw [abs_mul, abs_of_nonneg (sq_nonneg y)]
      refine mul_le_mul_of_nonneg_left ?_ (abs_nonneg c)
      linarith
    have e3 : |a| ≤ |a| * (1 + y ^ 2) := by nlinarith [abs_nonneg a, sq_nonneg y]
    have := abs_add_three a (b * y) (c * y ^ 2)
    linarith
  calc |a + b * y + c * y ^ 2| * |A y| ≤ (|a| + |b| + |c|) * (1 + y ^ 2) * M :=
        mul_le_mul h1 (h y) (abs_nonneg _) (by positivity)
    _ = _ := by ring

theorem Growth.bdd {A : ℝ → ℝ} {M : ℝ} (h : ∀ y, |A y| ≤ M) : Growth A := by
  have := Growth.poly_mul h 1 0 0
  simpa using this

theorem covLL_expd_avg {t v : ℝ} (ht : 0 < t) (hv : 0 < v) {ψ A : ℝ → ℝ} (hψ : Integrable ψ)
    (hA : ∀ x, HasDerivAt A ((A x - covLC t ψ x) / v) x) (hg : Growth A) (d : ℝ) :
    covLL t ψ (expd v) d = A d := by
  obtain ⟨hi, he⟩ := covLL_outer ht hψ (expd_integrable hv) d
  obtain ⟨C, hC⟩ := hg
  rw [he, integral_expd]
  exact expAvg hv hA d (integrable_expd_mul hi) (boundary_lim hv (Eventually.of_forall hC) d).1

theorem covLL_gamd_avg {t v : ℝ} (ht : 0 < t) (hv : 0 < v) {ψ A B : ℝ → ℝ} (hψ : Integrable ψ)
    (hA : ∀ x, HasDerivAt A ((A x - covLC t ψ x) / v) x) (hB : ∀ x, HasDerivAt B ((B x - A x) / v) x)
    (hg : Growth A) (hg' : Growth B) (d : ℝ) :
    covLL t ψ (gamd v) d = B d := by
  obtain ⟨hi, he⟩ := covLL_outer ht hψ (gamd_integrable hv) d
  obtain ⟨C, hC⟩ := hg
  obtain ⟨D, hD⟩ := hg'
  rw [he, integral_gamd]
  exact gamAvg hv hA hB d (integrable_gamd_mul hi) (boundary_lim hv (Eventually.of_forall hC) d).2
    (boundary_lim hv (Eventually.of_forall hD) d).1

theorem covLL_topd_avg {t v : ℝ} (ht : 0 < t) (hv : 0 < v) {ψ P : ℝ → ℝ} (hψ : Integrable ψ)
    (hP : ∀ x, HasDerivAt P (covLC t ψ x) x) (hc : Continuous (covLC t ψ)) (d : ℝ) :
    covLL t ψ (topd v) d = (P (d + v) - P (d - v)) / (2 * v) := by
  rw [(covLL_outer ht hψ (topd_integrable v) d).2, integral_topd hv hP hc d]

theorem gaud_deriv {w : ℝ} (hw : 0 < w) (x : ℝ) : HasDerivAt (gaud w) (-x / w ^ 2 * gaud w x) x := by
  have h1 : HasDerivAt (fun x : ℝ => -x ^ 2 / (2 * w ^ 2)) (-(2 * x) / (2 * w ^ 2)) x := by
    have := ((hasDerivAt_pow 2 x).neg).div_const (2 * w ^ 2)
    refine this.congr_deriv ?_
    norm_num
  refine (h1.exp.div_const _).congr_deriv ?_
  unfold gaud
  have : Real.sqrt (2 * Real.pi) ≠ 0 := by positivity
  field_simp

theorem gm_deriv {t w : ℝ} (ht : 0 < t) (hw : 0 < w) (x : ℝ) :
    HasDerivAt (fun x => gp t w (-x)) (-gp t w (-x) / t + gaud w x) x := by
  have := (gp_deriv ht hw (-x)).scomp x (hasDerivAt_neg x)
  refine this.congr_deriv ?_
  rw [gaud_neg, smul_eq_mul]; ring

theorem gp_bdd {t w : ℝ} (ht : 0 < t) (hw : 0 < w) (x : ℝ) : |gp t w x| ≤ 1 := by
  rw [abs_of_nonneg (gp_nonneg t w x)]; exact gp_le_one ht hw x

theorem gaud_bdd {w : ℝ} (hw : 0 < w) (x : ℝ) : |gaud w x| ≤ 1 / (Real.sqrt (2 * Real.pi) * w) := by
  rw [abs_of_pos (gaud_pos hw x)]
  unfold gaud
  have h2 : 0 < Real.sqrt (2 * Real.pi) := Real.sqrt_pos.2 (by positivity)
  refine div_le_div_of_nonneg_right ?_ (by positivity)
  rw [Real.exp_le_one_iff]
  exact div_nonpos_of_nonpos_of_nonneg (by nlinarith [sq_nonneg x]) (by positivity)

/-- Combination of the three functions and the density with polynomial coefficients. -/
noncomputable def gcomb (t v w : ℝ) (c1 : ℝ) (p0 p1 p2 : ℝ) (q0 q1 q2 : ℝ) (r0 r1 r2 : ℝ) (x : ℝ) : ℝ :=
  c1 * gp t w (-x) + (p0 + p1 * x + p2 * x ^ 2) * gp t w x + (q0 + q1 * x + q2 * x ^ 2) * gp v w x +
    (r0 + r1 * x + r2 * x ^ 2) * gaud w x

theorem gcomb_growth {t v w : ℝ} (ht : 0 < t) (hv : 0 < v) (hw : 0 < w) (c1 p0 p1 p2 q0 q1 q2 r0 r1 r2 : ℝ) :
    Growth (gcomb t v w c1 p0 p1 p2 q0 q1 q2 r0 r1 r2) := by
  unfold gcomb
  exact ((((Growth.bdd fun y => gp_bdd ht hw (-y)).const_mul c1).add (Growth.poly_mul (gp_bdd ht hw) p0 p1 p2)).add
    (Growth.poly_mul (gp_bdd hv hw) q0 q1 q2)).add (Growth.poly_mul (gaud_bdd hw) r0 r1 r2)

theorem poly_deriv (a b c x : ℝ) : HasDerivAt (fun x => a + b * x + c * x ^ 2) (b + 2 * c * x) x := by
  have := (((hasDerivAt_id x).const_mul b).const_add a).add ((hasDerivAt_pow 2 x).const_mul c)
  refine this.congr_deriv ?_
  norm_num; ring

theorem gcomb_deriv {t v w : ℝ} (ht : 0 < t) (hv : 0 < v) (hw : 0 < w) (c1 p0 p1 p2 q0 q1 q2 r0 r1 r2 x : ℝ) :
    HasDerivAt (gcomb t v w c1 p0 p1 p2 q0 q1 q2 r0 r1 r2)
      (c1 * (-gp t w (-x) / t + gaud w x) +
        ((p1 + 2 * p2 * x) * gp t w x + (p0 + p1 * x + p2 * x ^ 2) * (gp t w x / t - gaud w x)) +
        ((q1 + 2 * q2 * x) * gp v w x + (q0 + q1 * x + q2 * x ^ 2) * (gp v w x / v - gaud w x)) +
        ((r1 + 2 * r2 * x) * gaud w x + (r0 + r1 * x + r2 * x ^ 2) * (-x / w ^ 2 * gaud w x))) x := by
  exact ((((gm_deriv ht hw x).const_mul c1).add ((poly_deriv p0 p1 p2 x).mul (gp_deriv ht hw x))).add
    ((poly_deriv q0 q1 q2 x).mul (gp_deriv hv hw x))).add ((poly_deriv r0 r1 r2 x).mul (gaud_deriv hw x))

/-- Gaussian with exponential, different timescales. -/
noncomputable def gaexF (t v w : ℝ) : ℝ → ℝ :=
  gcomb t v w (t / (t + v)) (t / (t - v)) 0 0 (t / (t + v) - t / (t - v)) 0 0 0 0 0

theorem gaexF_deriv {t v w : ℝ} (ht : 0 < t) (hv : 0 < v) (hw : 0 < w) (h : t ≠ v) (x : ℝ) :
    HasDerivAt (gaexF t v w) ((gaexF t v w x - covLC t (gaud w) x) / v) x := by
  refine (gcomb_deriv ht hv hw _ _ _ _ _ _ _ _ _ _ x).congr_deriv ?_
  rw [covLC_gau ht hw, gaexF, gcomb]
  have := sub_ne_zero.2 h
  generalize gp t w (-x) = A
  generalize gp t w x = B
  generalize gp v w x = C
  generalize gaud w x = D
  field_simp; ring

theorem covLL_gauexp1 {t v w : ℝ} (ht : 0 < t) (hv : 0 < v) (hw : 0 < w) (h : t ≠ v) (d : ℝ) :
    covLL t (gaud w) (expd v) d = gaexF t v w d :=
  covLL_expd_avg ht hv (gaud_integrable hw) (gaexF_deriv ht hv hw h) (gcomb_growth ht hv hw _ _ _ _ _ _ _ _ _ _) d

/-- Gaussian with exponential, equal timescales. -/
noncomputable def gaexG (t w : ℝ) : ℝ → ℝ :=
  gcomb t t w (1 / 2) (1 / 2 - w / t * (w / t)) (-(w / t * (1 / w))) 0 0 0 0 (w / t * w) 0 0

theorem gaexG_deriv {t w : ℝ} (ht : 0 < t) (hw : 0 < w) (x : ℝ) :
    HasDerivAt (gaexG t w) ((gaexG t w x - covLC t (gaud w) x) / t) x := by
  refine (gcomb_deriv ht ht hw _ _ _ _ _ _ _ _ _ _ x).congr_deriv ?_
  rw [covLC_gau ht hw, gaexG, gcomb]
  generalize gp t w (-x) = A
  generalize gp t w x = B
  generalize gaud w x = D
  field_simp; ring

theorem covLL_gauexp0 {t w : ℝ} (ht : 0 < t) (hw : 0 < w) (d : ℝ) :
    covLL t (gaud w) (expd t) d = gaexG t w d :=
  covLL_expd_avg ht ht (gaud_integrable hw) (gaexG_deriv ht hw) (gcomb_growth ht ht hw _ _ _ _ _ _ _ _ _ _) d

/-- Gaussian with gamma, different timescales. -/
noncomputable def gagmF (t v w : ℝ) : ℝ → ℝ :=
  gcomb t v w ((t / (t + v)) ^ 2) ((t / (t - v)) ^ 2) 0 0
    ((t / (t + v)) ^ 2 - (t / (t - v)) ^ 2 - (t / (t + v) - t / (t - v)) * (w / v) * (w / v))
    (-((t / (t + v) - t / (t - v)) * (w / v) * (1 / w))) 0 ((t / (t + v) - t / (t - v)) * (w / v) * w) 0 0

theorem gagmF_deriv {t v w : ℝ} (ht : 0 < t) (hv : 0 < v) (hw : 0 < w) (h : t ≠ v) (x : ℝ) :
    HasDerivAt (gagmF t v w) ((gagmF t v w x - gaexF t v w x) / v) x := by
  refine (gcomb_deriv ht hv hw _ _ _ _ _ _ _ _ _ _ x).congr_deriv ?_
  rw [gagmF, gaexF, gcomb, gcomb]
  have := sub_ne_zero.2 h
  generalize gp t w (-x) = A
  generalize gp t w x = B
  generalize gp v w x = C
  generalize gaud w x = D
  field_simp; ring

theorem covLL_gaugam1 {t v w : ℝ} (ht : 0 < t) (hv : 0 < v) (hw : 0 < w) (h : t ≠ v) (d : ℝ) :
    covLL t (gaud w) (gamd v) d = gagmF t v w d :=
  covLL_gamd_avg ht hv (gaud_integrable hw) (gaexF_deriv ht hv hw h) (gagmF_deriv ht hv hw h)
    (gcomb_growth ht hv hw _ _ _ _ _ _ _ _ _ _) (gcomb_growth ht hv hw _ _ _ _ _ _ _ _ _ _) d

/-- Gaussian with gamma, equal timescales. -/
noncomputable def gagmG (t w : ℝ) : ℝ → ℝ :=
  gcomb t t w (1 / 4)
    (1 / 4 - 1 / 2 * (w / t) * (w / t) + w ^ 2 / t ^ 2 / 2 * (1 + (w / t) ^ 2))
    (-(1 / 2 * (w / t) * (1 / w)) + w ^ 2 / t ^ 2 / 2 * (2 * (w / t) / w)) (w ^ 2 / t ^ 2 / 2 * (1 / w ^ 2)) 0 0 0
    (1 / 2 * (w / t) * w - w ^ 2 / t ^ 2 / 2 * (w / t) * w) (-(w ^ 2 / t ^ 2 / 2 * (1 / w) * w)) 0

theorem gagmG_deriv {t w : ℝ} (ht : 0 < t) (hw : 0 < w) (x : ℝ) :
    HasDerivAt (gagmG t w) ((gagmG t w x - gaexG t w x) / t) x := by
  refine (gcomb_deriv ht ht hw _ _ _ _ _ _ _ _ _ _ x).congr_deriv ?_
  rw [gagmG, gaexG, gcomb, gcomb]
  generalize gp t w (-x) = A
  generalize gp t w x = B
  generalize gaud w x = D
  field_simp; ring

theorem covLL_gaugam0 {t w : ℝ} (ht : 0 < t) (hw : 0 < w) (d : ℝ) :
    covLL t (gaud w) (gamd t) d = gagmG t w d :=
  covLL_gamd_avg ht ht (gaud_integrable hw) (gaexG_deriv ht hw) (gagmG_deriv ht hw)
    (gcomb_growth ht ht hw _ _ _ _ _ _ _ _ _ _) (gcomb_growth ht ht hw _ _ _ _ _ _ _ _ _ _) d

/-- Antiderivative for the top-hat. -/
noncomputable def gathP (t w x : ℝ) : ℝ := t * (gp t w x - gp t w (-x) - erfc (x / w / Real.sqrt 2))

theorem gathP_deriv {t w : ℝ} (ht : 0 < t) (hw : 0 < w) (x : ℝ) : HasDerivAt (gathP t w) (covLC t (gaud w) x) x := by
  have he : HasDerivAt (fun x : ℝ => erfc (x / w / Real.sqrt 2)) (-2 * gaud w x) x := by
    have h1 : HasDerivAt (fun s : ℝ => s / w / Real.sqrt 2) (1 / w / Real.sqrt 2) x :=
      ((hasDerivAt_id x).div_const w).div_const _
    refine ((erfc_deriv _).comp x h1).congr_deriv ?_
    have h2 : -(x / w / Real.sqrt 2) ^ 2 = -x ^ 2 / (2 * w ^ 2) := by
      rw [div_pow, Real.sq_sqrt (by norm_num)]
      field_simp
    unfold gaud
    rw [h2, div_eq_mul_one_div (Real.exp _), ← gauss_const hw]
    ring
  refine ((((gp_deriv ht hw x).sub (gm_deriv ht hw x)).sub he).const_mul t).congr_deriv ?_
  rw [covLC_gau ht hw]
  field_simp; ring

theorem covLL_gautop {t v w : ℝ} (ht : 0 < t) (hv : 0 < v) (hw : 0 < w) (d : ℝ) :
    covLL t (gaud w) (topd v) d = (gathP t w (d + v) - gathP t w (d - v)) / (2 * v) := by
  refine covLL_topd_avg ht hv (gaud_integrable hw) (gathP_deriv ht hw) ?_ d
  rw [show covLC t (gaud w) = _ from funext (covLC_gau ht hw)]
  exact continuous_iff_continuousAt.2 fun x => (gm_deriv ht hw x).continuousAt.add (gp_deriv ht hw x).continuousAt

end Mica
