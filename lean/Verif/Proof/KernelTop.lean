import Verif.Proof.KernelCode

/-! Top-hat with the continuum and top-hat with top-hat. -/

namespace Mica
open MeasureTheory Set Filter Topology

theorem ou_continuous (t : ℝ) : Continuous fun x : ℝ => Real.exp (-|x| / t) := by fun_prop

/-- Antiderivative of `exp(-|x|/t)`. -/
noncomputable def topR (t : ℝ) : ℝ → ℝ := pw [(1 / t, t, 0, 0)] [(-1 / t, -t, 0, 0), (0, 2 * t, 0, 0)]

/-- Antiderivative of `topR t - t`. -/
noncomputable def topQ (t : ℝ) : ℝ → ℝ :=
  pw [(1 / t, t ^ 2, 0, 0), (0, 0, -t, 0)] [(-1 / t, t ^ 2, 0, 0), (0, 0, t, 0)]

theorem topR_deriv {t : ℝ} (ht : 0 < t) (x : ℝ) : HasDerivAt (topR t) (Real.exp (-|x| / t)) x := by
  refine (pw_deriv ?_ ?_ x).congr_deriv ?_
  · eps; ring
  · eps; field_simp; ring
  · rw [pw]
    split
    · rename_i h
      eps
      rw [abs_of_nonpos h, neg_neg, nrm1]
      field_simp; ring
    · rename_i h
      eps
      rw [abs_of_pos (not_le.1 h), nrm2]
      field_simp; ring

theorem topQ_deriv {t : ℝ} (ht : 0 < t) (x : ℝ) : HasDerivAt (topQ t) (topR t x - t) x := by
  refine (pw_deriv ?_ ?_ x).congr_deriv ?_
  · eps
  · eps; field_simp; ring
  · unfold topR
    rw [pw, pw]
    split
    · eps
      simp only [zero_mul, Real.exp_zero]
      generalize Real.exp _ = X
      field_simp; ring
    · eps
      simp only [zero_mul, Real.exp_zero]
      generalize Real.exp _ = X
      field_simp; ring

theorem covLC_top {t w : ℝ} (ht : 0 < t) (hw : 0 < w) (d : ℝ) :
    covLC t (topd w) d = (topR t (d + w) - topR t (d - w)) / (2 * w) := by
  rw [← integral_topd hw (topR_deriv ht) (ou_continuous t), covLC,
    ← integral_neg_eq_self]
  refine integral_congr_ae (Eventually.of_forall fun s => ?_)
  simp only [topd, abs_neg, sub_neg_eq_add]

theorem covLL_toptop {t w v : ℝ} (ht : 0 < t) (hw : 0 < w) (hv : 0 < v) (d : ℝ) :
    covLL t (topd w) (topd v) d =
      (topQ t (d + v + w) - topQ t (d + v - w) - topQ t (d - v + w) + topQ t (d - v - w)) / (4 * w * v) := by
  rw [(covLL_outer ht (topd_integrable w) (topd_integrable v) d).2]
  have hP : ∀ x, HasDerivAt (fun x => (topQ t (x + w) - topQ t (x - w)) / (2 * w)) (covLC t (topd w) x) x := by
    intro x
    rw [covLC_top ht hw]
    refine ((((topQ_deriv ht (x + w)).comp_add_const x w).sub
      ((topQ_deriv ht (x - w)).comp_sub_const x w)).div_const (2 * w)).congr_deriv ?_
    ring
  have hc : Continuous (covLC t (topd w)) := by
    have h : Continuous (topR t) := continuous_iff_continuousAt.2 fun x => (topR_deriv ht x).continuousAt
    have : covLC t (topd w) = fun d => (topR t (d + w) - topR t (d - w)) / (2 * w) := funext (covLC_top ht hw)
    rw [this]; fun_prop
  rw [integral_topd hv hP hc d]
  field_simp; ring

theorem slcTop_eq {t : ℝ} (ht : 0 < t) {a : Comp} (hw : 0 < a.w) (Dt : ℝ) :
    slcTop t a Dt = a.f * covLC t (tfDens .tophat a.c a.w) Dt := by
  rw [tfDens_tophat, covLC_shift]
  obtain ⟨f, c, w⟩ := a
  simp only at hw ⊢
  unfold slcTop
  simp only
  generalize Dt - c = x
  rw [covLC_top ht hw]
  unfold topR
  rw [pw, pw, nrm1 (x + w), nrm1 (x - w), nrm2 (x + w), nrm2 (x - w)]
  by_cases h1 : x < -w
  · rw [if_pos h1, if_pos (by linarith), if_pos (by linarith)]
    eps
    generalize Real.exp _ = X
    generalize Real.exp _ = Y
    field_simp; ring
  · rw [if_neg h1]
    by_cases h2 : x < w
    · rw [if_pos h2, if_pos (by linarith : x - w ≤ 0)]
      by_cases h3 : x + w ≤ 0
      · have : x = -w := by linarith
        subst this
        rw [if_pos h3]
        eps
        simp only [neg_add_cancel, mul_zero, Real.exp_zero]
        generalize Real.exp _ = X
        field_simp; ring
      · rw [if_neg h3]
        eps
        simp only [zero_mul, Real.exp_zero]
        generalize Real.exp _ = X
        generalize Real.exp _ = Y
        field_simp; ring
    · rw [if_neg h2, if_neg (by linarith : ¬ x + w ≤ 0)]
      by_cases h3 : x - w ≤ 0
      · have : x = w := by linarith
        subst this
        rw [if_pos h3]
        eps
        simp only [sub_self, zero_mul, mul_zero, Real.exp_zero]
        generalize Real.exp _ = X
        field_simp; ring
      · rw [if_neg h3]
        eps
        simp only [zero_mul, Real.exp_zero]
        generalize Real.exp _ = X
        generalize Real.exp _ = Y
        field_simp; ring

theorem topQ_pos {t : ℝ} {x : ℝ} (hx : 0 ≤ x) : topQ t x = t ^ 2 * Real.exp (-x / t) + t * x := by
  unfold topQ
  rw [pw, nrm2 x t]
  split
  · have : x = 0 := by linarith
    subst this
    eps
    ring
  · eps
    simp only [zero_mul, Real.exp_zero]; ring

theorem topQ_neg {t : ℝ} {x : ℝ} (hx : x ≤ 0) : topQ t x = t ^ 2 * Real.exp (x / t) - t * x := by
  unfold topQ
  rw [pw, nrm1 x t, if_pos hx]
  eps
  simp only [zero_mul, Real.exp_zero]; ring

/-- The five cases for ordered half-widths. -/
theorem topQ_cases {t h l x : ℝ} (ht : 0 < t) (hh : 0 < h) (hl : 0 < l) (hlh : l ≤ h) :
    (topQ t (x + l + h) - topQ t (x + l - h) - topQ t (x - l + h) + topQ t (x - l - h)) / (4 * h * l) =
    (if x < -h - l then
      Real.exp ((x + h + l) / t) + Real.exp ((x - h - l) / t) - Real.exp ((x + h - l) / t) - Real.exp ((x - h + l) / t)
    else if x < -h + l then
      Real.exp ((x - h - l) / t) + Real.exp (-(x + h + l) / t) -
        Real.exp ((x + h - l) / t) - Real.exp ((x - h + l) / t) + 2 * (x + h + l) / t
    else if x < h - l then
      Real.exp ((x - h - l) / t) + Real.exp (-(x + h + l) / t) -
        Real.exp ((x - h + l) / t) - Real.exp (-(x + h - l) / t) + 4 * l / t
    else if x < h + l then
      Real.exp (-(x + h + l) / t) + Real.exp ((x - h - l) / t) -
        Real.exp (-(x - h + l) / t) - Real.exp (-(x + h - l) / t) - 2 * (x - h - l) / t
    else
      Real.exp (-(x - h - l) / t) + Real.exp (-(x + h + l) / t) -
        Real.exp (-(x - h + l) / t) - Real.exp (-(x + h - l) / t)) * (t ^ 2 / (4 * h * l)) := by
  rw [show x + l + h = x + h + l by ring, show x + l - h = x - h + l by ring, show x - l + h = x + h - l by ring,
    show x - l - h = x - h - l by ring]
  by_cases h1 : x < -h - l
  · rw [if_pos h1, topQ_neg (by linarith), topQ_neg (by linarith), topQ_neg (by linarith), topQ_neg (by linarith)]
    field_simp; ring
  rw [if_neg h1]
  by_cases h2 : x < -h + l
  · rw [if_pos h2, topQ_pos (by linarith : 0 ≤ x + h + l), topQ_neg (by linarith : x - h + l ≤ 0),
      topQ_neg (by linarith : x + h - l ≤ 0), topQ_neg (by linarith : x - h - l ≤ 0)]
    field_simp; ring
  rw [if_neg h2]
  by_cases h3 : x < h - l
  · rw [if_pos h3, topQ_pos (by linarith : 0 ≤ x + h + l), topQ_neg (by linarith : x - h + l ≤ 0),
      topQ_pos (by linarith : 0 ≤ x + h - l), topQ_neg (by linarith : x - h - l ≤ 0)]
    field_simp; ring
  rw [if_neg h3]
  by_cases h4 : x < h + l
  · rw [if_pos h4, topQ_pos (by linarith : 0 ≤ x + h + l), topQ_pos (by linarith : 0 ≤ x - h + l),
      topQ_pos (by linarith : 0 ≤ x + h - l), topQ_neg (by linarith : x - h - l ≤ 0)]
    field_simp; ring
  rw [if_neg h4, topQ_pos (by linarith : 0 ≤ x + h + l), topQ_pos (by linarith : 0 ≤ x - h + l),
      topQ_pos (by linarith : 0 ≤ x + h - l), topQ_pos (by linarith : 0 ≤ x - h - l)]
  field_simp; ring

theorem sllTopTop_eq {t : ℝ} (ht : 0 < t) {a b : Comp} (hw : 0 < a.w) (hv : 0 < b.w) (Dt : ℝ) :
    sllTopTop t a b Dt = a.f * b.f * covLL t (tfDens .tophat a.c a.w) (tfDens .tophat b.c b.w) Dt := by
  rw [tfDens_tophat, tfDens_tophat, covLL_shift ht (topd_integrable _) (topd_integrable _)]
  obtain ⟨f, c, w⟩ := a
  obtain ⟨g, e, v⟩ := b
  simp only at hw hv ⊢
  unfold sllTopTop
  simp only
  generalize Dt - (c - e) = x
  rw [covLL_toptop ht hw hv]
  by_cases h : w ≥ v
  · rw [if_pos h, if_pos h, topQ_cases ht hw hv h]
    field_simp
  · rw [if_neg h, if_neg h]
    have := topQ_cases (x := x) ht hv hw (not_le.1 h).le
    rw [show (topQ t (x + v + w) - topQ t (x + v - w) - topQ t (x - v + w) + topQ t (x - v - w)) / (4 * w * v) =
      (topQ t (x + w + v) - topQ t (x + w - v) - topQ t (x - w + v) + topQ t (x - w - v)) / (4 * v * w) by
        rw [show x + v + w = x + w + v by ring, show x + v - w = x - w + v by ring, show x - v + w = x + w - v by ring,
          show x - v - w = x - w - v by ring]; ring, this]
    field_simp

end Mica
