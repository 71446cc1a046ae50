import Verif.Proof.KernelExp

/-! The closed forms, branch by branch. -/

namespace Mica
open MeasureTheory Set Filter Topology

/-- unfolding of exponential polynomials -/
macro "eps" : tactic => `(tactic| simp only [ep, epD, pe, List.map_cons, List.map_nil, List.sum_cons, List.sum_nil, mul_zero, Real.exp_zero, add_zero, zero_add])

theorem covLC_exp1 {t w : ℝ} (ht : 0 < t) (hw : 0 < w) (h : t ≠ w) (d : ℝ) :
    covLC t (expd w) d = pw [(1 / t, t / (t + w), 0, 0)]
      [(-1 / t, t / (t - w), 0, 0), (-1 / w, -t / (t - w) + t / (t + w), 0, 0)] d := by
  have h' : t - w ≠ 0 := sub_ne_zero.2 h
  refine covLC_expd_pw ht hw ?_ ?_ ?_ ?_ d
  · intro x; eps
    generalize Real.exp _ = X
    field_simp; ring
  · intro x; eps
    generalize Real.exp (-1 / t * x) = X
    generalize Real.exp (-1 / w * x) = Y
    field_simp; ring
  · eps; ring
  · intro q hq; simp only [List.mem_singleton] at hq; subst hq; simp; exact ht

theorem covLC_exp0 {t : ℝ} (ht : 0 < t) (d : ℝ) :
    covLC t (expd t) d = pw [(1 / t, 1 / 2, 0, 0)] [(-1 / t, 1 / 2, 1 / t, 0)] d := by
  refine covLC_expd_pw ht ht ?_ ?_ ?_ ?_ d
  · intro x; eps
    generalize Real.exp _ = X
    field_simp; ring
  · intro x; eps
    generalize Real.exp _ = X
    field_simp; ring
  · eps
  · intro q hq; simp only [List.mem_singleton] at hq; subst hq; simp; exact ht

theorem covLC_gam1 {t w : ℝ} (ht : 0 < t) (hw : 0 < w) (h : t ≠ w) (d : ℝ) :
    covLC t (gamd w) d = pw [(1 / t, (t / (t + w)) ^ 2, 0, 0)]
      [(-1 / t, (t / (t - w)) ^ 2, 0, 0),
        (-1 / w, (t / (t + w)) ^ 2 - (t / (t - w)) ^ 2, (t / (t + w) - t / (t - w)) / w, 0)] d := by
  have h' : t - w ≠ 0 := sub_ne_zero.2 h
  refine covLC_gamd_pw ht hw ?_ ?_ ?_ ?_ ?_ d
  · intro x; eps
    generalize Real.exp _ = X
    field_simp; ring
  · intro x; eps
    generalize Real.exp (-1 / t * x) = X
    generalize Real.exp (-1 / w * x) = Y
    field_simp; ring
  · eps; ring
  · eps; field_simp; ring
  · intro q hq; simp only [List.mem_singleton] at hq; subst hq; simp; exact ht

theorem covLC_gam0 {t : ℝ} (ht : 0 < t) (d : ℝ) :
    covLC t (gamd t) d = pw [(1 / t, 1 / 4, 0, 0)] [(-1 / t, 1 / 4, 1 / 2 / t, 1 / 2 / t ^ 2)] d := by
  refine covLC_gamd_pw ht ht ?_ ?_ ?_ ?_ ?_ d
  · intro x; eps
    generalize Real.exp _ = X
    field_simp; ring
  · intro x; eps
    generalize Real.exp _ = X
    field_simp; ring
  · eps; ring
  · eps; ring
  · intro q hq; simp only [List.mem_singleton] at hq; subst hq; simp; exact ht

theorem neg_one_div_neg {t : ℝ} (ht : 0 < t) : -1 / t < 0 := div_neg_of_neg_of_pos (by norm_num) ht

theorem covLL_expexp11 {t w v : ℝ} (ht : 0 < t) (hw : 0 < w) (h : t ≠ w) (hv : 0 < v) (h2 : t ≠ v) (d : ℝ) :
    covLL t (expd w) (expd v) d = pw
      [(1 / t, t ^ 2 / ((t + w) * (t - v)), 0, 0), (1 / v, v * t / (w + v) * (1 / (t + v) - 1 / (t - v)), 0, 0)]
      [(-1 / t, t ^ 2 / ((t - w) * (t + v)), 0, 0), (-1 / w, w * t / (w + v) * (1 / (t + w) - 1 / (t - w)), 0, 0)] d := by
  have h' : t - w ≠ 0 := sub_ne_zero.2 h
  have h2' : t - v ≠ 0 := sub_ne_zero.2 h2
  refine covLL_expd_pw ht hv (expd_integrable hw) (fun x => covLC_exp1 ht hw h x) ?_ ?_ ?_ ?_ ?_ d
  · intro x; eps
    generalize Real.exp (1 / t * x) = X0
    generalize Real.exp (1 / v * x) = X1
    field_simp; ring
  · intro x; eps
    generalize Real.exp (-1 / t * x) = X0
    generalize Real.exp (-1 / w * x) = X1
    field_simp; ring
  · eps; try (field_simp; try ring)
  · eps; try ring
  · intro q hq
    simp only [List.mem_cons, List.not_mem_nil, or_false] at hq
    rcases hq with rfl | rfl
    · exact neg_one_div_neg ht
    · exact neg_one_div_neg hw

theorem covLL_expexp10 {t w : ℝ} (ht : 0 < t) (hw : 0 < w) (h : t ≠ w) (d : ℝ) :
    covLL t (expd w) (expd t) d = pw
      [(1 / t, w / t * (t / (t + w)) ^ 2 + t / (2 * (w + t)), -1 / (t + w), 0)]
      [(-1 / t, t ^ 2 / ((t - w) * (t + t)), 0, 0), (-1 / w, w * t / (w + t) * (1 / (t + w) - 1 / (t - w)), 0, 0)] d := by
  have h' : t - w ≠ 0 := sub_ne_zero.2 h
  refine covLL_expd_pw ht ht (expd_integrable hw) (fun x => covLC_exp1 ht hw h x) ?_ ?_ ?_ ?_ ?_ d
  · intro x; eps
    generalize Real.exp (1 / t * x) = X0
    field_simp; ring
  · intro x; eps
    generalize Real.exp (-1 / t * x) = X0
    generalize Real.exp (-1 / w * x) = X1
    field_simp; ring
  · eps; try (field_simp; try ring)
  · eps; try ring
  · intro q hq
    simp only [List.mem_cons, List.not_mem_nil, or_false] at hq
    rcases hq with rfl | rfl
    · exact neg_one_div_neg ht
    · exact neg_one_div_neg hw

theorem covLL_expexp01 {t v : ℝ} (ht : 0 < t) (hv : 0 < v) (h2 : t ≠ v) (d : ℝ) :
    covLL t (expd t) (expd v) d = pw
      [(1 / t, t ^ 2 / ((t + t) * (t - v)), 0, 0), (1 / v, v * t / (t + v) * (1 / (t + v) - 1 / (t - v)), 0, 0)]
      [(-1 / t, v / t * (t / (t + v)) ^ 2 + t / (2 * (t + v)), 1 / (t + v), 0)] d := by
  have h2' : t - v ≠ 0 := sub_ne_zero.2 h2
  refine covLL_expd_pw ht hv (expd_integrable ht) (fun x => covLC_exp0 ht x) ?_ ?_ ?_ ?_ ?_ d
  · intro x; eps
    generalize Real.exp (1 / t * x) = X0
    generalize Real.exp (1 / v * x) = X1
    field_simp; ring
  · intro x; eps
    generalize Real.exp (-1 / t * x) = X0
    field_simp; ring
  · eps; try (field_simp; try ring)
  · eps; try ring
  · intro q hq
    simp only [List.mem_cons, List.not_mem_nil, or_false] at hq
    subst hq; exact neg_one_div_neg ht

theorem covLL_expexp00 {t : ℝ} (ht : 0 < t) (d : ℝ) :
    covLL t (expd t) (expd t) d = pw
      [(1 / t, t / t * (t / (t + t)) ^ 2 + t / (2 * (t + t)), -1 / (t + t), 0)]
      [(-1 / t, t / t * (t / (t + t)) ^ 2 + t / (2 * (t + t)), 1 / (t + t), 0)] d := by
  refine covLL_expd_pw ht ht (expd_integrable ht) (fun x => covLC_exp0 ht x) ?_ ?_ ?_ ?_ ?_ d
  · intro x; eps
    generalize Real.exp (1 / t * x) = X0
    field_simp; ring
  · intro x; eps
    generalize Real.exp (-1 / t * x) = X0
    field_simp; ring
  · eps; try (field_simp; try ring)
  · eps; try ring
  · intro q hq
    simp only [List.mem_cons, List.not_mem_nil, or_false] at hq
    subst hq; exact neg_one_div_neg ht

theorem covLL_expgam11 {t w v : ℝ} (ht : 0 < t) (hw : 0 < w) (h : t ≠ w) (hv : 0 < v) (h2 : t ≠ v) (d : ℝ) :
    covLL t (expd w) (gamd v) d = pw
      [(1 / t, 1 / (((w + t) / (w * t)) * ((t - v) / (t * v)) ^ 2) / (w * v ^ 2), 0, 0),
        (1 / v, ((1 / ((v + t) / (v * t)) - 1 / ((t - v) / (t * v))) / ((w + v) / (w * v)) ^ 2 + (1 / ((v + t) / (v * t)) ^ 2 - 1 / ((t - v) / (t * v)) ^ 2) / ((w + v) / (w * v))) / (w * v ^ 2),
          -(1 / ((v + t) / (v * t)) - 1 / ((t - v) / (t * v))) / ((w + v) / (w * v)) / (w * v ^ 2), 0)]
      [(-1 / t, 1 / (((t - w) / (t * w)) * ((v + t) / (v * t)) ^ 2) / (w * v ^ 2), 0, 0), (-1 / w, (1 / ((w + t) / (w * t)) - 1 / ((t - w) / (t * w))) / ((w + v) / (w * v)) ^ 2 / (w * v ^ 2), 0, 0)] d := by
  have h' : t - w ≠ 0 := sub_ne_zero.2 h
  have h2' : t - v ≠ 0 := sub_ne_zero.2 h2
  refine covLL_gamd_pw ht hv (expd_integrable hw) (fun x => covLC_exp1 ht hw h x) ?_ ?_ ?_ ?_ ?_ ?_ d
  · intro x; eps
    generalize Real.exp (1 / t * x) = X0
    generalize Real.exp (1 / v * x) = X1
    field_simp; ring
  · intro x; eps
    generalize Real.exp (-1 / t * x) = X0
    generalize Real.exp (-1 / w * x) = X1
    field_simp; ring
  · eps; try (field_simp; try ring)
  · eps; try (field_simp; try ring)
  · eps; try ring
  · intro q hq
    simp only [List.mem_cons, List.not_mem_nil, or_false] at hq
    rcases hq with rfl | rfl
    · exact neg_one_div_neg ht
    · exact neg_one_div_neg hw

theorem covLL_expgam10 {t w : ℝ} (ht : 0 < t) (hw : 0 < w) (h : t ≠ w) (d : ℝ) :
    covLL t (expd w) (gamd t) d = pw
      [(1 / t, (1 / ((w + t) / (w * t)) ^ 3 + 1 / (((w + t) / (w * t)) * ((t + t) / (t * t)) ^ 2) + 1 / ((w + t) / (w * t)) ^ 2 / ((t + t) / (t * t))) / (w * t ^ 2),
        (-1 / ((w + t) / (w * t)) ^ 2 - 1 / ((w + t) / (w * t)) / ((t + t) / (t * t))) / (w * t ^ 2), 1 / (2 * ((w + t) / (w * t))) / (w * t ^ 2))]
      [(-1 / t, 1 / (((t - w) / (t * w)) * ((t + t) / (t * t)) ^ 2) / (w * t ^ 2), 0, 0), (-1 / w, (1 / ((w + t) / (w * t)) - 1 / ((t - w) / (t * w))) / ((w + t) / (w * t)) ^ 2 / (w * t ^ 2), 0, 0)] d := by
  have h' : t - w ≠ 0 := sub_ne_zero.2 h
  refine covLL_gamd_pw ht ht (expd_integrable hw) (fun x => covLC_exp1 ht hw h x) ?_ ?_ ?_ ?_ ?_ ?_ d
  · intro x; eps
    generalize Real.exp (1 / t * x) = X0
    field_simp; ring
  · intro x; eps
    generalize Real.exp (-1 / t * x) = X0
    generalize Real.exp (-1 / w * x) = X1
    field_simp; ring
  · eps; try (field_simp; try ring)
  · eps; try (field_simp; try ring)
  · eps; try ring
  · intro q hq
    simp only [List.mem_cons, List.not_mem_nil, or_false] at hq
    rcases hq with rfl | rfl
    · exact neg_one_div_neg ht
    · exact neg_one_div_neg hw

theorem covLL_expgam01 {t v : ℝ} (ht : 0 < t) (hv : 0 < v) (h2 : t ≠ v) (d : ℝ) :
    covLL t (expd t) (gamd v) d = pw
      [(1 / t, 1 / (((t + t) / (t * t)) * ((t - v) / (t * v)) ^ 2) / (t * v ^ 2), 0, 0),
        (1 / v, ((1 / ((v + t) / (v * t)) - 1 / ((t - v) / (t * v))) / ((t + v) / (t * v)) ^ 2 + (1 / ((v + t) / (v * t)) ^ 2 - 1 / ((t - v) / (t * v)) ^ 2) / ((t + v) / (t * v))) / (t * v ^ 2),
          -(1 / ((v + t) / (v * t)) - 1 / ((t - v) / (t * v))) / ((t + v) / (t * v)) / (t * v ^ 2), 0)]
      [(-1 / t, (2 / ((v + t) / (v * t)) ^ 3 + 1 / (((t + t) / (t * t)) * ((t + v) / (t * v)) ^ 2)) / (t * v ^ 2), 1 / ((v + t) / (v * t)) ^ 2 / (t * v ^ 2), 0)] d := by
  have h2' : t - v ≠ 0 := sub_ne_zero.2 h2
  refine covLL_gamd_pw ht hv (expd_integrable ht) (fun x => covLC_exp0 ht x) ?_ ?_ ?_ ?_ ?_ ?_ d
  · intro x; eps
    generalize Real.exp (1 / t * x) = X0
    generalize Real.exp (1 / v * x) = X1
    field_simp; ring
  · intro x; eps
    generalize Real.exp (-1 / t * x) = X0
    field_simp; ring
  · eps; try (field_simp; try ring)
  · eps; try (field_simp; try ring)
  · eps; try ring
  · intro q hq
    simp only [List.mem_cons, List.not_mem_nil, or_false] at hq
    subst hq; exact neg_one_div_neg ht

theorem covLL_expgam00 {t : ℝ} (ht : 0 < t) (d : ℝ) :
    covLL t (expd t) (gamd t) d = pw
      [(1 / t, (1 / ((t + t) / (t * t)) ^ 3 + 1 / (((t + t) / (t * t)) * ((t + t) / (t * t)) ^ 2) + 1 / ((t + t) / (t * t)) ^ 2 / ((t + t) / (t * t))) / (t * t ^ 2),
        (-1 / ((t + t) / (t * t)) ^ 2 - 1 / ((t + t) / (t * t)) / ((t + t) / (t * t))) / (t * t ^ 2), 1 / (2 * ((t + t) / (t * t))) / (t * t ^ 2))]
      [(-1 / t, (2 / ((t + t) / (t * t)) ^ 3 + 1 / (((t + t) / (t * t)) * ((t + t) / (t * t)) ^ 2)) / (t * t ^ 2), 1 / ((t + t) / (t * t)) ^ 2 / (t * t ^ 2), 0)] d := by
  refine covLL_gamd_pw ht ht (expd_integrable ht) (fun x => covLC_exp0 ht x) ?_ ?_ ?_ ?_ ?_ ?_ d
  · intro x; eps
    generalize Real.exp (1 / t * x) = X0
    field_simp; ring
  · intro x; eps
    generalize Real.exp (-1 / t * x) = X0
    field_simp; ring
  · eps; try (field_simp; try ring)
  · eps; try (field_simp; try ring)
  · eps; try ring
  · intro q hq
    simp only [List.mem_cons, List.not_mem_nil, or_false] at hq
    subst hq; exact neg_one_div_neg ht

theorem covLL_gamgam11 {t w v : ℝ} (ht : 0 < t) (hw : 0 < w) (h : t ≠ w) (hv : 0 < v) (h2 : t ≠ v) (d : ℝ) :
    covLL t (gamd w) (gamd v) d = pw
      [(1 / t, 1 / (((t + w) / t) ^ 2 * ((t - v) / t) ^ 2), 0, 0),
        (1 / v, (-(1 + 2 * ((t - v) / t) / ((w + v) / w)) + (1 + 2 * ((t + v) / t) / ((w + v) / w)) * ((t - v) / t) ^ 2 / ((t + v) / t) ^ 2) / (((t - v) / t) ^ 2 * ((w + v) / v) ^ 2),
          (((t - v) / t) / v - ((t + v) / t) / v * ((t - v) / t) ^ 2 / ((t + v) / t) ^ 2) / (((t - v) / t) ^ 2 * ((w + v) / v) ^ 2), 0)]
      [(-1 / t, 1 / (((t - w) / t) ^ 2 * ((t + v) / t) ^ 2), 0, 0),
        (-1 / w, (-(1 + 2 * ((t - w) / t) / ((w + v) / v)) + (1 + 2 * ((t + w) / t) / ((w + v) / v)) * ((t - w) / t) ^ 2 / ((t + w) / t) ^ 2) / (((t - w) / t) ^ 2 * ((w + v) / w) ^ 2),
          (-((t - w) / t) / w + ((t + w) / t) / w * ((t - w) / t) ^ 2 / ((t + w) / t) ^ 2) / (((t - w) / t) ^ 2 * ((w + v) / w) ^ 2), 0)] d := by
  have h' : t - w ≠ 0 := sub_ne_zero.2 h
  have h2' : t - v ≠ 0 := sub_ne_zero.2 h2
  refine covLL_gamd_pw ht hv (gamd_integrable hw) (fun x => covLC_gam1 ht hw h x) ?_ ?_ ?_ ?_ ?_ ?_ d
  · intro x; eps
    generalize Real.exp (1 / t * x) = X0
    generalize Real.exp (1 / v * x) = X1
    field_simp; ring
  · intro x; eps
    generalize Real.exp (-1 / t * x) = X0
    generalize Real.exp (-1 / w * x) = X1
    field_simp; ring
  · eps; try (field_simp; try ring)
  · eps; try (field_simp; try ring)
  · eps; try ring
  · intro q hq
    simp only [List.mem_cons, List.not_mem_nil, or_false] at hq
    rcases hq with rfl | rfl
    · exact neg_one_div_neg ht
    · exact neg_one_div_neg hw

theorem covLL_gamgam10 {t w : ℝ} (ht : 0 < t) (hw : 0 < w) (h : t ≠ w) (d : ℝ) :
    covLL t (gamd w) (gamd t) d = pw
      [(1 / t, ((w / t) ^ 2 / ((t + w) / t) ^ 4) * 3 + (1 + 2 * ((t + t) / t) / ((w + t) / w)) / (((t + t) / t) ^ 2 * ((w + t) / t) ^ 2),
        -2 * ((w / t) ^ 2 / ((t + w) / t) ^ 4) * ((t + w) / t) / w - ((t + t) / t) / t / (((t + t) / t) ^ 2 * ((w + t) / t) ^ 2), ((w / t) ^ 2 / ((t + w) / t) ^ 4) * ((t + w) / t) ^ 2 / w ^ 2 / 2)]
      [(-1 / t, 1 / (((t - w) / t) ^ 2 * ((t + t) / t) ^ 2), 0, 0),
        (-1 / w, (-(1 + 2 * ((t - w) / t) / ((w + t) / t)) + (1 + 2 * ((t + w) / t) / ((w + t) / t)) * ((t - w) / t) ^ 2 / ((t + w) / t) ^ 2) / (((t - w) / t) ^ 2 * ((w + t) / w) ^ 2),
          (-((t - w) / t) / w + ((t + w) / t) / w * ((t - w) / t) ^ 2 / ((t + w) / t) ^ 2) / (((t - w) / t) ^ 2 * ((w + t) / w) ^ 2), 0)] d := by
  have h' : t - w ≠ 0 := sub_ne_zero.2 h
  refine covLL_gamd_pw ht ht (gamd_integrable hw) (fun x => covLC_gam1 ht hw h x) ?_ ?_ ?_ ?_ ?_ ?_ d
  · intro x; eps
    generalize Real.exp (1 / t * x) = X0
    field_simp; ring
  · intro x; eps
    generalize Real.exp (-1 / t * x) = X0
    generalize Real.exp (-1 / w * x) = X1
    field_simp; ring
  · eps; try (field_simp; try ring)
  · eps; try (field_simp; try ring)
  · eps; try ring
  · intro q hq
    simp only [List.mem_cons, List.not_mem_nil, or_false] at hq
    rcases hq with rfl | rfl
    · exact neg_one_div_neg ht
    · exact neg_one_div_neg hw

theorem covLL_gamgam01 {t v : ℝ} (ht : 0 < t) (hv : 0 < v) (h2 : t ≠ v) (d : ℝ) :
    covLL t (gamd t) (gamd v) d = pw
      [(1 / t, 1 / (((t + t) / t) ^ 2 * ((t - v) / t) ^ 2), 0, 0),
        (1 / v, (-(1 + 2 * ((t - v) / t) / ((t + v) / t)) + (1 + 2 * ((t + v) / t) / ((t + v) / t)) * ((t - v) / t) ^ 2 / ((t + v) / t) ^ 2) / (((t - v) / t) ^ 2 * ((t + v) / v) ^ 2),
          (((t - v) / t) / v - ((t + v) / t) / v * ((t - v) / t) ^ 2 / ((t + v) / t) ^ 2) / (((t - v) / t) ^ 2 * ((t + v) / v) ^ 2), 0)]
      [(-1 / t, ((v / t) ^ 2 / ((t + v) / t) ^ 4) * 3 + (1 + 2 * ((t + t) / t) / ((t + v) / v)) / (((t + t) / t) ^ 2 * ((t + v) / t) ^ 2),
        2 * ((v / t) ^ 2 / ((t + v) / t) ^ 4) * ((t + v) / t) / v + ((t + t) / t) / t / (((t + t) / t) ^ 2 * ((t + v) / t) ^ 2), ((v / t) ^ 2 / ((t + v) / t) ^ 4) * ((t + v) / t) ^ 2 / v ^ 2 / 2)] d := by
  have h2' : t - v ≠ 0 := sub_ne_zero.2 h2
  refine covLL_gamd_pw ht hv (gamd_integrable ht) (fun x => covLC_gam0 ht x) ?_ ?_ ?_ ?_ ?_ ?_ d
  · intro x; eps
    generalize Real.exp (1 / t * x) = X0
    generalize Real.exp (1 / v * x) = X1
    field_simp; ring
  · intro x; eps
    generalize Real.exp (-1 / t * x) = X0
    field_simp; ring
  · eps; try (field_simp; try ring)
  · eps; try (field_simp; try ring)
  · eps; try ring
  · intro q hq
    simp only [List.mem_cons, List.not_mem_nil, or_false] at hq
    subst hq; exact neg_one_div_neg ht

theorem covLL_gamgam00 {t : ℝ} (ht : 0 < t) (d : ℝ) :
    covLL t (gamd t) (gamd t) d = pw
      [(1 / t, ((t / t) ^ 2 / ((t + t) / t) ^ 4) * 3 + (1 + 2 * ((t + t) / t) / ((t + t) / t)) / (((t + t) / t) ^ 2 * ((t + t) / t) ^ 2),
        -2 * ((t / t) ^ 2 / ((t + t) / t) ^ 4) * ((t + t) / t) / t - ((t + t) / t) / t / (((t + t) / t) ^ 2 * ((t + t) / t) ^ 2), ((t / t) ^ 2 / ((t + t) / t) ^ 4) * ((t + t) / t) ^ 2 / t ^ 2 / 2)]
      [(-1 / t, ((t / t) ^ 2 / ((t + t) / t) ^ 4) * 3 + (1 + 2 * ((t + t) / t) / ((t + t) / t)) / (((t + t) / t) ^ 2 * ((t + t) / t) ^ 2),
        2 * ((t / t) ^ 2 / ((t + t) / t) ^ 4) * ((t + t) / t) / t + ((t + t) / t) / t / (((t + t) / t) ^ 2 * ((t + t) / t) ^ 2), ((t / t) ^ 2 / ((t + t) / t) ^ 4) * ((t + t) / t) ^ 2 / t ^ 2 / 2)] d := by
  refine covLL_gamd_pw ht ht (gamd_integrable ht) (fun x => covLC_gam0 ht x) ?_ ?_ ?_ ?_ ?_ ?_ d
  · intro x; eps
    generalize Real.exp (1 / t * x) = X0
    field_simp; ring
  · intro x; eps
    generalize Real.exp (-1 / t * x) = X0
    field_simp; ring
  · eps; try (field_simp; try ring)
  · eps; try (field_simp; try ring)
  · eps; try ring
  · intro q hq
    simp only [List.mem_cons, List.not_mem_nil, or_false] at hq
    subst hq; exact neg_one_div_neg ht

theorem covLL_exptop1 {t w v : ℝ} (ht : 0 < t) (hw : 0 < w) (h : t ≠ w) (hv : 0 < v) (d : ℝ) :
    covLL t (expd w) (topd v) d = (pw [(1 / t, t * (t / (t + w)), 0, 0)]
      [(-1 / t, -t * (t / (t - w)), 0, 0), (-1 / w, -w * ((t / (t + w)) - (t / (t - w))), 0, 0), (0, 2 * t, 0, 0)] (d + v) -
      pw [(1 / t, t * (t / (t + w)), 0, 0)]
      [(-1 / t, -t * (t / (t - w)), 0, 0), (-1 / w, -w * ((t / (t + w)) - (t / (t - w))), 0, 0), (0, 2 * t, 0, 0)] (d - v)) / (2 * v) := by
  have h' : t - w ≠ 0 := sub_ne_zero.2 h
  refine covLL_topd_pw ht hv (expd_integrable hw) (fun x => covLC_exp1 ht hw h x) ?_ ?_ ?_ ?_ d
  · intro x; eps
    generalize Real.exp (1 / t * x) = X
    field_simp; try ring
  · intro x; eps
    generalize Real.exp (-1 / t * x) = X
    generalize Real.exp (-1 / w * x) = Y
    field_simp; ring
  · eps; try (field_simp; try ring)
  · eps; try ring

theorem covLL_exptop0 {t v : ℝ} (ht : 0 < t) (hv : 0 < v) (d : ℝ) :
    covLL t (expd t) (topd v) d = (pw [(1 / t, t / 2, 0, 0)]
      [(-1 / t, -3 * t / 2, -1, 0), (0, 2 * t, 0, 0)] (d + v) -
      pw [(1 / t, t / 2, 0, 0)]
      [(-1 / t, -3 * t / 2, -1, 0), (0, 2 * t, 0, 0)] (d - v)) / (2 * v) := by
  refine covLL_topd_pw ht hv (expd_integrable ht) (fun x => covLC_exp0 ht x) ?_ ?_ ?_ ?_ d
  · intro x; eps
    generalize Real.exp (1 / t * x) = X
    field_simp; try ring
  · intro x; eps
    generalize Real.exp (-1 / t * x) = X
    field_simp; ring
  · eps; try (field_simp; try ring)
  · eps; try ring

theorem covLL_gamtop1 {t w v : ℝ} (ht : 0 < t) (hw : 0 < w) (h : t ≠ w) (hv : 0 < v) (d : ℝ) :
    covLL t (gamd w) (topd v) d = (pw [(1 / t, t * (t / (t + w)) ^ 2, 0, 0)]
      [(-1 / t, -t * (t / (t - w)) ^ 2, 0, 0), (-1 / w, -w * ((t / (t + w)) - (t / (t - w)) + ((t / (t + w)) ^ 2 - (t / (t - w)) ^ 2)), -((t / (t + w)) - (t / (t - w))), 0), (0, 2 * t, 0, 0)] (d + v) -
      pw [(1 / t, t * (t / (t + w)) ^ 2, 0, 0)]
      [(-1 / t, -t * (t / (t - w)) ^ 2, 0, 0), (-1 / w, -w * ((t / (t + w)) - (t / (t - w)) + ((t / (t + w)) ^ 2 - (t / (t - w)) ^ 2)), -((t / (t + w)) - (t / (t - w))), 0), (0, 2 * t, 0, 0)] (d - v)) / (2 * v) := by
  have h' : t - w ≠ 0 := sub_ne_zero.2 h
  refine covLL_topd_pw ht hv (gamd_integrable hw) (fun x => covLC_gam1 ht hw h x) ?_ ?_ ?_ ?_ d
  · intro x; eps
    generalize Real.exp (1 / t * x) = X
    field_simp; try ring
  · intro x; eps
    generalize Real.exp (-1 / t * x) = X
    generalize Real.exp (-1 / w * x) = Y
    field_simp; ring
  · eps; try (field_simp; try ring)
  · eps; try ring

theorem covLL_gamtop0 {t v : ℝ} (ht : 0 < t) (hv : 0 < v) (d : ℝ) :
    covLL t (gamd t) (topd v) d = (pw [(1 / t, t / 4, 0, 0)]
      [(-1 / t, -7 * t / 4, -3 / 2, -1 / (2 * t)), (0, 2 * t, 0, 0)] (d + v) -
      pw [(1 / t, t / 4, 0, 0)]
      [(-1 / t, -7 * t / 4, -3 / 2, -1 / (2 * t)), (0, 2 * t, 0, 0)] (d - v)) / (2 * v) := by
  refine covLL_topd_pw ht hv (gamd_integrable ht) (fun x => covLC_gam0 ht x) ?_ ?_ ?_ ?_ d
  · intro x; eps
    generalize Real.exp (1 / t * x) = X
    field_simp; try ring
  · intro x; eps
    generalize Real.exp (-1 / t * x) = X
    field_simp; ring
  · eps; try (field_simp; try ring)
  · eps; try ring

end Mica
