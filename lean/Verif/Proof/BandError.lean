import Verif.Proof.KernelMean

/-! How far the limiting formulas of the covariance functions are from the integrals: the integrals change little with the
width of a response, and so do the limiting formulas. -/

namespace Mica
open MeasureTheory Set Filter Topology

theorem exp_neg_lip {a b : ℝ} (ha : 0 ≤ a) (hb : 0 ≤ b) : |Real.exp (-a) - Real.exp (-b)| ≤ |a - b| := by
  have key : ∀ {a b : ℝ}, 0 ≤ a → a ≤ b → |Real.exp (-a) - Real.exp (-b)| ≤ |a - b| := by
    intro a b ha hab
    have h1 : Real.exp (-b) ≤ Real.exp (-a) := Real.exp_le_exp.2 (by linarith)
    have h2 : Real.exp (-a) ≤ 1 := Real.exp_le_one_iff.2 (by linarith)
    have h3 : Real.exp (-b) = Real.exp (-a) * Real.exp (a - b) := by rw [← Real.exp_add]; congr 1; ring
    have h4 : a - b + 1 ≤ Real.exp (a - b) := Real.add_one_le_exp _
    rw [abs_of_nonneg (by linarith), abs_of_nonpos (by linarith), h3]
    have h5 : Real.exp (-a) * (1 - Real.exp (a - b)) ≤ 1 * (1 - Real.exp (a - b)) :=
      mul_le_mul_of_nonneg_right h2 (by have := Real.exp_le_one_iff.2 (show a - b ≤ 0 by linarith); linarith)
    linarith
  rcases le_total a b with h | h
  · exact key ha h
  · rw [abs_sub_comm, abs_sub_comm a b]; exact key hb h

theorem ou_lip {t : ℝ} (ht : 0 < t) (x y : ℝ) : |Real.exp (-|x| / t) - Real.exp (-|y| / t)| ≤ |x - y| / t := by
  rw [neg_div, neg_div]
  refine (exp_neg_lip (by positivity) (by positivity)).trans ?_
  rw [← sub_div, abs_div, abs_of_pos ht]
  exact div_le_div_of_nonneg_right (abs_abs_sub_abs_le _ _) ht.le

/-- A family of responses with the same shape: `ψ w` is `ψ 1` stretched by `w`, has area one and mean `m * w`. -/
structure Stretch (ψ : ℝ → ℝ → ℝ) (m : ℝ) : Prop where
  scale : ∀ {w : ℝ}, 0 < w → ∀ s, ψ w s = 1 / w * ψ 1 (s / w)
  pos : ∀ {w : ℝ}, 0 < w → ∀ s, 0 ≤ ψ w s
  zero : ∀ {w : ℝ} {s : ℝ}, s ≤ 0 → ψ w s = 0
  int : ∀ {w : ℝ}, 0 < w → Integrable (ψ w)
  mint : Integrable fun s => s * ψ 1 s
  mean : ∫ s, s * ψ 1 s = m

theorem expd_stretch : Stretch expd 1 where
  scale := by
    intro w hw s
    unfold expd
    rcases lt_or_ge 0 s with h | h
    · rw [if_pos h, if_pos (div_pos h hw)]; simp [neg_div]
    · rw [if_neg (not_lt.2 h), if_neg (not_lt.2 (div_nonpos_of_nonpos_of_nonneg h hw.le))]; simp
  pos := by intro w hw s; unfold expd; split <;> positivity
  zero := by intro w s h; unfold expd; rw [if_neg (not_lt.2 h)]
  int := expd_integrable
  mint := by rw [expd_mean one_pos]; exact (gamd_integrable one_pos).const_mul 1
  mean := by rw [expd_mean one_pos, integral_const_mul, gamd_integral one_pos, one_mul]

theorem gamd_stretch : Stretch gamd 2 where
  scale := by
    intro w hw s
    unfold gamd
    rcases lt_or_ge 0 s with h | h
    · rw [if_pos h, if_pos (div_pos h hw)]; rw [neg_div, neg_div, div_one]; generalize Real.exp _ = X; field_simp
    · rw [if_neg (not_lt.2 h), if_neg (not_lt.2 (div_nonpos_of_nonpos_of_nonneg h hw.le))]; simp
  pos := by
    intro w hw s; unfold gamd; split
    · positivity
    · exact le_rfl
  zero := by intro w s h; unfold gamd; rw [if_neg (not_lt.2 h)]
  int := gamd_integrable
  mint := (gamd_mean one_pos).1
  mean := by rw [(gamd_mean one_pos).2, mul_one]

theorem Stretch.covLC_eq {ψ : ℝ → ℝ → ℝ} {m : ℝ} (S : Stretch ψ m) {w : ℝ} (hw : 0 < w) (t d : ℝ) :
    covLC t (ψ w) d = ∫ u, ψ 1 u * Real.exp (-|d - w * u| / t) := by
  have := Measure.integral_comp_div (fun u => ψ 1 u * Real.exp (-|d - w * u| / t)) w
  simp only [smul_eq_mul, abs_of_pos hw] at this
  unfold covLC
  rw [← mul_right_inj' hw.ne', ← this, ← integral_const_mul]
  congr 1; ext s
  rw [S.scale hw s, mul_div_cancel₀ _ hw.ne']
  field_simp

/-- The covariance with the continuum changes little with the width of the response. -/
theorem Stretch.covLC_lip {ψ : ℝ → ℝ → ℝ} {m : ℝ} (S : Stretch ψ m) {t w v : ℝ} (ht : 0 < t) (hw : 0 < w) (hv : 0 < v) (d : ℝ) :
    |covLC t (ψ w) d - covLC t (ψ v) d| ≤ m * (|w - v| / t) := by
  have hI : ∀ w : ℝ, Integrable fun u => ψ 1 u * Real.exp (-|d - w * u| / t) := fun w => by
    refine (S.int one_pos).mul_bdd (c := 1) ?_ ?_
    · exact (by fun_prop : Continuous fun s : ℝ => Real.exp (-|d - w * s| / t)).aestronglyMeasurable
    · exact Eventually.of_forall fun p => by rw [Real.norm_eq_abs, Real.abs_exp]; exact exp_abs_le_one ht _
  rw [S.covLC_eq hw, S.covLC_eq hv, ← integral_sub (hI w) (hI v), ← S.mean, ← integral_mul_const]
  refine (abs_integral_le_integral_abs).trans ?_
  refine integral_mono ((hI w).sub (hI v)).abs (S.mint.mul_const _) fun u => ?_
  simp only [← mul_sub]
  rw [abs_mul, abs_of_nonneg (S.pos one_pos u)]
  rcases le_or_gt u 0 with hu | hu
  · rw [S.zero hu]; simp
  · calc ψ 1 u * |Real.exp (-|d - w * u| / t) - Real.exp (-|d - v * u| / t)|
        ≤ ψ 1 u * (|(d - w * u) - (d - v * u)| / t) := mul_le_mul_of_nonneg_left (ou_lip ht _ _) (S.pos one_pos u)
      _ = u * ψ 1 u * (|w - v| / t) := by
        rw [show d - w * u - (d - v * u) = -(u * (w - v)) by ring, abs_neg, abs_mul, abs_of_pos hu]; ring

/-- The covariance between two lines changes little with the width of one of the responses. -/
theorem Stretch.covLL_lip {ψ : ℝ → ℝ → ℝ} {m : ℝ} (S : Stretch ψ m) {t w v : ℝ} (ht : 0 < t) (hw : 0 < w) (hv : 0 < v)
    {φ : ℝ → ℝ} (hφ : Integrable φ) (h0 : ∀ s, 0 ≤ φ s) (h1 : ∫ s, φ s = 1) (d : ℝ) :
    |covLL t (ψ w) φ d - covLL t (ψ v) φ d| ≤ m * (|w - v| / t) := by
  obtain ⟨iw, ew⟩ := covLL_outer ht (S.int hw) hφ d
  obtain ⟨iv, ev⟩ := covLL_outer ht (S.int hv) hφ d
  rw [ew, ev, ← integral_sub iw iv]
  refine (abs_integral_le_integral_abs).trans ?_
  have : ∫ s, φ s * (m * (|w - v| / t)) = m * (|w - v| / t) := by rw [integral_mul_const, h1, one_mul]
  rw [← this]
  refine integral_mono (iw.sub iv).abs (hφ.mul_const _) fun s => ?_
  simp only [← mul_sub]
  rw [abs_mul, abs_of_nonneg (h0 s)]
  exact mul_le_mul_of_nonneg_left (S.covLC_lip ht hw hv _) (h0 s)

end Mica
