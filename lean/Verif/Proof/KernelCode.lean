import Verif.Proof.KernelConc

/-! The formulas of the code are the closed forms: exponential, gamma and their mixtures with the top-hat. -/

namespace Mica
open MeasureTheory Set Filter Topology

/-- The width is exactly the damping timescale, or far enough from it for the relative test of the code. -/
def FarRel (t w : ℝ) : Prop := w = t ∨ kEPS ≤ |(t - w) / t|

/-- The same for the absolute test of the mixed functions. -/
def FarAbs (t w : ℝ) : Prop := w = t ∨ kEPS < |t - w|

theorem kEPS_pos : 0 < kEPS := by unfold kEPS; norm_num

theorem FarRel.ne {t w : ℝ} (h : kEPS ≤ |(t - w) / t|) : t ≠ w := by
  rintro rfl
  simp only [sub_self, zero_div, abs_zero] at h
  exact absurd h (not_le.2 kEPS_pos)

theorem FarAbs.ne {t w : ℝ} (h : kEPS < |t - w|) : t ≠ w := by
  rintro rfl
  simp only [sub_self, abs_zero] at h
  exact absurd h (not_lt.2 kEPS_pos.le)

theorem rel_self (t : ℝ) : |(t - t) / t| < kEPS := by
  simp only [sub_self, zero_div, abs_zero]; exact kEPS_pos

theorem abs_self_not (t : ℝ) : ¬ |t - t| > kEPS := by
  simp only [sub_self, abs_zero]; exact not_lt.2 kEPS_pos.le

theorem nrm1 (x t : ℝ) : x / t = 1 / t * x := by ring
theorem nrm2 (x t : ℝ) : -x / t = -1 / t * x := by ring

theorem slcExp_eq {t : ℝ} (ht : 0 < t) {a : Comp} (hw : 0 < a.w) (hf : FarRel t a.w) (Dt : ℝ) :
    slcExp t a Dt = a.f * covLC t (tfDens .exp a.c a.w) Dt := by
  rw [tfDens_exp, covLC_shift]
  obtain ⟨f, c, w⟩ := a
  simp only at hw hf ⊢
  unfold slcExp
  simp only
  generalize Dt - (c - w) = x
  rcases hf with rfl | hf
  · rw [covLC_exp0 ht, pw, if_pos (rel_self w)]
    split
    · eps
      rw [← nrm1]
      generalize Real.exp (x / w) = X
      field_simp; ring
    · eps
      rw [← nrm2]
      generalize Real.exp (-x / w) = X
      field_simp; ring
  · have hne := sub_ne_zero.2 (FarRel.ne hf)
    rw [covLC_exp1 ht hw (FarRel.ne hf), pw, if_neg (not_lt.2 hf)]
    split
    · eps
      rw [← nrm1]
      generalize Real.exp (x / t) = X
      field_simp; ring
    · eps
      rw [← nrm2, ← nrm2]
      generalize Real.exp (-x / t) = X
      generalize Real.exp (-x / w) = Y
      field_simp; ring

theorem slcGam_eq {t : ℝ} (ht : 0 < t) {a : Comp} (hw : 0 < a.w) (hf : FarRel t a.w) (Dt : ℝ) :
    slcGam t a Dt = a.f * covLC t (tfDens .gamma a.c a.w) Dt := by
  rw [tfDens_gamma, covLC_shift]
  obtain ⟨f, c, w⟩ := a
  simp only at hw hf ⊢
  unfold slcGam
  simp only
  generalize Dt - (c - 2 * w) = x
  rcases hf with rfl | hf
  · rw [covLC_gam0 ht, pw, if_pos (rel_self w)]
    split
    · eps
      rw [← nrm1]
      generalize Real.exp (x / w) = X
      field_simp; ring
    · eps
      rw [← nrm2]
      generalize Real.exp (-x / w) = X
      field_simp; ring
  · have hne := sub_ne_zero.2 (FarRel.ne hf)
    rw [covLC_gam1 ht hw (FarRel.ne hf), pw, if_neg (not_lt.2 hf)]
    split
    · eps
      rw [← nrm1]
      generalize Real.exp (x / t) = X
      field_simp; ring
    · eps
      rw [← nrm2, ← nrm2]
      generalize Real.exp (-x / t) = X
      generalize Real.exp (-x / w) = Y
      field_simp; ring

theorem sllExpExp_eq {t : ℝ} (ht : 0 < t) {a b : Comp} (hw : 0 < a.w) (hv : 0 < b.w) (hf : FarRel t a.w)
    (hg : FarRel t b.w) (Dt : ℝ) :
    sllExpExp t a b Dt = a.f * b.f * covLL t (tfDens .exp a.c a.w) (tfDens .exp b.c b.w) Dt := by
  rw [tfDens_exp, tfDens_exp, covLL_shift ht (expd_integrable hw) (expd_integrable hv)]
  obtain ⟨f, c, w⟩ := a
  obtain ⟨g, e, v⟩ := b
  simp only at hw hv hf hg ⊢
  unfold sllExpExp
  simp only
  generalize Dt - (c - w - (e - v)) = x
  rcases hf with rfl | hf
  · rcases hg with rfl | hg
    · rw [covLL_expexp00 ht, pw]
      split
      · rw [if_pos (rel_self v)]
        eps
        simp only [← nrm1]
        generalize Real.exp (x / v) = X
        field_simp; try ring
      · rw [if_pos (rel_self v)]
        eps
        simp only [← nrm2]
        generalize Real.exp (-x / v) = X
        field_simp; try ring
    · have hne2 := sub_ne_zero.2 (FarRel.ne hg)
      rw [covLL_expexp01 ht hv (FarRel.ne hg), pw]
      split
      · rw [if_neg (not_lt.2 hg)]
        eps
        simp only [← nrm1]
        generalize Real.exp (x / w) = X
        generalize Real.exp (x / v) = Y
        field_simp; try ring
      · rw [if_pos (rel_self w)]
        eps
        simp only [← nrm2]
        generalize Real.exp (-x / w) = X
        field_simp; try ring
  · have hne := sub_ne_zero.2 (FarRel.ne hf)
    rcases hg with rfl | hg
    · rw [covLL_expexp10 ht hw (FarRel.ne hf), pw]
      split
      · rw [if_pos (rel_self v)]
        eps
        simp only [← nrm1]
        generalize Real.exp (x / v) = X
        field_simp; try ring
      · rw [if_neg (not_lt.2 hf)]
        eps
        simp only [← nrm2]
        generalize Real.exp (-x / v) = X
        generalize Real.exp (-x / w) = Y
        field_simp; try ring
    · have hne2 := sub_ne_zero.2 (FarRel.ne hg)
      rw [covLL_expexp11 ht hw (FarRel.ne hf) hv (FarRel.ne hg), pw]
      split
      · rw [if_neg (not_lt.2 hg)]
        eps
        simp only [← nrm1]
        generalize Real.exp (x / t) = X
        generalize Real.exp (x / v) = Y
        field_simp; try ring
      · rw [if_neg (not_lt.2 hf)]
        eps
        simp only [← nrm2]
        generalize Real.exp (-x / t) = X
        generalize Real.exp (-x / w) = Y
        field_simp; try ring

theorem sllGamGam_eq {t : ℝ} (ht : 0 < t) {a b : Comp} (hw : 0 < a.w) (hv : 0 < b.w) (hf : FarRel t a.w)
    (hg : FarRel t b.w) (Dt : ℝ) :
    sllGamGam t a b Dt = a.f * b.f * covLL t (tfDens .gamma a.c a.w) (tfDens .gamma b.c b.w) Dt := by
  rw [tfDens_gamma, tfDens_gamma, covLL_shift ht (gamd_integrable hw) (gamd_integrable hv)]
  obtain ⟨f, c, w⟩ := a
  obtain ⟨g, e, v⟩ := b
  simp only at hw hv hf hg ⊢
  unfold sllGamGam
  simp only
  generalize Dt - (c - 2 * w - (e - 2 * v)) = x
  rcases hf with rfl | hf
  · rcases hg with rfl | hg
    · rw [covLL_gamgam00 ht, pw]
      split
      · rw [if_pos (rel_self v)]
        eps
        simp only [← nrm1]
        generalize Real.exp (x / v) = X
        field_simp; try ring
      · rw [if_pos (rel_self v)]
        eps
        simp only [← nrm2]
        generalize Real.exp (-x / v) = X
        field_simp; try ring
    · have hne2 := sub_ne_zero.2 (FarRel.ne hg)
      rw [covLL_gamgam01 ht hv (FarRel.ne hg), pw]
      split
      · rw [if_neg (not_lt.2 hg)]
        eps
        simp only [← nrm1]
        generalize Real.exp (x / w) = X
        generalize Real.exp (x / v) = Y
        field_simp; try ring
      · rw [if_pos (rel_self w)]
        eps
        simp only [← nrm2]
        generalize Real.exp (-x / w) = X
        field_simp; try ring
  · have hne := sub_ne_zero.2 (FarRel.ne hf)
    rcases hg with rfl | hg
    · rw [covLL_gamgam10 ht hw (FarRel.ne hf), pw]
      split
      · rw [if_pos (rel_self v)]
        eps
        simp only [← nrm1]
        generalize Real.exp (x / v) = X
        field_simp; try ring
      · rw [if_neg (not_lt.2 hf)]
        eps
        simp only [← nrm2]
        generalize Real.exp (-x / v) = X
        generalize Real.exp (-x / w) = Y
        field_simp; try ring
    · have hne2 := sub_ne_zero.2 (FarRel.ne hg)
      rw [covLL_gamgam11 ht hw (FarRel.ne hf) hv (FarRel.ne hg), pw]
      split
      · rw [if_neg (not_lt.2 hg)]
        eps
        simp only [← nrm1]
        generalize Real.exp (x / t) = X
        generalize Real.exp (x / v) = Y
        field_simp; try ring
      · rw [if_neg (not_lt.2 hf)]
        eps
        simp only [← nrm2]
        generalize Real.exp (-x / t) = X
        generalize Real.exp (-x / w) = Y
        field_simp; try ring

theorem sllExpGam_eq {t : ℝ} (ht : 0 < t) {a b : Comp} (hw : 0 < a.w) (hv : 0 < b.w) (hf : FarAbs t a.w)
    (hg : FarAbs t b.w) (Dt : ℝ) :
    sllExpGam t a b Dt = a.f * b.f * covLL t (tfDens .exp a.c a.w) (tfDens .gamma b.c b.w) Dt := by
  rw [tfDens_exp, tfDens_gamma, covLL_shift ht (expd_integrable hw) (gamd_integrable hv)]
  obtain ⟨f, c, w⟩ := a
  obtain ⟨g, e, v⟩ := b
  simp only at hw hv hf hg ⊢
  unfold sllExpGam
  simp only
  generalize Dt - (c - w - (e - 2 * v)) = x
  rcases hf with rfl | hf
  · rcases hg with rfl | hg
    · rw [covLL_expgam00 ht, pw]
      by_cases hx : x ≤ 0
      · rw [if_pos hx]
        rcases hx.lt_or_eq with hx | rfl
        · rw [if_neg (not_le.2 hx), if_neg (abs_self_not v)]
          eps
          simp only [← nrm1]
          generalize Real.exp (x / v) = X
          field_simp; try ring
        · rw [if_pos (le_refl 0), if_neg (abs_self_not v)]
          eps
          simp only [neg_zero, zero_div, Real.exp_zero]
          field_simp; try ring
      · rw [if_neg hx, if_pos (not_le.1 hx).le, if_neg (abs_self_not v)]
        eps
        simp only [← nrm2]
        generalize Real.exp (-x / v) = X
        field_simp; try ring
    · have hne2 := sub_ne_zero.2 (FarAbs.ne hg)
      rw [covLL_expgam01 ht hv (FarAbs.ne hg), pw]
      by_cases hx : x ≤ 0
      · rw [if_pos hx]
        rcases hx.lt_or_eq with hx | rfl
        · rw [if_neg (not_le.2 hx), if_pos hg]
          eps
          simp only [← nrm1]
          generalize Real.exp (x / w) = X
          generalize Real.exp (x / v) = Y
          field_simp; try ring
        · rw [if_pos (le_refl 0), if_neg (abs_self_not w)]
          eps
          simp only [neg_zero, zero_div, Real.exp_zero]
          field_simp; try ring
      · rw [if_neg hx, if_pos (not_le.1 hx).le, if_neg (abs_self_not w)]
        eps
        simp only [← nrm2]
        generalize Real.exp (-x / w) = X
        field_simp; try ring
  · have hne := sub_ne_zero.2 (FarAbs.ne hf)
    rcases hg with rfl | hg
    · rw [covLL_expgam10 ht hw (FarAbs.ne hf), pw]
      by_cases hx : x ≤ 0
      · rw [if_pos hx]
        rcases hx.lt_or_eq with hx | rfl
        · rw [if_neg (not_le.2 hx), if_neg (abs_self_not v)]
          eps
          simp only [← nrm1]
          generalize Real.exp (x / v) = X
          field_simp; try ring
        · rw [if_pos (le_refl 0), if_pos hf]
          eps
          simp only [neg_zero, zero_div, Real.exp_zero]
          field_simp; try ring
      · rw [if_neg hx, if_pos (not_le.1 hx).le, if_pos hf]
        eps
        simp only [← nrm2]
        generalize Real.exp (-x / v) = X
        generalize Real.exp (-x / w) = Y
        field_simp; try ring
    · have hne2 := sub_ne_zero.2 (FarAbs.ne hg)
      rw [covLL_expgam11 ht hw (FarAbs.ne hf) hv (FarAbs.ne hg), pw]
      by_cases hx : x ≤ 0
      · rw [if_pos hx]
        rcases hx.lt_or_eq with hx | rfl
        · rw [if_neg (not_le.2 hx), if_pos hg]
          eps
          simp only [← nrm1]
          generalize Real.exp (x / t) = X
          generalize Real.exp (x / v) = Y
          field_simp; try ring
        · rw [if_pos (le_refl 0), if_pos hf]
          eps
          simp only [neg_zero, zero_div, Real.exp_zero]
          field_simp; try ring
      · rw [if_neg hx, if_pos (not_le.1 hx).le, if_pos hf]
        eps
        simp only [← nrm2]
        generalize Real.exp (-x / t) = X
        generalize Real.exp (-x / w) = Y
        field_simp; try ring

theorem sllExpTop_eq {t : ℝ} (ht : 0 < t) {a b : Comp} (hw : 0 < a.w) (hv : 0 < b.w) (hf : FarAbs t a.w) (Dt : ℝ) :
    sllExpTop t a b Dt = a.f * b.f * covLL t (tfDens .exp a.c a.w) (tfDens .tophat b.c b.w) Dt := by
  rw [tfDens_exp, tfDens_tophat, covLL_shift ht (expd_integrable hw) (topd_integrable _)]
  obtain ⟨f, c, w⟩ := a
  obtain ⟨g, e, v⟩ := b
  simp only at hw hv hf ⊢
  unfold sllExpTop
  simp only
  generalize Dt - (c - w - e) = x
  rcases hf with rfl | hf
  · rw [covLL_exptop0 ht hv]
    by_cases h1 : x ≤ -v
    · rw [if_pos h1, pw, pw, if_pos (by linarith : x + v ≤ 0), if_pos (by linarith : x - v ≤ 0)]
      eps
      rw [mul_assoc _ (Real.exp (x / w)) _, mul_sub (Real.exp (x / w)), ← Real.exp_add, ← Real.exp_add,
        show x / w + v / w = 1 / w * (x + v) by ring, show x / w + -v / w = 1 / w * (x - v) by ring]
      generalize Real.exp (1 / w * (x + v)) = X
      generalize Real.exp (1 / w * (x - v)) = Y
      field_simp; try ring
    · rw [if_neg h1]
      by_cases h2 : x ≤ v
      · rw [if_pos h2, if_neg (abs_self_not w), pw, pw, if_neg (by linarith : ¬ x + v ≤ 0), if_pos (by linarith : x - v ≤ 0)]
        eps
        rw [show x / w - v / w = 1 / w * (x - v) by ring, show -(v + x) / w = -1 / w * (x + v) by ring]
        simp only [zero_mul, Real.exp_zero]
        generalize Real.exp (1 / w * (x - v)) = X
        generalize Real.exp (-1 / w * (x + v)) = Y
        field_simp; try ring
      · rw [if_neg h2, if_neg (abs_self_not w), pw, pw, if_neg (by linarith : ¬ x + v ≤ 0), if_neg (by linarith : ¬ x - v ≤ 0)]
        eps
        rw [show -(-v + x) / w = -1 / w * (x - v) by ring, show -(v + x) / w = -1 / w * (x + v) by ring]
        simp only [zero_mul, Real.exp_zero]
        generalize Real.exp (-1 / w * (x - v)) = X
        generalize Real.exp (-1 / w * (x + v)) = Y
        field_simp; try ring
  · have hne := sub_ne_zero.2 (FarAbs.ne hf)
    rw [covLL_exptop1 ht hw (FarAbs.ne hf) hv]
    by_cases h1 : x ≤ -v
    · rw [if_pos h1, pw, pw, if_pos (by linarith : x + v ≤ 0), if_pos (by linarith : x - v ≤ 0)]
      eps
      rw [mul_assoc _ (Real.exp (x / t)) _, mul_sub (Real.exp (x / t)), ← Real.exp_add, ← Real.exp_add,
        show x / t + v / t = 1 / t * (x + v) by ring, show x / t + -v / t = 1 / t * (x - v) by ring]
      generalize Real.exp (1 / t * (x + v)) = X
      generalize Real.exp (1 / t * (x - v)) = Y
      field_simp; try ring
    · rw [if_neg h1]
      by_cases h2 : x ≤ v
      · rw [if_pos h2, if_pos hf, pw, pw, if_neg (by linarith : ¬ x + v ≤ 0), if_pos (by linarith : x - v ≤ 0)]
        eps
        rw [show x / t - v / t = 1 / t * (x - v) by ring, show -x / t - v / t = -1 / t * (x + v) by ring, show -(v + x) / w = -1 / w * (x + v) by ring]
        simp only [zero_mul, Real.exp_zero]
        generalize Real.exp (1 / t * (x - v)) = X
        generalize Real.exp (-1 / t * (x + v)) = Y
        generalize Real.exp (-1 / w * (x + v)) = Z
        field_simp; try ring
      · rw [if_neg h2, if_pos hf, pw, pw, if_neg (by linarith : ¬ x + v ≤ 0), if_neg (by linarith : ¬ x - v ≤ 0)]
        eps
        rw [show -(-v + x) / t = -1 / t * (x - v) by ring, show -(v + x) / t = -1 / t * (x + v) by ring, show -(-v + x) / w = -1 / w * (x - v) by ring, show -(v + x) / w = -1 / w * (x + v) by ring]
        simp only [zero_mul, Real.exp_zero]
        generalize Real.exp (-1 / t * (x - v)) = X
        generalize Real.exp (-1 / t * (x + v)) = Y
        generalize Real.exp (-1 / w * (x - v)) = X'
        generalize Real.exp (-1 / w * (x + v)) = Y'
        field_simp; try ring

theorem sllGamTop_eq {t : ℝ} (ht : 0 < t) {a b : Comp} (hw : 0 < a.w) (hv : 0 < b.w) (hf : FarAbs t a.w) (Dt : ℝ) :
    sllGamTop t a b Dt = a.f * b.f * covLL t (tfDens .gamma a.c a.w) (tfDens .tophat b.c b.w) Dt := by
  rw [tfDens_gamma, tfDens_tophat, covLL_shift ht (gamd_integrable hw) (topd_integrable _)]
  obtain ⟨f, c, w⟩ := a
  obtain ⟨g, e, v⟩ := b
  simp only at hw hv hf ⊢
  unfold sllGamTop
  simp only
  generalize Dt - (c - 2 * w - e) = x
  rcases hf with rfl | hf
  · rw [covLL_gamtop0 ht hv]
    by_cases h1 : x ≤ -v
    · rw [if_pos h1, pw, pw, if_pos (by linarith : x + v ≤ 0), if_pos (by linarith : x - v ≤ 0)]
      eps
      rw [mul_assoc _ (Real.exp (x / w)) _, mul_sub (Real.exp (x / w)), ← Real.exp_add, ← Real.exp_add,
        show x / w + v / w = 1 / w * (x + v) by ring, show x / w + -v / w = 1 / w * (x - v) by ring]
      generalize Real.exp (1 / w * (x + v)) = X
      generalize Real.exp (1 / w * (x - v)) = Y
      field_simp; try ring
    · rw [if_neg h1]
      by_cases h2 : x ≤ v
      · rw [if_pos h2, if_neg (abs_self_not w), pw, pw, if_neg (by linarith : ¬ x + v ≤ 0), if_pos (by linarith : x - v ≤ 0)]
        eps
        rw [show -(v - x) / w = 1 / w * (x - v) by ring, show -(v + x) / w = -1 / w * (x + v) by ring]
        simp only [zero_mul, Real.exp_zero]
        generalize Real.exp (1 / w * (x - v)) = X
        generalize Real.exp (-1 / w * (x + v)) = Y
        field_simp; try ring
      · rw [if_neg h2, if_neg (abs_self_not w), pw, pw, if_neg (by linarith : ¬ x + v ≤ 0), if_neg (by linarith : ¬ x - v ≤ 0)]
        eps
        rw [show -((-v + x) / w) = -1 / w * (x - v) by ring, show -((v + x) / w) = -1 / w * (x + v) by ring]
        simp only [zero_mul, Real.exp_zero]
        generalize Real.exp (-1 / w * (x - v)) = X
        generalize Real.exp (-1 / w * (x + v)) = Y
        field_simp; try ring
  · have hne := sub_ne_zero.2 (FarAbs.ne hf)
    rw [covLL_gamtop1 ht hw (FarAbs.ne hf) hv]
    by_cases h1 : x ≤ -v
    · rw [if_pos h1, pw, pw, if_pos (by linarith : x + v ≤ 0), if_pos (by linarith : x - v ≤ 0)]
      eps
      rw [mul_assoc _ (Real.exp (x / t)) _, mul_sub (Real.exp (x / t)), ← Real.exp_add, ← Real.exp_add,
        show x / t + v / t = 1 / t * (x + v) by ring, show x / t + -v / t = 1 / t * (x - v) by ring]
      generalize Real.exp (1 / t * (x + v)) = X
      generalize Real.exp (1 / t * (x - v)) = Y
      field_simp; try ring
    · rw [if_neg h1]
      by_cases h2 : x ≤ v
      · rw [if_pos h2, if_pos hf, pw, pw, if_neg (by linarith : ¬ x + v ≤ 0), if_pos (by linarith : x - v ≤ 0)]
        eps
        rw [show -(v - x) / t = 1 / t * (x - v) by ring, show -(v + x) / t = -1 / t * (x + v) by ring, show -(v + x) / w = -1 / w * (x + v) by ring]
        simp only [zero_mul, Real.exp_zero]
        generalize Real.exp (1 / t * (x - v)) = X
        generalize Real.exp (-1 / t * (x + v)) = Y
        generalize Real.exp (-1 / w * (x + v)) = Z
        field_simp; try ring
      · rw [if_neg h2, if_pos hf, pw, pw, if_neg (by linarith : ¬ x + v ≤ 0), if_neg (by linarith : ¬ x - v ≤ 0)]
        eps
        rw [show -(-v + x) / t = -1 / t * (x - v) by ring, show -(v + x) / t = -1 / t * (x + v) by ring, show -((-v + x) / w) = -1 / w * (x - v) by ring, show -((v + x) / w) = -1 / w * (x + v) by ring]
        simp only [zero_mul, Real.exp_zero]
        generalize Real.exp (-1 / t * (x - v)) = X
        generalize Real.exp (-1 / t * (x + v)) = Y
        generalize Real.exp (-1 / w * (x - v)) = X'
        generalize Real.exp (-1 / w * (x + v)) = Y'
        field_simp; try ring

end Mica
