import Verif.Proof.KernelGauss2

/-! The formulas of the code with Gaussians are the closed forms. -/

namespace Mica
open MeasureTheory Set Filter Topology

theorem gp_codeA {t w x a z b : ℝ} (he : a + b = x / t + w ^ 2 / (2 * t ^ 2))
    (hz : z = (x / w + w / t) / Real.sqrt 2) : Real.exp (a + logErfc z + b) = 2 * gp t w x := by
  rw [show a + logErfc z + b = a + b + logErfc z by ring, exp_logErfc, he, hz, gp]; ring

theorem gp_codeB {t w x a z : ℝ} (he : a = x / t + w ^ 2 / (2 * t ^ 2))
    (hz : z = (x / w + w / t) / Real.sqrt 2) : Real.exp (a + logErfc z) = 2 * gp t w x := by
  rw [exp_logErfc, he, hz, gp]; ring

theorem gaud_code {w x : ℝ} (hw : 0 < w) :
    Real.exp (-x * x / (w * w) / 2) / Real.sqrt (Real.pi / 2) = 2 * (w * gaud w x) := by
  unfold gaud
  rw [show -x * x / (w * w) / 2 = -x ^ 2 / (2 * w ^ 2) by field_simp]
  have h : Real.sqrt (2 * Real.pi) = 2 * Real.sqrt (Real.pi / 2) := by
    rw [show 2 * Real.pi = 2 ^ 2 * (Real.pi / 2) by ring, Real.sqrt_mul (by norm_num), Real.sqrt_sq (by norm_num)]
  rw [h]
  have : Real.sqrt (Real.pi / 2) ≠ 0 := by positivity
  field_simp

theorem slcGau_eq {t : ℝ} (ht : 0 < t) {a : Comp} (hw : 0 < a.w) (Dt : ℝ) :
    slcGau t a Dt = a.f * covLC t (tfDens .gauss a.c a.w) Dt := by
  rw [tfDens_gauss, covLC_shift]
  obtain ⟨f, c, w⟩ := a
  simp only at hw ⊢
  unfold slcGau
  simp only
  generalize Dt - c = x
  rw [covLC_gau ht hw, gp_codeA (t := t) (w := w) (x := -x) (by field_simp) (by ring),
    gp_codeA (t := t) (w := w) (x := x) (by field_simp) rfl]
  ring

theorem sllGauGau_eq {t : ℝ} (ht : 0 < t) {a b : Comp} (hw : 0 < a.w) (hv : 0 < b.w) (Dt : ℝ) :
    sllGauGau t a b Dt = a.f * b.f * covLL t (tfDens .gauss a.c a.w) (tfDens .gauss b.c b.w) Dt := by
  rw [tfDens_gauss, tfDens_gauss, covLL_shift ht (gaud_integrable hw) (gaud_integrable hv)]
  obtain ⟨f, c, w⟩ := a
  obtain ⟨g, e, v⟩ := b
  simp only at hw hv ⊢
  unfold sllGauGau
  simp only
  generalize Dt - (c - e) = x
  have hA : 0 < Real.sqrt (w * w + v * v) := Real.sqrt_pos.2 (by positivity)
  rw [covLL_gaugau ht hw hv]
  generalize Real.sqrt (w * w + v * v) = A at hA ⊢
  rw [covLC_gau ht hA, gp_codeA (t := t) (w := A) (x := -x) (by field_simp) (by ring),
    gp_codeA (t := t) (w := A) (x := x) (by field_simp) rfl]
  ring

theorem sllGauExp_eq {t : ℝ} (ht : 0 < t) {a b : Comp} (hw : 0 < a.w) (hv : 0 < b.w) (hg : FarAbs t b.w) (Dt : ℝ) :
    sllGauExp t a b Dt = a.f * b.f * covLL t (tfDens .gauss a.c a.w) (tfDens .exp b.c b.w) Dt := by
  rw [tfDens_gauss, tfDens_exp, covLL_shift ht (gaud_integrable hw) (expd_integrable hv)]
  obtain ⟨f, c, w⟩ := a
  obtain ⟨g, e, v⟩ := b
  simp only at hw hv hg ⊢
  unfold sllGauExp
  simp only
  generalize Dt - (c - (e - v)) = x
  rcases hg with rfl | hg
  · rw [if_neg (abs_self_not v), covLL_gauexp0 ht hw, gaud_code hw,
      gp_codeB (t := v) (w := w) (x := -x) (by field_simp) (by ring),
      gp_codeB (t := v) (w := w) (x := x) (by field_simp) (by ring), gaexG, gcomb]
    generalize gp v w (-x) = A
    generalize gp v w x = B
    generalize gaud w x = D
    field_simp; ring
  · have hne := sub_ne_zero.2 (FarAbs.ne hg)
    rw [if_pos hg, covLL_gauexp1 ht hv hw (FarAbs.ne hg),
      gp_codeB (t := t) (w := w) (x := -x) (by field_simp) (by ring),
      gp_codeB (t := t) (w := w) (x := x) (by field_simp) (by ring),
      gp_codeB (t := v) (w := w) (x := x) (by field_simp) (by ring), gaexF, gcomb]
    generalize gp t w (-x) = A
    generalize gp t w x = B
    generalize gp v w x = C
    generalize gaud w x = D
    field_simp; ring

theorem sllGauGam_eq {t : ℝ} (ht : 0 < t) {a b : Comp} (hw : 0 < a.w) (hv : 0 < b.w) (hg : FarAbs t b.w) (Dt : ℝ) :
    sllGauGam t a b Dt = a.f * b.f * covLL t (tfDens .gauss a.c a.w) (tfDens .gamma b.c b.w) Dt := by
  rw [tfDens_gauss, tfDens_gamma, covLL_shift ht (gaud_integrable hw) (gamd_integrable hv)]
  obtain ⟨f, c, w⟩ := a
  obtain ⟨g, e, v⟩ := b
  simp only at hw hv hg ⊢
  unfold sllGauGam
  simp only
  generalize Dt - (c - (e - 2 * v)) = x
  rcases hg with rfl | hg
  · rw [if_neg (abs_self_not v), covLL_gaugam0 ht hw, mul_div_assoc (x / w + w / v), gaud_code hw,
      gp_codeB (t := v) (w := w) (x := -x) (by field_simp) (by ring),
      gp_codeB (t := v) (w := w) (x := x) (by field_simp) (by ring), gagmG, gcomb]
    generalize gp v w (-x) = A
    generalize gp v w x = B
    generalize gaud w x = D
    field_simp; ring
  · have hne := sub_ne_zero.2 (FarAbs.ne hg)
    rw [if_pos hg, covLL_gaugam1 ht hv hw (FarAbs.ne hg), gaud_code hw,
      gp_codeB (t := t) (w := w) (x := -x) (by field_simp) (by ring),
      gp_codeB (t := t) (w := w) (x := x) (by field_simp) (by ring),
      gp_codeB (t := v) (w := w) (x := x) (z := 1 / Real.sqrt 2 * (x / w + w / v)) (by field_simp) (by ring),
      gp_codeB (t := v) (w := w) (x := x) (by field_simp) (by ring), gagmF, gcomb]
    generalize gp t w (-x) = A
    generalize gp t w x = B
    generalize gp v w x = C
    generalize gaud w x = D
    field_simp; ring

theorem sllGauTop_eq {t : ℝ} (ht : 0 < t) {a b : Comp} (hw : 0 < a.w) (hv : 0 < b.w) (Dt : ℝ) :
    sllGauTop t a b Dt = a.f * b.f * covLL t (tfDens .gauss a.c a.w) (tfDens .tophat b.c b.w) Dt := by
  rw [tfDens_gauss, tfDens_tophat, covLL_shift ht (gaud_integrable hw) (topd_integrable _)]
  obtain ⟨f, c, w⟩ := a
  obtain ⟨g, e, v⟩ := b
  simp only at hw hv ⊢
  unfold sllGauTop
  simp only
  generalize Dt - (c - e) = x
  rw [covLL_gautop ht hv hw,
    gp_codeB (t := t) (w := w) (x := -(x - v)) (by field_simp; ring) (by ring),
    gp_codeB (t := t) (w := w) (x := x + v) (by field_simp; ring) (by ring),
    gp_codeB (t := t) (w := w) (x := x - v) (by field_simp; ring) (by ring),
    gp_codeB (t := t) (w := w) (x := -(x + v)) (by field_simp; ring) (by ring), gathP, gathP,
    show -v + x = x - v by ring, show v + x = x + v by ring]
  field_simp; ring

end Mica
