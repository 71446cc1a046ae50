import Verif.Proof.BandError2

/-! The covariance functions of the code, with the limiting formula in use, compared with the integrals. -/

namespace Mica
open MeasureTheory Set Filter Topology

/-- `w` is in the band around `t` in which the limiting formula is used. -/
theorem near_ratio {t w : ℝ} (ht : 0 < t) (hb : |(t - w) / t| < kEPS) :
    |1 - w / t| < kEPS ∧ 9 / 10 ≤ w / t ∧ |t - w| / t = |1 - w / t| := by
  have h : (t - w) / t = 1 - w / t := by field_simp
  rw [h] at hb
  refine ⟨hb, ?_, ?_⟩
  · have := (abs_lt.1 hb).2
    unfold kEPS at this; linarith
  · rw [← h, abs_div, abs_of_pos ht]

theorem slcExp_near {t : ℝ} (ht : 0 < t) {a : Comp} (hw : 0 < a.w) (Dt : ℝ) :
    |slcExp t a Dt - a.f * covLC t (tfDens .exp a.c a.w) Dt| ≤ |a.f| * (2 * kEPS) := by
  by_cases hb : |(t - a.w) / t| < kEPS
  swap
  · rw [slcExp_eq ht hw (Or.inr (not_lt.1 hb)), sub_self, abs_zero]
    have := kEPS_pos; positivity
  obtain ⟨b1, b2, b3⟩ := near_ratio ht hb
  have hex := slcExp_eq (a := ⟨a.f, a.c + (t - a.w), t⟩) ht ht (Or.inl rfl) Dt
  obtain ⟨f, c, w⟩ := a
  simp only at hw hb hex b1 b2 b3 ⊢
  rw [tfDens_exp, covLC_shift] at hex ⊢
  rw [show c + (t - w) - t = c - w by ring] at hex
  have hl := expd_stretch.covLC_lip ht ht hw (Dt - (c - w))
  rw [b3, one_mul] at hl
  have hc : |slcExp t ⟨f, c, w⟩ Dt - slcExp t ⟨f, c + (t - w), t⟩ Dt| ≤ |f| * (|1 - w / t| / 2) ∨ Dt - (c - w) ≤ 0 := by
    unfold slcExp
    simp only
    rw [show c + (t - w) - t = c - w by ring]
    generalize Dt - (c - w) = x
    rcases le_or_gt x 0 with hx | hx
    · exact Or.inr hx
    left
    rw [if_neg (not_le.2 hx), if_pos hb, if_neg (not_le.2 hx), if_pos (rel_self t), ← sub_mul, mul_comm, abs_mul]
    refine mul_le_mul_of_nonneg_left ?_ (abs_nonneg _)
    have := limExpC (q := w / t) (y := x / t) (by positivity) (by positivity)
    rw [show (t + w) / t = 1 + w / t by rw [add_div, div_self ht.ne'], show (t + t) / t = 2 by field_simp; norm_num,
      neg_div]
    exact this
  rcases hc with hc | hx
  · rw [hex] at hc
    have : slcExp t ⟨f, c, w⟩ Dt - f * covLC t (expd w) (Dt - (c - w)) =
        (slcExp t ⟨f, c, w⟩ Dt - f * covLC t (expd t) (Dt - (c - w))) +
          f * (covLC t (expd t) (Dt - (c - w)) - covLC t (expd w) (Dt - (c - w))) := by ring
    rw [this]
    refine (abs_add_le _ _).trans ((add_le_add hc (abs_mul_le_of (le_refl |f|) hl)).trans ?_)
    rw [← mul_add]
    exact mul_le_mul_of_nonneg_left (by have := kEPS_pos; linarith) (abs_nonneg _)
  · by_cases hwt : w = t
    · subst hwt
      have : slcExp w ⟨f, c, w⟩ Dt = f * covLC w (expd w) (Dt - (c - w)) := by
        rwa [sub_self, add_zero] at hex
      rw [this, sub_self, abs_zero]
      have := kEPS_pos; positivity
    · have hne := sub_ne_zero.2 (Ne.symm hwt)
      have : slcExp t ⟨f, c, w⟩ Dt = f * covLC t (expd w) (Dt - (c - w)) := by
        rw [covLC_exp1 ht hw (Ne.symm hwt), pw]
        unfold slcExp
        simp only
        generalize Dt - (c - w) = x at hx
        rw [if_pos hx, if_pos hx]
        eps
        rw [← nrm1]
        generalize Real.exp (x / t) = X
        field_simp; try ring
      rw [this, sub_self, abs_zero]
      have := kEPS_pos; positivity

theorem slcGam_near {t : ℝ} (ht : 0 < t) {a : Comp} (hw : 0 < a.w) (Dt : ℝ) :
    |slcGam t a Dt - a.f * covLC t (tfDens .gamma a.c a.w) Dt| ≤ |a.f| * (4 * kEPS) := by
  by_cases hb : |(t - a.w) / t| < kEPS
  swap
  · rw [slcGam_eq ht hw (Or.inr (not_lt.1 hb)), sub_self, abs_zero]
    have := kEPS_pos; positivity
  obtain ⟨b1, b2, b3⟩ := near_ratio ht hb
  have hex := slcGam_eq (a := ⟨a.f, a.c + 2 * (t - a.w), t⟩) ht ht (Or.inl rfl) Dt
  obtain ⟨f, c, w⟩ := a
  simp only at hw hb hex b1 b2 b3 ⊢
  rw [tfDens_gamma, covLC_shift] at hex ⊢
  rw [show c + 2 * (t - w) - 2 * t = c - 2 * w by ring] at hex
  have hl := gamd_stretch.covLC_lip ht ht hw (Dt - (c - 2 * w))
  rw [b3] at hl
  have hc : |slcGam t ⟨f, c, w⟩ Dt - slcGam t ⟨f, c + 2 * (t - w), t⟩ Dt| ≤ |f| * (2 * |1 - w / t|) ∨ Dt - (c - 2 * w) ≤ 0 := by
    unfold slcGam
    simp only
    rw [show c + 2 * (t - w) - 2 * t = c - 2 * w by ring]
    generalize Dt - (c - 2 * w) = x
    rcases le_or_gt x 0 with hx | hx
    · exact Or.inr hx
    left
    rw [if_neg (not_le.2 hx), if_pos hb, if_neg (not_le.2 hx), if_pos (rel_self t), ← sub_mul, mul_comm, abs_mul]
    refine mul_le_mul_of_nonneg_left ?_ (abs_nonneg _)
    have := limGamC (q := w / t) (y := x / t) (by positivity) (by positivity)
    rw [show (t + w) / t = 1 + w / t by rw [add_div, div_self ht.ne'], show (t + t) / t = 2 by field_simp; norm_num,
      neg_div, mul_div_assoc (1 + w / t) x t, mul_div_assoc 2 x t]
    exact this
  rcases hc with hc | hx
  · rw [hex] at hc
    have : slcGam t ⟨f, c, w⟩ Dt - f * covLC t (gamd w) (Dt - (c - 2 * w)) =
        (slcGam t ⟨f, c, w⟩ Dt - f * covLC t (gamd t) (Dt - (c - 2 * w))) +
          f * (covLC t (gamd t) (Dt - (c - 2 * w)) - covLC t (gamd w) (Dt - (c - 2 * w))) := by ring
    rw [this]
    refine (abs_add_le _ _).trans ((add_le_add hc (abs_mul_le_of (le_refl |f|) hl)).trans ?_)
    rw [← mul_add]
    exact mul_le_mul_of_nonneg_left (by have := kEPS_pos; linarith) (abs_nonneg _)
  · by_cases hwt : w = t
    · subst hwt
      have : slcGam w ⟨f, c, w⟩ Dt = f * covLC w (gamd w) (Dt - (c - 2 * w)) := by
        rwa [sub_self, mul_zero, add_zero] at hex
      rw [this, sub_self, abs_zero]
      have := kEPS_pos; positivity
    · have hne := sub_ne_zero.2 (Ne.symm hwt)
      have : slcGam t ⟨f, c, w⟩ Dt = f * covLC t (gamd w) (Dt - (c - 2 * w)) := by
        rw [covLC_gam1 ht hw (Ne.symm hwt), pw]
        unfold slcGam
        simp only
        generalize Dt - (c - 2 * w) = x at hx
        rw [if_pos hx, if_pos hx]
        eps
        rw [← nrm1]
        generalize Real.exp (x / t) = X
        field_simp; try ring
      rw [this, sub_self, abs_zero]
      have := kEPS_pos; positivity

/-- Two exponentials, time difference before the common onset: the branch of the code depends on the second timescale only. -/
theorem sllExpExp_left {t : ℝ} (ht : 0 < t) {a b : Comp} (hw : 0 < a.w) (hv : 0 < b.w) (hg : FarRel t b.w) {Dt : ℝ}
    (hx : Dt - (a.c - a.w - (b.c - b.w)) ≤ 0) :
    sllExpExp t a b Dt = a.f * b.f * covLL t (expd a.w) (expd b.w) (Dt - (a.c - a.w - (b.c - b.w))) := by
  obtain ⟨f, c, w⟩ := a
  obtain ⟨g, e, v⟩ := b
  simp only at hw hv hg hx ⊢
  unfold sllExpExp
  simp only
  generalize Dt - (c - w - (e - v)) = x at hx
  rw [if_pos hx]
  rcases hg with rfl | hg
  · rw [if_pos (rel_self v)]
    by_cases h : v = w
    · subst h
      rw [covLL_expexp00 ht, pw, if_pos hx]
      eps
      simp only [← nrm1]
      generalize Real.exp (x / v) = X
      field_simp; try ring
    · have hne := sub_ne_zero.2 h
      rw [covLL_expexp10 ht hw h, pw, if_pos hx]
      eps
      simp only [← nrm1]
      generalize Real.exp (x / v) = X
      field_simp; try ring
  · have hne2 := sub_ne_zero.2 (FarRel.ne hg)
    rw [if_neg (not_lt.2 hg)]
    by_cases h : t = w
    · subst h
      rw [covLL_expexp01 ht hv (FarRel.ne hg), pw, if_pos hx]
      eps
      simp only [← nrm1]
      generalize Real.exp (x / t) = X
      generalize Real.exp (x / v) = Y
      field_simp; try ring
    · have hne := sub_ne_zero.2 h
      rw [covLL_expexp11 ht hw h hv (FarRel.ne hg), pw, if_pos hx]
      eps
      simp only [← nrm1]
      generalize Real.exp (x / t) = X
      generalize Real.exp (x / v) = Y
      field_simp; try ring

/-- The same for two gamma functions. -/
theorem sllGamGam_left {t : ℝ} (ht : 0 < t) {a b : Comp} (hw : 0 < a.w) (hv : 0 < b.w) (hg : FarRel t b.w) {Dt : ℝ}
    (hx : Dt - (a.c - 2 * a.w - (b.c - 2 * b.w)) ≤ 0) :
    sllGamGam t a b Dt = a.f * b.f * covLL t (gamd a.w) (gamd b.w) (Dt - (a.c - 2 * a.w - (b.c - 2 * b.w))) := by
  obtain ⟨f, c, w⟩ := a
  obtain ⟨g, e, v⟩ := b
  simp only at hw hv hg hx ⊢
  unfold sllGamGam
  simp only
  generalize Dt - (c - 2 * w - (e - 2 * v)) = x at hx
  rw [if_pos hx]
  rcases hg with rfl | hg
  · rw [if_pos (rel_self v)]
    by_cases h : v = w
    · subst h
      rw [covLL_gamgam00 ht, pw, if_pos hx]
      eps
      simp only [← nrm1]
      generalize Real.exp (x / v) = X
      field_simp; try ring
    · have hne := sub_ne_zero.2 h
      rw [covLL_gamgam10 ht hw h, pw, if_pos hx]
      eps
      simp only [← nrm1]
      generalize Real.exp (x / v) = X
      field_simp; try ring
  · have hne2 := sub_ne_zero.2 (FarRel.ne hg)
    rw [if_neg (not_lt.2 hg)]
    by_cases h : t = w
    · subst h
      rw [covLL_gamgam01 ht hv (FarRel.ne hg), pw, if_pos hx]
      eps
      simp only [← nrm1]
      generalize Real.exp (x / t) = X
      generalize Real.exp (x / v) = Y
      field_simp; try ring
    · have hne := sub_ne_zero.2 h
      rw [covLL_gamgam11 ht hw h hv (FarRel.ne hg), pw, if_pos hx]
      eps
      simp only [← nrm1]
      generalize Real.exp (x / t) = X
      generalize Real.exp (x / v) = Y
      field_simp; try ring

theorem sllExpExp_near0 {t : ℝ} (ht : 0 < t) {a b : Comp} (hw : 0 < a.w) (hv : 0 < b.w) {Dt : ℝ}
    (hx : Dt - (a.c - a.w - (b.c - b.w)) ≤ 0) :
    |sllExpExp t a b Dt - a.f * b.f * covLL t (expd a.w) (expd b.w) (Dt - (a.c - a.w - (b.c - b.w)))| ≤
      |a.f * b.f| * (4 * kEPS) := by
  by_cases hb : |(t - b.w) / t| < kEPS
  swap
  · rw [sllExpExp_left ht hw hv (Or.inr (not_lt.1 hb)) hx, sub_self, abs_zero]
    have := kEPS_pos; positivity
  obtain ⟨b1, b2, b3⟩ := near_ratio ht hb
  have hex := sllExpExp_left (a := a) (b := ⟨b.f, b.c + (t - b.w), t⟩) (Dt := Dt) ht hw ht (Or.inl rfl)
  obtain ⟨f, c, w⟩ := a
  obtain ⟨g, e, v⟩ := b
  simp only at hw hv hb hex b1 b2 b3 hx ⊢
  rw [show e + (t - v) - t = e - v by ring] at hex
  specialize hex hx
  have hl := expd_stretch.covLL_lip ht ht hv (expd_integrable hw) (expd_stretch.pos hw) (expd_integral hw) (-(Dt - (c - w - (e - v))))
  rw [← covLL_swap, ← covLL_swap, b3, one_mul] at hl
  have hc : |sllExpExp t ⟨f, c, w⟩ ⟨g, e, v⟩ Dt - sllExpExp t ⟨f, c, w⟩ ⟨g, e + (t - v), t⟩ Dt| ≤ |f * g| * (3 * |1 - v / t|) := by
    unfold sllExpExp
    simp only
    rw [show e + (t - v) - t = e - v by ring]
    generalize Dt - (c - w - (e - v)) = x at hx
    rw [if_pos hx, if_pos hb, if_pos hx, if_pos (rel_self t), ← sub_mul, mul_comm, abs_mul]
    refine mul_le_mul_of_nonneg_left ?_ (abs_nonneg _)
    have := limExpExp (q := v / t) (r := w / t) (y := -x / t) (by linarith) (by positivity) (div_nonneg (by linarith) ht.le)
    rw [show Real.exp (-(-x / t)) = Real.exp (x / t) by rw [neg_div, neg_neg]] at this
    refine le_trans (le_of_eq ?_) this
    congr 1
    generalize Real.exp (x / t) = X
    field_simp
  rw [hex] at hc
  generalize Dt - (c - w - (e - v)) = x at *
  have : sllExpExp t ⟨f, c, w⟩ ⟨g, e, v⟩ Dt - f * g * covLL t (expd w) (expd v) x =
      (sllExpExp t ⟨f, c, w⟩ ⟨g, e, v⟩ Dt - f * g * covLL t (expd w) (expd t) x) +
        f * g * (covLL t (expd w) (expd t) x - covLL t (expd w) (expd v) x) := by ring
  rw [this]
  refine (abs_add_le _ _).trans ((add_le_add hc (abs_mul_le_of (le_refl |f * g|) hl)).trans ?_)
  rw [← mul_add]
  exact mul_le_mul_of_nonneg_left (by linarith) (abs_nonneg _)

theorem sllGamGam_near0 {t : ℝ} (ht : 0 < t) {a b : Comp} (hw : 0 < a.w) (hv : 0 < b.w) {Dt : ℝ}
    (hx : Dt - (a.c - 2 * a.w - (b.c - 2 * b.w)) ≤ 0) :
    |sllGamGam t a b Dt - a.f * b.f * covLL t (gamd a.w) (gamd b.w) (Dt - (a.c - 2 * a.w - (b.c - 2 * b.w)))| ≤
      |a.f * b.f| * (12 * kEPS) := by
  by_cases hb : |(t - b.w) / t| < kEPS
  swap
  · rw [sllGamGam_left ht hw hv (Or.inr (not_lt.1 hb)) hx, sub_self, abs_zero]
    have := kEPS_pos; positivity
  obtain ⟨b1, b2, b3⟩ := near_ratio ht hb
  have hex := sllGamGam_left (a := a) (b := ⟨b.f, b.c + 2 * (t - b.w), t⟩) (Dt := Dt) ht hw ht (Or.inl rfl)
  obtain ⟨f, c, w⟩ := a
  obtain ⟨g, e, v⟩ := b
  simp only at hw hv hb hex b1 b2 b3 hx ⊢
  rw [show e + 2 * (t - v) - 2 * t = e - 2 * v by ring] at hex
  specialize hex hx
  have hl := gamd_stretch.covLL_lip ht ht hv (gamd_integrable hw) (gamd_stretch.pos hw) (gamd_integral hw)
    (-(Dt - (c - 2 * w - (e - 2 * v))))
  rw [← covLL_swap, ← covLL_swap, b3] at hl
  have hc : |sllGamGam t ⟨f, c, w⟩ ⟨g, e, v⟩ Dt - sllGamGam t ⟨f, c, w⟩ ⟨g, e + 2 * (t - v), t⟩ Dt| ≤
      |f * g| * (10 * |1 - v / t|) := by
    unfold sllGamGam
    simp only
    rw [show e + 2 * (t - v) - 2 * t = e - 2 * v by ring]
    generalize Dt - (c - 2 * w - (e - 2 * v)) = x at hx
    rw [if_pos hx, if_pos hb, if_pos hx, if_pos (rel_self t), ← sub_mul, mul_comm, abs_mul]
    refine mul_le_mul_of_nonneg_left ?_ (abs_nonneg _)
    have := limGamGam (q := v / t) (r := w / t) (y := -x / t) (by linarith) (by positivity) (div_nonneg (by linarith) ht.le)
    rw [show Real.exp (-(-x / t)) = Real.exp (x / t) by rw [neg_div, neg_neg]] at this
    refine le_trans (le_of_eq ?_) this
    congr 1
    generalize Real.exp (x / t) = X
    congr 1
    · congr 1
      congr 1
      · field_simp; ring
      · field_simp; ring
    · congr 1
      congr 1
      · field_simp; ring
      · field_simp; ring
  rw [hex] at hc
  generalize Dt - (c - 2 * w - (e - 2 * v)) = x at *
  have : sllGamGam t ⟨f, c, w⟩ ⟨g, e, v⟩ Dt - f * g * covLL t (gamd w) (gamd v) x =
      (sllGamGam t ⟨f, c, w⟩ ⟨g, e, v⟩ Dt - f * g * covLL t (gamd w) (gamd t) x) +
        f * g * (covLL t (gamd w) (gamd t) x - covLL t (gamd w) (gamd v) x) := by ring
  rw [this]
  refine (abs_add_le _ _).trans ((add_le_add hc (abs_mul_le_of (le_refl |f * g|) hl)).trans ?_)
  rw [← mul_add]
  exact mul_le_mul_of_nonneg_left (by linarith) (abs_nonneg _)

end Mica
