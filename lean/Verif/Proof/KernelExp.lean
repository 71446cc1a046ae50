import Verif.Proof.KernelBase

/-! Convolution integrals that are piecewise exponential polynomials. -/

namespace Mica

open MeasureTheory Set Filter Topology

/-- Two exponential polynomials joined at 0. -/
noncomputable def pw (L₁ L₂ : List (ℝ × ℝ × ℝ × ℝ)) (x : ℝ) : ℝ := if x ≤ 0 then ep L₁ x else ep L₂ x

theorem pw_deriv {L₁ L₂ : List (ℝ × ℝ × ℝ × ℝ)} (v0 : ep L₁ 0 = ep L₂ 0) (d0 : ep (epD L₁) 0 = ep (epD L₂) 0) (x : ℝ) :
    HasDerivAt (pw L₁ L₂) (pw (epD L₁) (epD L₂) x) x :=
  glue_deriv (ep_deriv L₁) (ep_deriv L₂) v0 d0 x

theorem pw_growth {L₁ L₂ : List (ℝ × ℝ × ℝ × ℝ)} (h : ∀ q ∈ L₂, q.1 < 0) :
    ∀ᶠ y in atTop, |pw L₁ L₂ y| ≤ 1 * (1 + y ^ 2) := by
  filter_upwards [growth_of_tendsto (ep_tendsto L₂ h), eventually_gt_atTop 0] with y hy h0
  rw [pw, if_neg (not_le.2 h0)]; exact hy

theorem expAvg_pw {w : ℝ} (hw : 0 < w) {L₁ L₂ K₁ K₂ : List (ℝ × ℝ × ℝ × ℝ)}
    (h1 : ∀ x, ep L₁ x - w * ep (epD L₁) x = ep K₁ x) (h2 : ∀ x, ep L₂ x - w * ep (epD L₂) x = ep K₂ x)
    (v0 : ep L₁ 0 = ep L₂ 0) (e0 : ep K₁ 0 = ep K₂ 0) (neg : ∀ q ∈ L₂, q.1 < 0) (x : ℝ)
    (hint : IntegrableOn (fun s => 1 / w * Real.exp (-s / w) * pw K₁ K₂ (x + s)) (Ioi 0)) :
    ∫ s in Ioi (0 : ℝ), 1 / w * Real.exp (-s / w) * pw K₁ K₂ (x + s) = pw L₁ L₂ x := by
  refine expAvg hw (fun y => ?_) x hint (boundary_lim hw (pw_growth neg) x).1
  have d0 : ep (epD L₁) 0 = ep (epD L₂) 0 := by
    have a := h1 0; have b := h2 0
    rw [v0, e0] at a
    have : w * ep (epD L₁) 0 = w * ep (epD L₂) 0 := by linarith
    exact mul_left_cancel₀ hw.ne' this
  refine (pw_deriv v0 d0 y).congr_deriv ?_
  rw [eq_div_iff hw.ne']
  unfold pw
  split
  · linarith [h1 y]
  · linarith [h2 y]

theorem gamAvg_pw {w : ℝ} (hw : 0 < w) {L₁ L₂ K₁ K₂ : List (ℝ × ℝ × ℝ × ℝ)}
    (h1 : ∀ x, ep L₁ x - 2 * w * ep (epD L₁) x + w ^ 2 * ep (epD (epD L₁)) x = ep K₁ x)
    (h2 : ∀ x, ep L₂ x - 2 * w * ep (epD L₂) x + w ^ 2 * ep (epD (epD L₂)) x = ep K₂ x)
    (v0 : ep L₁ 0 = ep L₂ 0) (d0 : ep (epD L₁) 0 = ep (epD L₂) 0) (e0 : ep K₁ 0 = ep K₂ 0)
    (neg : ∀ q ∈ L₂, q.1 < 0) (x : ℝ)
    (hint : IntegrableOn (fun s => s / w ^ 2 * Real.exp (-s / w) * pw K₁ K₂ (x + s)) (Ioi 0)) :
    ∫ s in Ioi (0 : ℝ), s / w ^ 2 * Real.exp (-s / w) * pw K₁ K₂ (x + s) = pw L₁ L₂ x := by
  have dd0 : ep (epD (epD L₁)) 0 = ep (epD (epD L₂)) 0 := by
    have a := h1 0; have b := h2 0
    rw [v0, d0, e0] at a
    have : w ^ 2 * ep (epD (epD L₁)) 0 = w ^ 2 * ep (epD (epD L₂)) 0 := by linarith
    exact mul_left_cancel₀ (pow_ne_zero 2 hw.ne') this
  have neg' : ∀ q ∈ epD L₂, q.1 < 0 := by
    intro q hq
    simp only [epD, List.mem_map] at hq
    obtain ⟨r, hr, rfl⟩ := hq
    exact neg r hr
  have gA : ∀ᶠ y in atTop, |pw L₁ L₂ y - w * pw (epD L₁) (epD L₂) y| ≤ (1 + w) * (1 + y ^ 2) := by
    filter_upwards [pw_growth (L₁ := L₁) neg, pw_growth (L₁ := epD L₁) neg'] with y ha hb
    calc |pw L₁ L₂ y - w * pw (epD L₁) (epD L₂) y| ≤ |pw L₁ L₂ y| + |w * pw (epD L₁) (epD L₂) y| := abs_sub _ _
      _ = |pw L₁ L₂ y| + w * |pw (epD L₁) (epD L₂) y| := by rw [abs_mul, abs_of_pos hw]
      _ ≤ 1 * (1 + y ^ 2) + w * (1 * (1 + y ^ 2)) := by gcongr
      _ = (1 + w) * (1 + y ^ 2) := by ring
  refine gamAvg hw (A := fun y => pw L₁ L₂ y - w * pw (epD L₁) (epD L₂) y) (fun y => ?_) (fun y => ?_) x hint
    (boundary_lim hw gA x).2 (boundary_lim hw (pw_growth neg) x).1
  · refine ((pw_deriv v0 d0 y).sub ((pw_deriv d0 dd0 y).const_mul w)).congr_deriv ?_
    rw [eq_div_iff hw.ne']
    unfold pw
    split
    · linarith [h1 y]
    · linarith [h2 y]
  · refine (pw_deriv v0 d0 y).congr_deriv ?_
    rw [eq_div_iff hw.ne']; ring

/-- The damped-random-walk covariance itself. -/
theorem ou_pw {tau : ℝ} (x : ℝ) :
    Real.exp (-|x| / tau) = pw [(1 / tau, 1, 0, 0)] [(-1 / tau, 1, 0, 0)] x := by
  unfold pw ep pe
  split
  · rename_i h
    rw [abs_of_nonpos h]; simp [div_eq_inv_mul]
  · rename_i h
    rw [abs_of_pos (not_le.1 h)]; simp
    ring

/-- Reflection. -/
noncomputable def epR (L : List (ℝ × ℝ × ℝ × ℝ)) : List (ℝ × ℝ × ℝ × ℝ) :=
  L.map fun q => (-q.1, q.2.1, -q.2.2.1, q.2.2.2)

theorem ep_epR (L : List (ℝ × ℝ × ℝ × ℝ)) (x : ℝ) : ep (epR L) x = ep L (-x) := by
  unfold ep epR
  rw [List.map_map]
  congr 1
  refine List.map_congr_left fun q _ => ?_
  simp only [Function.comp, pe]
  rw [show -q.1 * x = q.1 * -x by ring]; ring

theorem ep_epD_epR (L : List (ℝ × ℝ × ℝ × ℝ)) (x : ℝ) : ep (epD (epR L)) x = -ep (epD L) (-x) := by
  have h1 : HasDerivAt (ep (epR L)) (ep (epD (epR L)) x) x := ep_deriv _ x
  have h2 : HasDerivAt (ep (epR L)) (-ep (epD L) (-x)) x := by
    have := (ep_deriv L (-x)).comp x (hasDerivAt_neg x)
    rw [mul_neg_one] at this
    exact this.congr_of_eventuallyEq (Eventually.of_forall fun y => ep_epR L y)
  exact h1.unique h2

theorem ep_epD2_epR (L : List (ℝ × ℝ × ℝ × ℝ)) (x : ℝ) : ep (epD (epD (epR L))) x = ep (epD (epD L)) (-x) := by
  have h1 : HasDerivAt (ep (epD (epR L))) (ep (epD (epD (epR L))) x) x := ep_deriv _ x
  have h2 : HasDerivAt (ep (epD (epR L))) (ep (epD (epD L)) (-x)) x := by
    have := ((ep_deriv (epD L) (-x)).comp x (hasDerivAt_neg x)).neg
    rw [mul_neg_one, neg_neg] at this
    exact this.congr_of_eventuallyEq (Eventually.of_forall fun y => ep_epD_epR L y)
  exact h1.unique h2

theorem pw_neg {M₁ M₂ : List (ℝ × ℝ × ℝ × ℝ)} (v0 : ep M₁ 0 = ep M₂ 0) (d : ℝ) :
    pw (epR M₂) (epR M₁) (-d) = pw M₁ M₂ d := by
  unfold pw
  rw [ep_epR, ep_epR, neg_neg]
  rcases lt_trichotomy d 0 with h | h | h
  · rw [if_neg (by linarith), if_pos h.le]
  · subst h; simp [v0]
  · rw [if_pos (by linarith), if_neg (by linarith)]

/-- Continuum with an exponential response. -/
theorem covLC_expd_pw {tau w : ℝ} (ht : 0 < tau) (hw : 0 < w) {M₁ M₂ : List (ℝ × ℝ × ℝ × ℝ)}
    (h1 : ∀ x, ep M₁ x + w * ep (epD M₁) x = ep [(1 / tau, 1, 0, 0)] x)
    (h2 : ∀ x, ep M₂ x + w * ep (epD M₂) x = ep [(-1 / tau, 1, 0, 0)] x)
    (v0 : ep M₁ 0 = ep M₂ 0) (pos : ∀ q ∈ M₁, 0 < q.1) (d : ℝ) :
    covLC tau (expd w) d = pw M₁ M₂ d := by
  have hi := covLC_integrable ht (expd_integrable hw) d
  have he : ∀ s, Real.exp (-|d - s| / tau) = pw [(1 / tau, 1, 0, 0)] [(-1 / tau, 1, 0, 0)] (-d + s) := by
    intro s; rw [← ou_pw, ← abs_neg]; congr 4; ring
  simp only [he] at hi
  have hs1 : ∀ x, ep [(1 / tau, 1, 0, 0)] x = ep [(-1 / tau, 1, 0, 0)] (-x) := by
    intro x; simp [ep, pe]; ring_nf
  unfold covLC
  simp only [he]
  rw [integral_expd, expAvg_pw hw (L₁ := epR M₂) (L₂ := epR M₁) ?_ ?_ ?_ ?_ ?_ (-d) (integrable_expd_mul hi)]
  · exact pw_neg v0 d
  · intro x
    rw [ep_epR, ep_epD_epR, hs1, ← h2]; ring
  · intro x
    rw [ep_epR, ep_epD_epR, show ep [(-1 / tau, 1, 0, 0)] x = ep [(1 / tau, 1, 0, 0)] (-x) by rw [hs1, neg_neg], ← h1]
    ring
  · rw [ep_epR, ep_epR, neg_zero, v0]
  · simp [ep, pe]
  · intro q hq
    simp only [epR, List.mem_map] at hq
    obtain ⟨r, hr, rfl⟩ := hq
    simpa using pos r hr

/-- Continuum with a gamma response. -/
theorem covLC_gamd_pw {tau w : ℝ} (ht : 0 < tau) (hw : 0 < w) {M₁ M₂ : List (ℝ × ℝ × ℝ × ℝ)}
    (h1 : ∀ x, ep M₁ x + 2 * w * ep (epD M₁) x + w ^ 2 * ep (epD (epD M₁)) x = ep [(1 / tau, 1, 0, 0)] x)
    (h2 : ∀ x, ep M₂ x + 2 * w * ep (epD M₂) x + w ^ 2 * ep (epD (epD M₂)) x = ep [(-1 / tau, 1, 0, 0)] x)
    (v0 : ep M₁ 0 = ep M₂ 0) (d0 : ep (epD M₁) 0 = ep (epD M₂) 0) (pos : ∀ q ∈ M₁, 0 < q.1) (d : ℝ) :
    covLC tau (gamd w) d = pw M₁ M₂ d := by
  have hi := covLC_integrable ht (gamd_integrable hw) d
  have he : ∀ s, Real.exp (-|d - s| / tau) = pw [(1 / tau, 1, 0, 0)] [(-1 / tau, 1, 0, 0)] (-d + s) := by
    intro s; rw [← ou_pw, ← abs_neg]; congr 4; ring
  simp only [he] at hi
  have hs1 : ∀ x, ep [(1 / tau, 1, 0, 0)] x = ep [(-1 / tau, 1, 0, 0)] (-x) := by
    intro x; simp [ep, pe]; ring_nf
  unfold covLC
  simp only [he]
  rw [integral_gamd, gamAvg_pw hw (L₁ := epR M₂) (L₂ := epR M₁) ?_ ?_ ?_ ?_ ?_ ?_ (-d) (integrable_gamd_mul hi)]
  · exact pw_neg v0 d
  · intro x
    rw [ep_epR, ep_epD_epR, ep_epD2_epR, hs1, ← h2]; ring
  · intro x
    rw [ep_epR, ep_epD_epR, ep_epD2_epR,
      show ep [(-1 / tau, 1, 0, 0)] x = ep [(1 / tau, 1, 0, 0)] (-x) by rw [hs1, neg_neg], ← h1]
    ring
  · rw [ep_epR, ep_epR, neg_zero, v0]
  · rw [ep_epD_epR, ep_epD_epR, neg_zero, d0]
  · simp [ep, pe]
  · intro q hq
    simp only [epR, List.mem_map] at hq
    obtain ⟨r, hr, rfl⟩ := hq
    simpa using pos r hr

theorem covLL_expd_pw {tau w : ℝ} (ht : 0 < tau) (hw : 0 < w) {ψ : ℝ → ℝ} (hψ : Integrable ψ)
    {L₁ L₂ K₁ K₂ : List (ℝ × ℝ × ℝ × ℝ)} (hK : ∀ x, covLC tau ψ x = pw K₁ K₂ x)
    (h1 : ∀ x, ep L₁ x - w * ep (epD L₁) x = ep K₁ x) (h2 : ∀ x, ep L₂ x - w * ep (epD L₂) x = ep K₂ x)
    (v0 : ep L₁ 0 = ep L₂ 0) (e0 : ep K₁ 0 = ep K₂ 0) (neg : ∀ q ∈ L₂, q.1 < 0) (d : ℝ) :
    covLL tau ψ (expd w) d = pw L₁ L₂ d := by
  obtain ⟨hi, he⟩ := covLL_outer ht hψ (expd_integrable hw) d
  simp only [hK] at hi he
  rw [he, integral_expd, expAvg_pw hw h1 h2 v0 e0 neg d (integrable_expd_mul hi)]

theorem covLL_gamd_pw {tau w : ℝ} (ht : 0 < tau) (hw : 0 < w) {ψ : ℝ → ℝ} (hψ : Integrable ψ)
    {L₁ L₂ K₁ K₂ : List (ℝ × ℝ × ℝ × ℝ)} (hK : ∀ x, covLC tau ψ x = pw K₁ K₂ x)
    (h1 : ∀ x, ep L₁ x - 2 * w * ep (epD L₁) x + w ^ 2 * ep (epD (epD L₁)) x = ep K₁ x)
    (h2 : ∀ x, ep L₂ x - 2 * w * ep (epD L₂) x + w ^ 2 * ep (epD (epD L₂)) x = ep K₂ x)
    (v0 : ep L₁ 0 = ep L₂ 0) (d0 : ep (epD L₁) 0 = ep (epD L₂) 0) (e0 : ep K₁ 0 = ep K₂ 0)
    (neg : ∀ q ∈ L₂, q.1 < 0) (d : ℝ) :
    covLL tau ψ (gamd w) d = pw L₁ L₂ d := by
  obtain ⟨hi, he⟩ := covLL_outer ht hψ (gamd_integrable hw) d
  simp only [hK] at hi he
  rw [he, integral_gamd, gamAvg_pw hw h1 h2 v0 d0 e0 neg d (integrable_gamd_mul hi)]

theorem pw_continuous {K₁ K₂ : List (ℝ × ℝ × ℝ × ℝ)} (e0 : ep K₁ 0 = ep K₂ 0) : Continuous (pw K₁ K₂) := by
  unfold pw
  refine Continuous.if_le ?_ ?_ continuous_id continuous_const ?_
  · exact continuous_iff_continuousAt.2 fun x => (ep_deriv K₁ x).continuousAt
  · exact continuous_iff_continuousAt.2 fun x => (ep_deriv K₂ x).continuousAt
  · intro x hx; have hx : x = 0 := hx; subst hx; exact e0

theorem covLL_topd_pw {tau w : ℝ} (ht : 0 < tau) (hw : 0 < w) {ψ : ℝ → ℝ} (hψ : Integrable ψ)
    {P₁ P₂ K₁ K₂ : List (ℝ × ℝ × ℝ × ℝ)} (hK : ∀ x, covLC tau ψ x = pw K₁ K₂ x)
    (h1 : ∀ x, ep (epD P₁) x = ep K₁ x) (h2 : ∀ x, ep (epD P₂) x = ep K₂ x)
    (v0 : ep P₁ 0 = ep P₂ 0) (e0 : ep K₁ 0 = ep K₂ 0) (d : ℝ) :
    covLL tau ψ (topd w) d = (pw P₁ P₂ (d + w) - pw P₁ P₂ (d - w)) / (2 * w) := by
  obtain ⟨hi, he⟩ := covLL_outer ht hψ (topd_integrable w) d
  simp only [hK] at hi he
  rw [he, integral_topd hw (P := pw P₁ P₂) (fun x => ?_) (pw_continuous e0) d]
  refine (pw_deriv v0 (by rw [h1, h2, e0]) x).congr_deriv ?_
  unfold pw
  split
  · exact h1 x
  · exact h2 x

end Mica
