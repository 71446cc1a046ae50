import Verif.Spec.Kernel
import Mathlib.MeasureTheory.Integral.Prod
import Mathlib.MeasureTheory.Integral.IntegralEqImproper
import Mathlib.Analysis.SpecialFunctions.ImproperIntegrals
import Mathlib.Tactic

/-! Convolution integrals of the damped-random-walk covariance: general lemmas. -/

namespace Mica

open MeasureTheory Set Filter Topology

theorem exp_abs_le_one {tau : ℝ} (ht : 0 < tau) (x : ℝ) : Real.exp (-|x| / tau) ≤ 1 := by
  rw [Real.exp_le_one_iff]
  exact div_nonpos_of_nonpos_of_nonneg (by simp) ht.le

theorem covLL_integrable {tau : ℝ} (ht : 0 < tau) {ψ₁ ψ₂ : ℝ → ℝ} (h1 : Integrable ψ₁) (h2 : Integrable ψ₂) (d : ℝ) :
    Integrable (fun p : ℝ × ℝ => ψ₁ p.1 * ψ₂ p.2 * Real.exp (-|d - p.1 + p.2| / tau)) := by
  refine (h1.mul_prod h2).mul_bdd (c := 1) ?_ ?_
  · exact (by fun_prop : Continuous fun p : ℝ × ℝ => Real.exp (-|d - p.1 + p.2| / tau)).aestronglyMeasurable
  · refine Eventually.of_forall fun p => ?_
    rw [Real.norm_eq_abs, Real.abs_exp]
    exact exp_abs_le_one ht _

theorem covLL_swap {tau : ℝ} (ψ₁ ψ₂ : ℝ → ℝ) (d : ℝ) :
    covLL tau ψ₁ ψ₂ d = covLL tau ψ₂ ψ₁ (-d) := by
  unfold covLL
  rw [Measure.volume_eq_prod, ← integral_prod_swap]
  refine integral_congr_ae (Eventually.of_forall fun p => ?_)
  have : |d - p.2 + p.1| = |-d - p.1 + p.2| := by
    rw [← abs_neg]; congr 1; ring
  simp only [Prod.fst_swap, Prod.snd_swap]
  rw [this]; ring

/-- The double integral as an outer integral over the second lag. -/
theorem covLL_outer {tau : ℝ} (ht : 0 < tau) {ψ₁ ψ₂ : ℝ → ℝ} (h1 : Integrable ψ₁) (h2 : Integrable ψ₂) (d : ℝ) :
    Integrable (fun s => ψ₂ s * covLC tau ψ₁ (d + s)) ∧
      covLL tau ψ₁ ψ₂ d = ∫ s, ψ₂ s * covLC tau ψ₁ (d + s) := by
  have hI := covLL_integrable ht h1 h2 d
  rw [Measure.volume_eq_prod] at hI
  have hin : ∀ s, (∫ r, ψ₁ r * ψ₂ s * Real.exp (-|d - r + s| / tau)) = ψ₂ s * covLC tau ψ₁ (d + s) := by
    intro s
    rw [covLC, ← integral_const_mul]
    congr 1; ext r
    rw [show d + s - r = d - r + s by ring]; ring
  constructor
  · have := hI.integral_prod_right
    simpa only [hin] using this
  · unfold covLL
    rw [Measure.volume_eq_prod, integral_prod_symm _ hI]
    simp only [hin]

theorem covLC_integrable {tau : ℝ} (ht : 0 < tau) {ψ : ℝ → ℝ} (h1 : Integrable ψ) (d : ℝ) :
    Integrable (fun s => ψ s * Real.exp (-|d - s| / tau)) := by
  refine h1.mul_bdd (c := 1) ?_ ?_
  · exact (by fun_prop : Continuous fun s : ℝ => Real.exp (-|d - s| / tau)).aestronglyMeasurable
  · refine Eventually.of_forall fun p => ?_
    rw [Real.norm_eq_abs, Real.abs_exp]
    exact exp_abs_le_one ht _

theorem covLC_shift {tau : ℝ} (ψ : ℝ → ℝ) (c d : ℝ) :
    covLC tau (fun s => ψ (s - c)) d = covLC tau ψ (d - c) := by
  unfold covLC
  rw [← integral_sub_right_eq_self (fun s => ψ s * Real.exp (-|d - c - s| / tau)) c]
  refine integral_congr_ae (Eventually.of_forall fun s => ?_)
  simp only [show d - c - (s - c) = d - s by ring]

theorem covLL_shift {tau : ℝ} (ht : 0 < tau) {ψ₁ ψ₂ : ℝ → ℝ} (h1 : Integrable ψ₁) (h2 : Integrable ψ₂) (c₁ c₂ d : ℝ) :
    covLL tau (fun s => ψ₁ (s - c₁)) (fun s => ψ₂ (s - c₂)) d = covLL tau ψ₁ ψ₂ (d - (c₁ - c₂)) := by
  rw [(covLL_outer ht (h1.comp_sub_right c₁) (h2.comp_sub_right c₂) d).2, (covLL_outer ht h1 h2 _).2]
  rw [← integral_sub_right_eq_self (fun s => ψ₂ s * covLC tau ψ₁ (d - (c₁ - c₂) + s)) c₂]
  refine integral_congr_ae (Eventually.of_forall fun s => ?_)
  simp only [covLC_shift]
  rw [show d + s - c₁ = d - (c₁ - c₂) + (s - c₂) by ring]

/-! ### One-sided exponential averages -/

/-- If `A - w A' = E` and `A` grows slower than `exp(x/w)`, then `A` is the exponential average of `E`. -/
theorem expAvg {w : ℝ} (hw : 0 < w) {A E : ℝ → ℝ} (hA : ∀ x, HasDerivAt A ((A x - E x) / w) x) (x : ℝ)
    (hint : IntegrableOn (fun s => 1 / w * Real.exp (-s / w) * E (x + s)) (Ioi 0))
    (hlim : Tendsto (fun s => Real.exp (-s / w) * A (x + s)) atTop (𝓝 0)) :
    ∫ s in Ioi (0 : ℝ), 1 / w * Real.exp (-s / w) * E (x + s) = A x := by
  have hd : ∀ s ∈ Ici (0 : ℝ), HasDerivAt (fun s => -(Real.exp (-s / w) * A (x + s)))
      (1 / w * Real.exp (-s / w) * E (x + s)) s := by
    intro s _
    have h1 : HasDerivAt (fun s : ℝ => Real.exp (-s / w)) (Real.exp (-s / w) * (-1 / w)) s :=
      (((hasDerivAt_id s).neg).div_const w).exp
    have h2 : HasDerivAt (fun s => A (x + s)) ((A (x + s) - E (x + s)) / w) s := by
      have := (hA (x + s)).comp_const_add x s
      exact this
    refine (h1.mul h2).neg.congr_deriv ?_
    field_simp; ring
  have := integral_Ioi_of_hasDerivAt_of_tendsto' hd hint (by simpa using hlim.neg)
  rw [this]; simp

/-- Twice: `B - w B' = A`, `A - w A' = E` make `B` the gamma average of `E`. -/
theorem gamAvg {w : ℝ} (hw : 0 < w) {A B E : ℝ → ℝ} (hA : ∀ x, HasDerivAt A ((A x - E x) / w) x)
    (hB : ∀ x, HasDerivAt B ((B x - A x) / w) x) (x : ℝ)
    (hint : IntegrableOn (fun s => s / w ^ 2 * Real.exp (-s / w) * E (x + s)) (Ioi 0))
    (hlimA : Tendsto (fun s => s * (Real.exp (-s / w) * A (x + s))) atTop (𝓝 0))
    (hlimB : Tendsto (fun s => Real.exp (-s / w) * B (x + s)) atTop (𝓝 0)) :
    ∫ s in Ioi (0 : ℝ), s / w ^ 2 * Real.exp (-s / w) * E (x + s) = B x := by
  have hd : ∀ s ∈ Ici (0 : ℝ), HasDerivAt
      (fun s => -(1 / w * (s * (Real.exp (-s / w) * A (x + s))) + Real.exp (-s / w) * B (x + s)))
      (s / w ^ 2 * Real.exp (-s / w) * E (x + s)) s := by
    intro s _
    have h1 : HasDerivAt (fun s : ℝ => Real.exp (-s / w)) (Real.exp (-s / w) * (-1 / w)) s :=
      (((hasDerivAt_id s).neg).div_const w).exp
    have h2 : HasDerivAt (fun s => A (x + s)) ((A (x + s) - E (x + s)) / w) s :=
      (hA (x + s)).comp_const_add x s
    have h3 : HasDerivAt (fun s => B (x + s)) ((B (x + s) - A (x + s)) / w) s :=
      (hB (x + s)).comp_const_add x s
    refine ((((hasDerivAt_id s).mul (h1.mul h2)).const_mul (1 / w)).add (h1.mul h3)).neg.congr_deriv ?_
    simp only [id, Pi.mul_apply]
    field_simp; ring
  have hl : Tendsto (fun s => -(1 / w * (s * (Real.exp (-s / w) * A (x + s))) + Real.exp (-s / w) * B (x + s)))
      atTop (𝓝 0) := by
    have := ((hlimA.const_mul (1 / w)).add hlimB).neg
    simpa using this
  have := integral_Ioi_of_hasDerivAt_of_tendsto' hd hint hl
  rw [this]; simp

/-- Gluing two solutions of the same kind of equation at a point. -/
theorem glue_deriv {F₁ F₂ D₁ D₂ : ℝ → ℝ} (h1 : ∀ x, HasDerivAt F₁ (D₁ x) x) (h2 : ∀ x, HasDerivAt F₂ (D₂ x) x)
    {a : ℝ} (hv : F₁ a = F₂ a) (hd : D₁ a = D₂ a) (x : ℝ) :
    HasDerivAt (fun x => if x ≤ a then F₁ x else F₂ x) (if x ≤ a then D₁ x else D₂ x) x := by
  rcases lt_trichotomy x a with h | h | h
  · rw [if_pos h.le]
    refine (h1 x).congr_of_eventuallyEq ?_
    filter_upwards [Iio_mem_nhds h] with y hy
    rw [if_pos (le_of_lt hy)]
  · subst h
    rw [if_pos le_rfl]
    have hL : HasDerivWithinAt (fun y => if y ≤ x then F₁ y else F₂ y) (D₁ x) (Iic x) x :=
      (h1 x).hasDerivWithinAt.congr (fun y hy => if_pos hy) (if_pos le_rfl)
    have hR : HasDerivWithinAt (fun y => if y ≤ x then F₁ y else F₂ y) (D₁ x) (Ici x) x := by
      rw [hd]
      refine (h2 x).hasDerivWithinAt.congr (fun y hy => ?_) ?_
      · rcases eq_or_lt_of_le (mem_Ici.1 hy) with h | h
        · subst h; simp [hv]
        · rw [if_neg (not_le.2 h)]
      · simp [hv]
    have := hL.union hR
    rwa [Iic_union_Ici, hasDerivWithinAt_univ] at this
  · rw [if_neg (not_le.2 h)]
    refine (h2 x).congr_of_eventuallyEq ?_
    filter_upwards [Ioi_mem_nhds h] with y hy
    rw [if_neg (not_le.2 hy)]

/-! ### Exponential polynomials -/

/-- `(a + b x + c x²) exp(k x)`. -/
noncomputable def pe (k a b c x : ℝ) : ℝ := (a + b * x + c * x ^ 2) * Real.exp (k * x)

theorem pe_deriv (k a b c x : ℝ) :
    HasDerivAt (pe k a b c) (pe k (b + k * a) (2 * c + k * b) (k * c) x) x := by
  unfold pe
  have h1 : HasDerivAt (fun x : ℝ => Real.exp (k * x)) (Real.exp (k * x) * (k * 1)) x :=
    ((hasDerivAt_id x).const_mul k).exp
  have h2 : HasDerivAt (fun x : ℝ => a + b * x + c * x ^ 2) (b * 1 + c * (2 * x)) x := by
    refine ((((hasDerivAt_id x).const_mul b).const_add a).add ((hasDerivAt_pow 2 x).const_mul c)).congr_deriv ?_
    simp
  refine (h2.mul h1).congr_deriv ?_
  ring

theorem pe_tendsto {k : ℝ} (hk : k < 0) (a b c : ℝ) : Tendsto (pe k a b c) atTop (𝓝 0) := by
  have h : ∀ n : ℕ, Tendsto (fun x : ℝ => x ^ n * Real.exp (k * x)) atTop (𝓝 0) := by
    intro n
    have h0 := Real.tendsto_pow_mul_exp_neg_atTop_nhds_zero n
    have h1 : Tendsto (fun x : ℝ => -k * x) atTop atTop := tendsto_id.const_mul_atTop (by linarith)
    have h2 := (h0.comp h1).const_mul ((1 / (-k)) ^ n)
    rw [mul_zero] at h2
    refine h2.congr fun x => ?_
    simp only [Function.comp]
    have hk' : -k ≠ 0 := by linarith
    rw [mul_pow, ← mul_assoc, ← mul_assoc, ← mul_pow, one_div_mul_cancel hk', one_pow, one_mul]
    congr 2; ring
  have := (((h 0).const_mul a).add ((h 1).const_mul b)).add ((h 2).const_mul c)
  simp only [mul_zero, add_zero] at this
  refine this.congr fun x => ?_
  unfold pe; ring

/-- A sum of exponential polynomials, each given by rate and three coefficients. -/
noncomputable def ep (L : List (ℝ × ℝ × ℝ × ℝ)) (x : ℝ) : ℝ :=
  (L.map fun q => pe q.1 q.2.1 q.2.2.1 q.2.2.2 x).sum

/-- The derivative. -/
noncomputable def epD (L : List (ℝ × ℝ × ℝ × ℝ)) : List (ℝ × ℝ × ℝ × ℝ) :=
  L.map fun q => (q.1, q.2.2.1 + q.1 * q.2.1, 2 * q.2.2.2 + q.1 * q.2.2.1, q.1 * q.2.2.2)

theorem ep_deriv (L : List (ℝ × ℝ × ℝ × ℝ)) (x : ℝ) : HasDerivAt (ep L) (ep (epD L) x) x := by
  induction L with
  | nil => exact hasDerivAt_const x (0 : ℝ)
  | cons q L ih =>
    have := (pe_deriv q.1 q.2.1 q.2.2.1 q.2.2.2 x).add ih
    exact this

theorem ep_tendsto (L : List (ℝ × ℝ × ℝ × ℝ)) (h : ∀ q ∈ L, q.1 < 0) : Tendsto (ep L) atTop (𝓝 0) := by
  induction L with
  | nil => exact (tendsto_const_nhds : Tendsto (fun _ : ℝ => (0 : ℝ)) atTop (𝓝 0))
  | cons q L ih =>
    have := (pe_tendsto (h q (by simp)) q.2.1 q.2.2.1 q.2.2.2).add (ih fun q hq => h q (by simp [hq]))
    rw [add_zero] at this
    exact this

/-- Growth at most quadratic is enough for the boundary terms to vanish. -/
theorem boundary_lim {w : ℝ} (hw : 0 < w) {A : ℝ → ℝ} {C : ℝ} (h : ∀ᶠ y in atTop, |A y| ≤ C * (1 + y ^ 2)) (x : ℝ) :
    Tendsto (fun s => Real.exp (-s / w) * A (x + s)) atTop (𝓝 0) ∧
      Tendsto (fun s => s * (Real.exp (-s / w) * A (x + s))) atTop (𝓝 0) := by
  have hp : ∀ n : ℕ, Tendsto (fun s : ℝ => s ^ n * Real.exp (-s / w)) atTop (𝓝 0) := by
    intro n
    have h0 := Real.tendsto_pow_mul_exp_neg_atTop_nhds_zero n
    have h1 : Tendsto (fun s : ℝ => s / w) atTop atTop := tendsto_id.atTop_div_const hw
    have h2 := (h0.comp h1).const_mul (w ^ n)
    rw [mul_zero] at h2
    refine h2.congr fun s => ?_
    simp only [Function.comp]
    rw [div_pow, ← mul_assoc, mul_div_cancel₀ _ (pow_ne_zero _ hw.ne'), neg_div]
  have hs : Tendsto (fun s : ℝ => x + s) atTop atTop := tendsto_atTop_add_const_left _ _ tendsto_id
  have hq : ∀ m : ℕ, Tendsto (fun s => s ^ m * Real.exp (-s / w) * (C * (1 + (x + s) ^ 2))) atTop (𝓝 0) := by
    intro m
    have := (((hp m).const_mul (C * (1 + x ^ 2))).add ((hp (m + 1)).const_mul (C * (2 * x)))).add
      ((hp (m + 2)).const_mul C)
    simp only [mul_zero, add_zero] at this
    refine this.congr fun s => ?_
    ring
  have hb := (hs.eventually h).and (eventually_ge_atTop (0 : ℝ))
  constructor
  · refine squeeze_zero_norm' ?_ (hq 0)
    filter_upwards [hb] with s hs
    rw [norm_mul, Real.norm_eq_abs, Real.norm_eq_abs, Real.abs_exp, pow_zero, one_mul]
    exact mul_le_mul_of_nonneg_left hs.1 (Real.exp_pos _).le
  · refine squeeze_zero_norm' ?_ (hq 1)
    filter_upwards [hb] with s hs
    rw [norm_mul, norm_mul, Real.norm_eq_abs, Real.norm_eq_abs, Real.norm_eq_abs, Real.abs_exp,
      abs_of_nonneg hs.2, pow_one, ← mul_assoc]
    exact mul_le_mul_of_nonneg_left hs.1 (mul_nonneg hs.2 (Real.exp_pos _).le)

theorem growth_of_tendsto {A : ℝ → ℝ} (h : Tendsto A atTop (𝓝 0)) : ∀ᶠ y in atTop, |A y| ≤ 1 * (1 + y ^ 2) := by
  have := h.abs
  rw [abs_zero] at this
  filter_upwards [this.eventually_le_const (show (0 : ℝ) < 1 by norm_num)] with y hy
  nlinarith [sq_nonneg y]

/-! ### Centred transfer functions -/

open Classical in
/-- Exponential with onset 0. -/
noncomputable def expd (w s : ℝ) : ℝ := if 0 < s then 1 / w * Real.exp (-s / w) else 0

open Classical in
/-- Gamma with onset 0. -/
noncomputable def gamd (w s : ℝ) : ℝ := if 0 < s then s / w ^ 2 * Real.exp (-s / w) else 0

open Classical in
/-- Top-hat centred at 0. -/
noncomputable def topd (w s : ℝ) : ℝ := if |s| ≤ w then 1 / (2 * w) else 0

theorem tfDens_exp (c w : ℝ) : tfDens .exp c w = fun s => expd w (s - (c - w)) := by
  ext s; simp only [tfDens, expd, sub_pos]

theorem tfDens_gamma (c w : ℝ) : tfDens .gamma c w = fun s => gamd w (s - (c - 2 * w)) := by
  ext s; simp only [tfDens, gamd, sub_pos]

theorem tfDens_tophat (c w : ℝ) : tfDens .tophat c w = fun s => topd w (s - c) := by
  ext s; simp only [tfDens, topd]

theorem expd_eq (w : ℝ) : expd w = (Ioi 0).indicator fun s => 1 / w * Real.exp (-s / w) := by
  ext s; simp [expd, indicator]

theorem gamd_eq (w : ℝ) : gamd w = (Ioi 0).indicator fun s => s / w ^ 2 * Real.exp (-s / w) := by
  ext s; simp [gamd, indicator]

theorem topd_eq (w : ℝ) : topd w = (Icc (-w) w).indicator fun _ => 1 / (2 * w) := by
  ext s; simp [topd, indicator, abs_le]

theorem const_growth : ∀ᶠ y in (atTop : Filter ℝ), |(fun _ : ℝ => (1 : ℝ)) y| ≤ 1 * (1 + y ^ 2) :=
  Eventually.of_forall fun y => by simp; positivity

theorem expd_deriv (w s : ℝ) :
    HasDerivAt (fun s => -Real.exp (-s / w)) (1 / w * Real.exp (-s / w)) s := by
  have h1 : HasDerivAt (fun s : ℝ => Real.exp (-s / w)) (Real.exp (-s / w) * (-1 / w)) s :=
    (((hasDerivAt_id s).neg).div_const w).exp
  exact h1.neg.congr_deriv (by ring)

theorem gamd_deriv {w : ℝ} (hw : 0 < w) (s : ℝ) :
    HasDerivAt (fun s => -((s / w + 1) * Real.exp (-s / w))) (s / w ^ 2 * Real.exp (-s / w)) s := by
  have h1 : HasDerivAt (fun s : ℝ => Real.exp (-s / w)) (Real.exp (-s / w) * (-1 / w)) s :=
    (((hasDerivAt_id s).neg).div_const w).exp
  have h2 : HasDerivAt (fun s : ℝ => s / w + 1) (1 / w) s := ((hasDerivAt_id s).div_const w).add_const 1
  refine (h2.mul h1).neg.congr_deriv ?_
  field_simp; ring

theorem expd_lim {w : ℝ} (hw : 0 < w) : Tendsto (fun s : ℝ => -Real.exp (-s / w)) atTop (𝓝 0) := by
  simpa using (boundary_lim hw const_growth 0).1.neg

theorem gamd_lim {w : ℝ} (hw : 0 < w) : Tendsto (fun s : ℝ => -((s / w + 1) * Real.exp (-s / w))) atTop (𝓝 0) := by
  have h := boundary_lim hw const_growth 0
  have := ((h.2.const_mul (1 / w)).add h.1).neg
  simp only [mul_zero, add_zero, neg_zero, mul_one] at this
  refine this.congr fun s => ?_
  ring

theorem expd_integrable {w : ℝ} (hw : 0 < w) : Integrable (expd w) := by
  rw [expd_eq, integrable_indicator_iff measurableSet_Ioi]
  exact integrableOn_Ioi_deriv_of_nonneg' (fun s _ => expd_deriv w s) (fun s _ => by positivity) (expd_lim hw)

theorem gamd_integrable {w : ℝ} (hw : 0 < w) : Integrable (gamd w) := by
  rw [gamd_eq, integrable_indicator_iff measurableSet_Ioi]
  exact integrableOn_Ioi_deriv_of_nonneg' (fun s _ => gamd_deriv hw s)
    (fun s hs => mul_nonneg (div_nonneg (le_of_lt hs) (by positivity)) (Real.exp_pos _).le) (gamd_lim hw)

theorem expd_integral {w : ℝ} (hw : 0 < w) : ∫ s, expd w s = 1 := by
  rw [expd_eq, integral_indicator measurableSet_Ioi,
    integral_Ioi_of_hasDerivAt_of_nonneg' (fun s _ => expd_deriv w s) (fun s _ => by positivity) (expd_lim hw)]
  simp

theorem gamd_integral {w : ℝ} (hw : 0 < w) : ∫ s, gamd w s = 1 := by
  rw [gamd_eq, integral_indicator measurableSet_Ioi,
    integral_Ioi_of_hasDerivAt_of_nonneg' (fun s _ => gamd_deriv hw s)
      (fun s hs => mul_nonneg (div_nonneg (le_of_lt hs) (by positivity)) (Real.exp_pos _).le) (gamd_lim hw)]
  simp

theorem topd_integrable (w : ℝ) : Integrable (topd w) := by
  rw [topd_eq, integrable_indicator_iff measurableSet_Icc]
  exact integrableOn_const (by simp)

theorem topd_integral {w : ℝ} (hw : 0 < w) : ∫ s, topd w s = 1 := by
  rw [topd_eq, integral_indicator measurableSet_Icc, setIntegral_const]
  simp only [measureReal_def, Real.volume_Icc, smul_eq_mul]
  rw [ENNReal.toReal_ofReal (by linarith)]
  field_simp; ring

/-- Weighting by the centred exponential is a one-sided integral. -/
theorem integral_expd (w : ℝ) (g : ℝ → ℝ) :
    ∫ s, expd w s * g s = ∫ s in Ioi (0 : ℝ), 1 / w * Real.exp (-s / w) * g s := by
  rw [expd_eq, ← integral_indicator measurableSet_Ioi]
  congr 1; ext s
  by_cases h : s ∈ Ioi (0 : ℝ) <;> simp [h]

theorem integral_gamd (w : ℝ) (g : ℝ → ℝ) :
    ∫ s, gamd w s * g s = ∫ s in Ioi (0 : ℝ), s / w ^ 2 * Real.exp (-s / w) * g s := by
  rw [gamd_eq, ← integral_indicator measurableSet_Ioi]
  congr 1; ext s
  by_cases h : s ∈ Ioi (0 : ℝ) <;> simp [h]

theorem integrable_expd_mul {w : ℝ} {g : ℝ → ℝ} (h : Integrable fun s => expd w s * g s) :
    IntegrableOn (fun s => 1 / w * Real.exp (-s / w) * g s) (Ioi 0) := by
  rw [← integrable_indicator_iff measurableSet_Ioi]
  refine h.congr (Eventually.of_forall fun s => ?_)
  simp only [expd_eq]
  by_cases h : s ∈ Ioi (0 : ℝ) <;> simp [h]

theorem integrable_gamd_mul {w : ℝ} {g : ℝ → ℝ} (h : Integrable fun s => gamd w s * g s) :
    IntegrableOn (fun s => s / w ^ 2 * Real.exp (-s / w) * g s) (Ioi 0) := by
  rw [← integrable_indicator_iff measurableSet_Ioi]
  refine h.congr (Eventually.of_forall fun s => ?_)
  simp only [gamd_eq]
  by_cases h : s ∈ Ioi (0 : ℝ) <;> simp [h]

/-- Weighting by the top-hat is a difference of an antiderivative. -/
theorem integral_topd {w : ℝ} (hw : 0 < w) {P E : ℝ → ℝ} (hP : ∀ x, HasDerivAt P (E x) x) (hE : Continuous E) (x : ℝ) :
    ∫ s, topd w s * E (x + s) = (P (x + w) - P (x - w)) / (2 * w) := by
  have h1 : ∫ s, topd w s * E (x + s) = ∫ s in (-w)..w, 1 / (2 * w) * E (x + s) := by
    rw [intervalIntegral.integral_of_le (by linarith), ← integral_Icc_eq_integral_Ioc,
      ← integral_indicator measurableSet_Icc, topd_eq]
    congr 1; ext s
    by_cases h : s ∈ Icc (-w) w <;> simp [h]
  rw [h1, intervalIntegral.integral_const_mul]
  rw [intervalIntegral.integral_eq_sub_of_hasDerivAt (f := fun s => P (x + s))
    (fun s _ => (hP (x + s)).comp_const_add x s)
    ((hE.comp (continuous_const.add continuous_id)).intervalIntegrable _ _)]
  rw [sub_eq_add_neg x w]; ring

end Mica
