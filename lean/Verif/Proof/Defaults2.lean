import Verif.Proof.Defaults
import Verif.Props.InitLaw

/-! # Helper lemmas for C123: a Gaussian folded into a range is not a truncated Gaussian -/

open MeasureTheory Set ProbabilityTheory
open scoped ENNReal NNReal

namespace Mica

variable {n : ℕ}

/-- The variance as Mathlib wants it. -/
def sqNN (s : ℝ) : ℝ≥0 := .mk (s ^ 2) (sq_nonneg _)

theorem sqNN_ne {s : ℝ} (hs : 0 < s) : sqNN s ≠ 0 := by
  intro h
  have := congrArg NNReal.toReal h
  simp only [sqNN] at this
  exact (pow_pos hs 2).ne' this

theorem defLaw_gauss (c : DefCfg n) (i : Fin n) (hg : c.ptype i = .gaussian) :
    defLaw c i = (gaussianReal (c.mean i) (sqNN (c.sd i))).map (folded (c.lo i) (c.hi i)) := by
  unfold defLaw
  have h1 : defOne c i = folded (c.lo i) (c.hi i) ∘ (fun x => x + c.mean i) ∘ (fun z => z * c.sd i) ∘ Prod.snd := by
    funext r; simp [defOne, hg]
  rw [h1, ← Measure.map_map (measurable_folded _ _) (by fun_prop), ← Measure.map_map (by fun_prop) (by fun_prop),
    ← Measure.map_map (by fun_prop) measurable_snd, Measure.map_snd_prod]
  simp only [measure_univ, one_smul]
  rw [gaussianReal_map_mul_const, gaussianReal_map_add_const]
  simp [sqNN]

/-- The prior of a Gaussian parameter is a multiple of the Gaussian, cut to the range. -/
theorem def_gauss_prior (c : DefCfg n) (i : Fin n) (hg : c.ptype i = .gaussian) (hs : 0 < c.sd i) :
    ∃ C : ℝ≥0∞, C ≠ 0 ∧ C ≠ ∞ ∧ ∀ A, MeasurableSet A →
      ((volume.restrict (Ico (c.lo i) (c.hi i))).withDensity
        fun x => ENNReal.ofReal (Real.exp (c.logDensity i x))) A =
      C * gaussianReal (c.mean i) (sqNN (c.sd i)) (A ∩ Ico (c.lo i) (c.hi i)) := by
  have hp : 0 < Real.sqrt (2 * Real.pi * (sqNN (c.sd i) : ℝ)) := by
    apply Real.sqrt_pos.2
    have : (0 : ℝ) < (sqNN (c.sd i) : ℝ) := pow_pos hs 2
    have := Real.pi_pos
    positivity
  refine ⟨ENNReal.ofReal (Real.sqrt (2 * Real.pi * (sqNN (c.sd i) : ℝ))), ?_, ENNReal.ofReal_ne_top, ?_⟩
  · exact (ENNReal.ofReal_pos.2 hp).ne'
  · intro A hA
    rw [withDensity_apply _ hA, Measure.restrict_restrict hA, gaussianReal_apply _ (sqNN_ne hs),
      ← lintegral_const_mul _ (measurable_gaussianPDF _ _)]
    refine lintegral_congr fun x => ?_
    rw [gaussianPDF, ← ENNReal.ofReal_mul hp.le, gaussianPDFReal, mul_inv_cancel_left₀ hp.ne']
    simp only [DefCfg.logDensity, hg]
    congr 2
    show -((x - c.mean i) ^ 2 / (2 * c.sd i ^ 2)) = -(x - c.mean i) ^ 2 / (2 * c.sd i ^ 2)
    ring

/-- Bounds of the mass of an interval from bounds of the exponent. -/
theorem gauss_interval (m s d t e : ℝ) (hs : 0 < s) :
    ((∀ x ∈ Ico t (t + d), (x - m) ^ 2 ≤ e) → ENNReal.ofReal ((Real.sqrt (2 * Real.pi * s ^ 2))⁻¹ *
        Real.exp (-e / (2 * s ^ 2)) * d) ≤ gaussianReal m (sqNN s) (Ico t (t + d))) ∧
    ((∀ x ∈ Ico t (t + d), e ≤ (x - m) ^ 2) → gaussianReal m (sqNN s) (Ico t (t + d)) ≤
      ENNReal.ofReal ((Real.sqrt (2 * Real.pi * s ^ 2))⁻¹ * Real.exp (-e / (2 * s ^ 2)) * d)) := by
  have hk : 0 ≤ (Real.sqrt (2 * Real.pi * s ^ 2))⁻¹ := inv_nonneg.2 (Real.sqrt_nonneg _)
  have hvol : (volume : Measure ℝ) (Ico t (t + d)) = ENNReal.ofReal d := by rw [Real.volume_Ico]; congr 1; ring
  have hs2 : 0 < 2 * s ^ 2 := by positivity
  rw [gaussianReal_apply _ (sqNN_ne hs), ENNReal.ofReal_mul (mul_nonneg hk (Real.exp_pos _).le), ← hvol, ← setLIntegral_const]
  constructor
  · intro h
    refine setLIntegral_mono (measurable_gaussianPDF _ _) fun x hx => ENNReal.ofReal_le_ofReal ?_
    refine mul_le_mul_of_nonneg_left (Real.exp_le_exp.2 ?_) hk
    show -e / (2 * s ^ 2) ≤ -(x - m) ^ 2 / (2 * s ^ 2)
    exact div_le_div_of_nonneg_right (neg_le_neg (h x hx)) hs2.le
  · intro h
    refine setLIntegral_mono measurable_const fun x hx => ENNReal.ofReal_le_ofReal ?_
    refine mul_le_mul_of_nonneg_left (Real.exp_le_exp.2 ?_) hk
    show -(x - m) ^ 2 / (2 * s ^ 2) ≤ -e / (2 * s ^ 2)
    exact div_le_div_of_nonneg_right (neg_le_neg (h x hx)) hs2.le

/-- At least three quarters of a Gaussian lie within two deviations. -/
theorem gauss_central (m s a : ℝ) (hs : 0 < s) (ha : 2 ≤ a) :
    ENNReal.ofReal (3 / 4) ≤ gaussianReal m (sqNN s) (Ico (m - a * s) (m + a * s)) := by
  have h1 := meas_ge_le_variance_div_sq (μ := gaussianReal m (sqNN s)) (X := fun x => x)
    (memLp_id_gaussianReal 2) (c := a * s) (by positivity)
  rw [variance_fun_id_gaussianReal, integral_id_gaussianReal] at h1
  have h2 : ((sqNN s : ℝ≥0) : ℝ) / (a * s) ^ 2 ≤ 1 / 4 := by
    show s ^ 2 / (a * s) ^ 2 ≤ 1 / 4
    rw [div_le_div_iff₀ (by positivity) (by norm_num)]
    have h0 : (2 * s) ^ 2 ≤ (a * s) ^ 2 :=
      pow_le_pow_left₀ (by positivity) (mul_le_mul_of_nonneg_right ha hs.le) 2
    nlinarith
  have h3 : gaussianReal m (sqNN s) {x | a * s ≤ |x - m|} ≤ ENNReal.ofReal (1 / 4) :=
    h1.trans (ENNReal.ofReal_le_ofReal h2)
  have h4 : (1 : ℝ≥0∞) ≤ gaussianReal m (sqNN s) (Ico (m - a * s) (m + a * s)) + ENNReal.ofReal (1 / 4) := by
    rw [← measure_univ (μ := gaussianReal m (sqNN s))]
    refine le_trans (measure_mono ?_) ((measure_union_le _ _).trans (add_le_add_right h3 _))
    intro x _
    by_cases hx : a * s ≤ |x - m|
    · exact Or.inr hx
    · left
      have := abs_lt.1 (not_le.1 hx)
      exact ⟨by linarith, by linarith⟩
  have h5 : (1 : ℝ≥0∞) = ENNReal.ofReal (3 / 4) + ENNReal.ofReal (1 / 4) := by
    rw [← ENNReal.ofReal_add (by norm_num) (by norm_num)]; norm_num
  rw [h5] at h4
  exact (ENNReal.add_le_add_iff_right ENNReal.ofReal_ne_top).1 h4

/-- The law of a Gaussian parameter with the range `mean ± a·sd` is not its prior. -/
theorem def_gauss_ne (c : DefCfg n) (i : Fin n) (hg : c.ptype i = .gaussian) (hs : 0 < c.sd i) (a : ℝ) (ha : 2 ≤ a)
    (hlo : c.lo i = c.mean i - a * c.sd i) (hhi : c.hi i = c.mean i + a * c.sd i)
    (hA : ∀ A, MeasurableSet A → defLaw c i A * ((volume.restrict (Ico (c.lo i) (c.hi i))).withDensity
        fun x => ENNReal.ofReal (Real.exp (c.logDensity i x))) univ =
      ((volume.restrict (Ico (c.lo i) (c.hi i))).withDensity
        fun x => ENNReal.ofReal (Real.exp (c.logDensity i x))) A) : False := by
  obtain ⟨C, hC0, hC1, hC⟩ := def_gauss_prior c i hg hs
  set m := c.mean i
  set s := c.sd i
  set d := s / (4 * a) with hd
  have ha0 : 0 < a := by linarith
  have hdp : 0 < d := by positivity
  have hda : d * (4 * a) = s := by rw [hd]; field_simp
  have hds : d ≤ s / 8 := by rw [hd]; exact div_le_div_of_nonneg_left hs.le (by norm_num) (by linarith)
  set γ := gaussianReal m (sqNN s)
  have key := hA (Ico (c.lo i) (c.lo i + d)) measurableSet_Ico
  rw [hC _ MeasurableSet.univ, hC _ measurableSet_Ico, univ_inter, defLaw_gauss c i hg,
    Measure.map_apply (measurable_folded _ _) measurableSet_Ico] at key
  have hsub : Ico (c.lo i) (c.lo i + d) ⊆ Ico (c.lo i) (c.hi i) := by
    apply Ico_subset_Ico_right
    rw [hlo, hhi]; nlinarith
  rw [inter_eq_left.2 hsub, mul_left_comm, ENNReal.mul_right_inj hC0 hC1] at key
  have hW : c.hi i - c.lo i = 2 * a * s := by rw [hlo, hhi]; ring
  have hWp : 0 < c.hi i - c.lo i := by rw [hW]; positivity
  have hpre : Ico (c.lo i) (c.lo i + d) ∪ Ico (c.hi i) (c.hi i + d) ⊆
      folded (c.lo i) (c.hi i) ⁻¹' Ico (c.lo i) (c.lo i + d) := by
    have hdW : d < c.hi i - c.lo i := by rw [hW]; nlinarith
    rintro x (hx | hx)
    · have : folded (c.lo i) (c.hi i) x = x := by
        unfold folded
        rw [Int.fract_eq_self.2 ⟨div_nonneg (by linarith [hx.1]) hWp.le, by
          rw [div_lt_one hWp]; linarith [hx.2]⟩, div_mul_cancel₀ _ hWp.ne']
        ring
      rw [mem_preimage, this]; exact hx
    · have : folded (c.lo i) (c.hi i) x = x - (c.hi i - c.lo i) := by
        unfold folded
        have e : (x - c.lo i) / (c.hi i - c.lo i) = (x - c.hi i) / (c.hi i - c.lo i) + 1 := by
          rw [div_add_one hWp.ne']; congr 1; ring
        rw [e, Int.fract_add_one, Int.fract_eq_self.2 ⟨div_nonneg (by linarith [hx.1]) hWp.le, by
          rw [div_lt_one hWp]; linarith [hx.2]⟩, div_mul_cancel₀ _ hWp.ne']
        ring
      rw [mem_preimage, this]
      exact ⟨by linarith [hx.1], by linarith [hx.2]⟩
  have hdisj : Disjoint (Ico (c.lo i) (c.lo i + d)) (Ico (c.hi i) (c.hi i + d)) := by
    rw [Ico_disjoint_Ico]
    have : c.lo i + d ≤ c.hi i := by rw [hlo, hhi]; nlinarith
    exact (min_le_left _ _).trans (this.trans (le_max_right _ _))
  have hge := measure_mono (μ := γ) hpre
  rw [measure_union hdisj measurableSet_Ico] at hge
  have hcen := gauss_central m s a hs ha
  rw [← hlo, ← hhi] at hcen
  -- bounds of the two intervals
  have hup := (gauss_interval m s d (c.lo i) ((a * s - d) ^ 2) hs).2 (by
    intro x hx
    rw [hlo] at hx
    have h1 : 0 ≤ a * s - d := by nlinarith
    have h2 : a * s - d ≤ m - x := by linarith [hx.2]
    nlinarith)
  have hdn := (gauss_interval m s d (c.hi i) ((a * s + d) ^ 2) hs).1 (by
    intro x hx
    rw [hhi] at hx
    have h1 : 0 ≤ x - m := by nlinarith [hx.1]
    have h2 : x - m ≤ a * s + d := by linarith [hx.2]
    nlinarith)
  have hpos : ENNReal.ofReal 0 < γ (Ico (c.lo i) (c.lo i + d)) := by
    have h := (gauss_interval m s d (c.lo i) ((a * s) ^ 2) hs).1 (by
      intro x hx
      rw [hlo] at hx
      have h1 : 0 ≤ m - x := by nlinarith [hx.2]
      have h2 : m - x ≤ a * s := by linarith [hx.1]
      nlinarith)
    refine lt_of_lt_of_le ((ENNReal.ofReal_lt_ofReal_iff ?_).2 ?_) h <;>
    · have : 0 < Real.sqrt (2 * Real.pi * s ^ 2) := Real.sqrt_pos.2 (by have := Real.pi_pos; positivity)
      have := Real.exp_pos (-(a * s) ^ 2 / (2 * s ^ 2))
      positivity
  have hhalf : ENNReal.ofReal (1 / 2) * γ (Ico (c.lo i) (c.lo i + d)) ≤ γ (Ico (c.hi i) (c.hi i + d)) := by
    refine le_trans (mul_le_mul_right hup _) (le_trans ?_ hdn)
    rw [← ENNReal.ofReal_mul (by norm_num)]
    apply ENNReal.ofReal_le_ofReal
    have h1 : Real.exp (-(a * s + d) ^ 2 / (2 * s ^ 2)) =
        Real.exp (-(a * s - d) ^ 2 / (2 * s ^ 2)) * Real.exp (-(1 / 2)) := by
      rw [← Real.exp_add]
      congr 1
      have : (a * s + d) ^ 2 = (a * s - d) ^ 2 + s ^ 2 := by
        have : (a * s + d) ^ 2 - (a * s - d) ^ 2 = s * (d * (4 * a)) := by ring
        rw [hda] at this; linarith
      rw [this]
      field_simp
      ring
    have h2 : (1 : ℝ) / 2 ≤ Real.exp (-(1 / 2)) := by
      have := Real.add_one_le_exp (-(1 / 2) : ℝ); linarith
    rw [h1]
    have h3 : 0 ≤ (Real.sqrt (2 * Real.pi * s ^ 2))⁻¹ * Real.exp (-(a * s - d) ^ 2 / (2 * s ^ 2)) * d :=
      mul_nonneg (mul_nonneg (inv_nonneg.2 (Real.sqrt_nonneg _)) (Real.exp_pos _).le) hdp.le
    nlinarith
  have hfin : γ (Ico (c.lo i) (c.lo i + d)) ≠ ∞ := measure_ne_top _ _
  generalize γ (Ico (c.lo i) (c.lo i + d)) = p at *
  have h1 : (p + ENNReal.ofReal (1 / 2) * p) * ENNReal.ofReal (3 / 4) ≤ p := by
    refine le_trans ?_ key.le
    exact mul_le_mul' ((add_le_add_right hhalf p).trans hge) hcen
  lift p to ℝ≥0 using hfin
  have h2 : ((p : ℝ) + 1 / 2 * p) * (3 / 4) ≤ p := by
    have := ENNReal.toReal_mono ENNReal.coe_ne_top h1
    rw [ENNReal.toReal_mul, ENNReal.toReal_add ENNReal.coe_ne_top (ENNReal.mul_ne_top ENNReal.ofReal_ne_top ENNReal.coe_ne_top),
      ENNReal.toReal_mul, ENNReal.toReal_ofReal (by norm_num), ENNReal.toReal_ofReal (by norm_num), ENNReal.coe_toReal] at this
    exact this
  have h3 : (0 : ℝ) < p := by simpa using hpos
  linarith

end Mica
