import Verif.Proof.Mock3
import Mathlib.Probability.ProductMeasure
import Mathlib.Probability.Distributions.Gaussian.Real
import Mathlib.Probability.Independence.InfinitePi
import Mathlib.Probability.Independence.Integration

/-!
# C133: the variance of the mock continuum (genmockdata.py)

"note that integrating PSD over (-infty, +infty) equals to variation of light curves"
(genmockdata.py:77-78, 107-108).
-/

namespace Mica

open Finset MeasureTheory

/-- Random numbers as `np.random.randn()` gives: mean zero, unit variance, no two correlated. -/
structure White {Ω : Type*} [MeasurableSpace Ω] (P : Measure Ω) (g : Ω → MockDraw) : Prop where
  seq : ∃ ξ : ℕ → Ω → ℝ,
    (∀ ω, g ω = ⟨ξ 0 ω, fun k => ξ (2 * k) ω, fun k => ξ (2 * k + 1) ω, ξ 1 ω⟩) ∧
    (∀ i, Integrable (ξ i) P ∧ ∫ ω, ξ i ω ∂P = 0) ∧
    (∀ i j, Integrable (fun ω => ξ i ω * ξ j ω) P) ∧
    ∀ i j, ∫ ω, ξ i ω * ξ j ω ∂P = if i = j then 1 else 0

/-- **C133, what the power spectrum stands for**: without white noise the spectrum of a damped random
walk integrates to `σ²`. -/
theorem C133_psd (sigma tau : ℝ) (ht : 0 < tau) : ∫ f : ℝ, psdDrw sigma tau 0 f = sigma ^ 2 := by
  have hb : (2 * Real.pi * tau) ≠ 0 := by positivity
  have h : (fun f : ℝ => psdDrw sigma tau 0 f) =
      fun f => 2 * sigma ^ 2 * tau * (fun y : ℝ => (1 + y ^ 2)⁻¹) (2 * Real.pi * tau * f) := by
    funext f
    unfold psdDrw
    dsimp only
    rw [add_zero, div_eq_mul_inv]
    congr 4
    field_simp
  rw [h, integral_const_mul, Measure.integral_comp_mul_left (fun y : ℝ => (1 + y ^ 2)⁻¹),
    integral_univ_inv_one_add_sq, abs_of_pos (by positivity)]
  simp only [smul_eq_mul]
  field_simp

/-- **C133, the exact law.**  The simulated curve has mean zero, and the covariance of the values at
steps `m` and `m'` depends on `m - m'` only (up to the parity of the Nyquist term, which is that of
`m - m'`): the discrete cosine transform of the spectrum at the frequencies `k W/(N DT)`, times
`amp²/(N DT)`. -/
theorem C133_cov_partial {Ω : Type*} [MeasurableSpace Ω] {P : Measure Ω} {g : Ω → MockDraw}
    (hg : White P g) (h : ℕ) (hh : 0 < h) (amp W : ℝ) {DT : ℝ} (hDT : 0 < DT) (s : ℝ → ℝ) (m m' : ℕ) :
    ∫ ω, mockFs (2 * h) amp W DT s (g ω) m ∂P = 0 ∧
    ∫ ω, mockFs (2 * h) amp W DT s (g ω) m * mockFs (2 * h) amp W DT s (g ω) m' ∂P =
      (1 + 2 * amp ^ 2 * ∑ k ∈ Finset.Ico 1 h, s (1 / ((2 * h : ℕ) * DT / W) * k) ^ 2 *
          Real.cos (2 * Real.pi * k * ((m : ℝ) - m') / (2 * h : ℕ)) +
        amp ^ 2 * s (1 / ((2 * h : ℕ) * DT / W) * h) ^ 2 * (-1) ^ (m + m')) / (2 * (2 * h : ℕ) * DT) := by
  obtain ⟨ξ, hξ, hmean, hint, hw⟩ := hg.seq
  have hN : (0 : ℝ) < (2 * h : ℕ) := by exact_mod_cast (by omega)
  set c : ℝ := 1 / Real.sqrt (2 * h : ℕ) * Real.sqrt ((2 * h : ℕ) / (2 * (2 * h : ℕ) * DT)) with hcdef
  have hc : c ^ 2 = 1 / (2 * (2 * h : ℕ) * DT) := by
    rw [hcdef, mul_pow, div_pow, Real.sq_sqrt hN.le, Real.sq_sqrt (by positivity)]
    field_simp
  have hfs : ∀ ω m, mockFs (2 * h) amp W DT s (g ω) m =
      c * ∑ p ∈ range (2 * h), mockCoef h amp W DT s m p * ξ p ω := by
    intro ω m
    have hd : g ω = mockDrawOf fun i => ξ i ω := hξ ω
    unfold mockFs
    rw [hd, mockFs_linear h hh, ← hcdef]
    ring
  constructor
  · simp only [hfs]
    rw [integral_const_mul, integral_finsetSum _ fun p _ => ((hmean p).1).const_mul _]
    simp only [integral_const_mul, (hmean _).2, mul_zero, Finset.sum_const_zero]
  · have : ∀ ω, mockFs (2 * h) amp W DT s (g ω) m * mockFs (2 * h) amp W DT s (g ω) m' =
        c ^ 2 * ((∑ p ∈ range (2 * h), mockCoef h amp W DT s m p * ξ p ω) *
          ∑ p ∈ range (2 * h), mockCoef h amp W DT s m' p * ξ p ω) := by
      intro ω; rw [hfs, hfs]; ring
    simp only [this]
    rw [integral_const_mul, white_bilinear hint hw, mockCoef_prod h hh, hc]
    ring

/-- **C133 is false: the variance is `W` times too small.**  With frequency step `df = W/(N DT)`, the
variance of a damped random walk simulated with the time step `DT/W` is at most
`(σ² + df/2 + cnoise W/DT)/W`. -/
theorem C133_variance {Ω : Type*} [MeasurableSpace Ω] {P : Measure Ω} {g : Ω → MockDraw}
    (hg : White P g) (h : ℕ) (hh : 0 < h) {W DT sigma tau cnoise : ℝ} (hW : 0 < W) (hDT : 0 < DT)
    (ht : 0 < tau) (hcn : 0 ≤ cnoise) (m : ℕ) :
    ∫ ω, mockFs (2 * h) (Real.sqrt 2) W DT (fun f => Real.sqrt (psdDrw sigma tau cnoise f)) (g ω) m ^ 2 ∂P ≤
      (sigma ^ 2 + W / ((2 * h : ℕ) * DT) / 2 + cnoise * W / DT) / W := by
  have hN : (0 : ℝ) < (2 * h : ℕ) := by exact_mod_cast (by omega)
  have hpsd : ∀ f, 0 ≤ psdDrw sigma tau cnoise f := by
    intro f; unfold psdDrw; dsimp only; positivity
  obtain ⟨-, hcov⟩ := C133_cov_partial hg h hh (Real.sqrt 2) W hDT
    (fun f => Real.sqrt (psdDrw sigma tau cnoise f)) m m
  simp only [sq] at hcov ⊢
  rw [hcov]
  simp only [Real.mul_self_sqrt (hpsd _), Real.mul_self_sqrt (show (0 : ℝ) ≤ 2 by norm_num), sub_self,
    mul_zero, zero_div, Real.cos_zero, mul_one]
  rw [show (-1 : ℝ) ^ (m + m) = 1 by rw [← two_mul, pow_mul]; norm_num, mul_one]
  set df : ℝ := 1 / ((2 * h : ℕ) * DT / W) with hdf
  have hdfp : 0 < df := by positivity
  -- the sum
  have hsum : ∑ k ∈ Finset.Ico 1 h, psdDrw sigma tau cnoise (df * k) + psdDrw sigma tau cnoise (df * h) =
      ∑ k ∈ range h, psdDrw sigma tau cnoise (df * (k + 1 : ℕ)) := by
    obtain ⟨g', rfl⟩ : ∃ g', h = g' + 1 := ⟨h - 1, by omega⟩
    rw [Finset.sum_range_succ, Finset.sum_Ico_eq_sum_range]
    congr 1
    refine Finset.sum_congr (by simp) fun k _ => ?_
    rw [show 1 + k = k + 1 by ring]
  have hterm : ∀ k : ℕ, psdDrw sigma tau cnoise (df * (k + 1 : ℕ)) =
      2 * sigma ^ 2 * tau / (1 + (2 * Real.pi * tau * df * (k + 1 : ℕ)) ^ 2) + cnoise := by
    intro k
    unfold psdDrw
    dsimp only
    congr 4
    field_simp
  have hle : ∑ k ∈ range h, psdDrw sigma tau cnoise (df * (k + 1 : ℕ)) ≤
      sigma ^ 2 / (2 * df) + h * cnoise := by
    simp only [hterm]
    rw [Finset.sum_add_distrib, Finset.sum_const, Finset.card_range, nsmul_eq_mul]
    have := lorentz_sum_le (2 * sigma ^ 2 * tau) (2 * Real.pi * tau * df) (by positivity) (by positivity) h
    have e : 2 * sigma ^ 2 * tau / (2 * Real.pi * tau * df) * (Real.pi / 2) = sigma ^ 2 / (2 * df) := by
      have := Real.pi_ne_zero
      field_simp
    rw [e] at this
    linarith
  have hh0 : 0 ≤ psdDrw sigma tau cnoise (df * h) := hpsd _
  have hnum : 1 + 2 * 2 * ∑ k ∈ Finset.Ico 1 h, psdDrw sigma tau cnoise (df * k) +
      2 * psdDrw sigma tau cnoise (df * h) ≤ 1 + 4 * (sigma ^ 2 / (2 * df) + h * cnoise) := by
    linarith
  refine (div_le_div_of_nonneg_right hnum (by positivity)).trans (le_of_eq ?_)
  rw [hdf]
  have hh' : (0 : ℝ) < h := by exact_mod_cast hh
  push_cast
  field_simp
  ring

/-- **C133 fails for `drw`**, whatever the length, as soon as there are 5 frequencies per `σ²`: the
variance of the mock continuum is at most a fifth of the `σ²` asked for. -/
theorem C133_fails {Ω : Type*} [MeasurableSpace Ω] {P : Measure Ω} {g : Ω → MockDraw}
    (hg : White P g) {tot sigma tau cnoise : ℝ} (ht : 0 < tau) (hs : sigma ≠ 0) (hcn : 0 ≤ cnoise)
    (hn : 0 < ⌊tot / 0.01⌋₊)
    (hlen : 10 / (⌊tot / 0.01⌋₊ : ℝ) / 2 + cnoise * 1000 ≤ sigma ^ 2) (i : ℕ) :
    ∫ ω, (mockDrw tot sigma tau cnoise (g ω) i - 1) ^ 2 ∂P ≤ sigma ^ 2 / 5 ∧
    ∫ ω, (mockDrw tot sigma tau cnoise (g ω) i - 1) ^ 2 ∂P ≠ sigma ^ 2 := by
  set nd := ⌊tot / 0.01⌋₊ with hnd
  have hle : ∫ ω, (mockDrw tot sigma tau cnoise (g ω) i - 1) ^ 2 ∂P ≤ sigma ^ 2 / 5 := by
    have hv := C133_variance hg (50 * nd) (by omega) (W := 10) (DT := 0.01) (sigma := sigma) (tau := tau)
      (cnoise := cnoise) (by norm_num) (by norm_num) ht hcn (i * 10)
    have e : ∀ ω, mockDrw tot sigma tau cnoise (g ω) i - 1 =
        mockFs (2 * (50 * nd)) (Real.sqrt 2) 10 0.01 (fun f => Real.sqrt (psdDrw sigma tau cnoise f)) (g ω)
          (i * 10) := by
      intro ω
      unfold mockDrw
      rw [← hnd, show 2 * (50 * nd) = 10 * 10 * nd by ring]
      ring
    simp only [e]
    refine hv.trans ?_
    have h1 : (10 : ℝ) / ((2 * (50 * nd) : ℕ) * 0.01) / 2 = 10 / (nd : ℝ) / 2 := by
      push_cast
      ring
    have h2 : cnoise * 10 / 0.01 = cnoise * 1000 := by ring
    rw [h1, h2]
    linarith
  refine ⟨hle, fun h => ?_⟩
  have : 0 < sigma ^ 2 := by positivity
  linarith

/-- The values of `simlc` with the default length: `σ = 0.3`, 50000 steps. -/
example {Ω : Type*} [MeasurableSpace Ω] {P : Measure Ω} {g : Ω → MockDraw} (hg : White P g) (i : ℕ) :
    ∫ ω, (mockDrw 500 0.3 50 1e-100 (g ω) i - 1) ^ 2 ∂P ≤ 0.3 ^ 2 / 5 := by
  have hn : ⌊(500 : ℝ) / 0.01⌋₊ = 50000 := by
    rw [Nat.floor_eq_iff (by norm_num)]; norm_num
  exact (C133_fails hg (by norm_num) (by norm_num) (by norm_num) (by rw [hn]; norm_num)
    (by rw [hn]; norm_num) i).1

open ProbabilityTheory in
/-- Independent standard normal numbers are such random numbers. -/
example : White (Measure.infinitePi fun _ : ℕ => gaussianReal 0 1)
    (fun ω : ℕ → ℝ => ⟨ω 0, fun k => ω (2 * k), fun k => ω (2 * k + 1), ω 1⟩) := by
  set P := Measure.infinitePi fun _ : ℕ => gaussianReal 0 1 with hP
  have hmp : ∀ i, MeasurePreserving (Function.eval i) P (gaussianReal 0 1) := fun i =>
    measurePreserving_eval_infinitePi _ i
  have hL : ∀ i, MemLp (fun ω : ℕ → ℝ => ω i) 2 P := fun i =>
    (memLp_id_gaussianReal' (μ := 0) (v := 1) 2 (by norm_num)).comp_measurePreserving (hmp i)
  have hmean : ∀ i, ∫ ω, ω i ∂P = 0 := by
    intro i
    have := integral_map (μ := P) (hmp i).measurable.aemeasurable (f := fun x : ℝ => x)
      (measurable_id.aestronglyMeasurable)
    rw [(hmp i).map_eq] at this
    exact this.symm.trans integral_id_gaussianReal
  refine ⟨fun i ω => ω i, fun ω => rfl, fun i => ⟨(hL i).integrable (by norm_num), hmean i⟩,
    fun i j => (hL i).integrable_mul (hL j), fun i j => ?_⟩
  by_cases h : i = j
  · subst h
    rw [if_pos rfl]
    have h1 := integral_map (μ := P) (hmp i).measurable.aemeasurable (f := fun x : ℝ => x * x)
      (by fun_prop)
    rw [(hmp i).map_eq] at h1
    refine h1.symm.trans ?_
    have hv : variance id (gaussianReal 0 1) = 1 := by
      rw [variance_id_gaussianReal]; rfl
    rw [variance_of_integral_eq_zero measurable_id.aemeasurable integral_id_gaussianReal] at hv
    simpa [sq] using hv
  · rw [if_neg h]
    have hi := (iIndepFun_infinitePi (P := fun _ : ℕ => gaussianReal 0 1) (X := fun _ x => x)
      (fun _ => measurable_id)).indepFun h
    rw [hi.integral_fun_mul_eq_mul_integral (hL i).1 (hL j).1, hmean, zero_mul]

end Mica
