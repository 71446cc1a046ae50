import Verif.Proof.Mock
import Mathlib.MeasureTheory.Integral.Bochner.Basic
import Mathlib.Analysis.SumIntegralComparisons
import Mathlib.Analysis.SpecialFunctions.ImproperIntegrals

namespace Mica

open Finset MeasureTheory

/-! ## White noise -/

theorem white_bilinear {Ω : Type*} [MeasurableSpace Ω] {P : Measure Ω} {ξ : ℕ → Ω → ℝ}
    (hint : ∀ i j, Integrable (fun ω => ξ i ω * ξ j ω) P)
    (hw : ∀ i j, ∫ ω, ξ i ω * ξ j ω ∂P = if i = j then 1 else 0) (M : ℕ) (a b : ℕ → ℝ) :
    ∫ ω, (∑ p ∈ range M, a p * ξ p ω) * (∑ p ∈ range M, b p * ξ p ω) ∂P = ∑ p ∈ range M, a p * b p := by
  have h1 : ∀ ω, (∑ p ∈ range M, a p * ξ p ω) * (∑ p ∈ range M, b p * ξ p ω) =
      ∑ p ∈ range M, ∑ p' ∈ range M, a p * b p' * (ξ p ω * ξ p' ω) := by
    intro ω
    rw [Finset.sum_mul_sum]
    exact Finset.sum_congr rfl fun p _ => Finset.sum_congr rfl fun p' _ => by ring
  simp only [h1]
  rw [integral_finsetSum _ fun p _ => integrable_finsetSum _ fun p' _ => (hint p p').const_mul _]
  refine Finset.sum_congr rfl fun p hp => ?_
  rw [integral_finsetSum _ fun p' _ => (hint p p').const_mul _]
  simp only [integral_const_mul, hw]
  rw [Finset.sum_eq_single p]
  · simp
  · intro p' _ hne
    rw [if_neg (Ne.symm hne), mul_zero]
  · intro h; exact absurd hp h

theorem sum_pairs (h : ℕ) (f : ℕ → ℝ) :
    ∑ p ∈ range (2 * h), f p = ∑ k ∈ range h, (f (2 * k) + f (2 * k + 1)) := by
  induction h with
  | zero => simp
  | succ h ih =>
    rw [show 2 * (h + 1) = 2 * h + 1 + 1 by ring, Finset.sum_range_succ, Finset.sum_range_succ, ih,
      Finset.sum_range_succ]
    ring

/-! ## The simulated curve as a sum over the random numbers -/

theorem rootPow_re_im (N : ℕ) (j : ℤ) :
    (rootPow N j).re = Real.cos (2 * Real.pi * j / N) ∧ (rootPow N j).im = Real.sin (2 * Real.pi * j / N) := by
  have : rootPow N j = Complex.exp ((2 * Real.pi * j / N : ℝ) * Complex.I) := by
    unfold rootPow
    congr 1
    push_cast; ring
  rw [this]
  exact ⟨Complex.exp_ofReal_mul_I_re _, Complex.exp_ofReal_mul_I_im _⟩

/-- The random numbers in one sequence. -/
def mockDrawOf (x : ℕ → ℝ) : MockDraw := ⟨x 0, fun k => x (2 * k), fun k => x (2 * k + 1), x 1⟩

/-- Coefficient of the random number `p` in `mockFs`, apart from the overall factor. -/
noncomputable def mockCoef (h : ℕ) (amp W DT : ℝ) (s : ℝ → ℝ) (m p : ℕ) : ℝ :=
  let N := 2 * h
  let k := p / 2
  let c := amp * s (1 / ((N : ℕ) * DT / W) * k) / Real.sqrt 2
  if p = 0 then 1
  else if p = 1 then amp * s (1 / ((N : ℕ) * DT / W) * h) * (-1) ^ m
  else if p % 2 = 0 then 2 * c * Real.cos (2 * Real.pi * ((k : ℤ) * m : ℤ) / (N : ℕ))
  else - (2 * c * Real.sin (2 * Real.pi * ((k : ℤ) * m : ℤ) / (N : ℕ)))

theorem mockFs_linear (h : ℕ) (hh : 0 < h) (amp W DT : ℝ) (s : ℝ → ℝ) (x : ℕ → ℝ) (m : ℕ) :
    npIrfft (2 * h) (mockWork (2 * h) amp W DT s (mockDrawOf x)) m * (2 * h : ℕ) =
      ∑ p ∈ range (2 * h), mockCoef h amp W DT s m p * x p := by
  have hN : ((2 * h : ℕ) : ℝ) ≠ 0 := by exact_mod_cast (by omega)
  unfold npIrfft
  rw [div_mul_cancel₀ _ hN, if_pos (by omega), sum_pairs]
  obtain ⟨g, rfl⟩ : ∃ g, h = g + 1 := ⟨h - 1, by omega⟩
  rw [Finset.sum_range_succ']
  have e0 : (mockWork (2 * (g + 1)) amp W DT s (mockDrawOf x) 0).re = x 0 := by
    simp [mockWork, mockDrawOf]
  have eN : (mockWork (2 * (g + 1)) amp W DT s (mockDrawOf x) (2 * (g + 1) / 2)).re =
      amp * s (1 / ((2 * (g + 1) : ℕ) * DT / W) * (g + 1 : ℕ)) * x 1 := by
    have : 2 * (g + 1) / 2 = g + 1 := by omega
    unfold mockWork
    dsimp only
    rw [this, if_neg (by omega), if_neg (by omega)]
    rfl
  have eS : 2 * ∑ k ∈ Finset.Ioc 0 ((2 * (g + 1) - 1) / 2),
      (mockWork (2 * (g + 1)) amp W DT s (mockDrawOf x) k * rootPow (2 * (g + 1)) ((k : ℤ) * m)).re =
      ∑ k ∈ range g, (mockCoef (g + 1) amp W DT s m (2 * (k + 1)) * x (2 * (k + 1)) +
        mockCoef (g + 1) amp W DT s m (2 * (k + 1) + 1) * x (2 * (k + 1) + 1)) := by
    rw [show (2 * (g + 1) - 1) / 2 = g by omega, Finset.mul_sum]
    rw [show Finset.Ioc 0 g = Finset.Ico 1 (g + 1) by ext; simp; omega, Finset.sum_Ico_eq_sum_range]
    refine Finset.sum_congr (by simp) fun k hk => ?_
    have hk : k < g := by simpa using hk
    rw [show 1 + k = k + 1 by ring]
    obtain ⟨r1, r2⟩ := rootPow_re_im (2 * (g + 1)) (((k + 1 : ℕ) : ℤ) * m)
    unfold mockWork mockCoef
    dsimp only
    rw [if_neg (by omega), if_pos (by omega), if_neg (by omega), if_neg (by omega), if_pos (by omega),
      if_neg (by omega), if_neg (by omega), if_neg (by omega),
      show 2 * (k + 1) / 2 = k + 1 by omega, show (2 * (k + 1) + 1) / 2 = k + 1 by omega]
    simp only [Complex.mul_re, Complex.mul_im, Complex.add_re, Complex.add_im, Complex.ofReal_re,
      Complex.ofReal_im, Complex.I_re, Complex.I_im, r1, r2, mockDrawOf]
    ring
  rw [e0, eN, eS]
  have c0 : mockCoef (g + 1) amp W DT s m (2 * 0) = 1 := by simp [mockCoef]
  have c1 : mockCoef (g + 1) amp W DT s m (2 * 0 + 1) =
      amp * s (1 / ((2 * (g + 1) : ℕ) * DT / W) * (g + 1 : ℕ)) * (-1) ^ m := by simp [mockCoef]
  rw [c0, c1]
  ring

theorem mockCoef_prod (h : ℕ) (hh : 0 < h) (amp W DT : ℝ) (s : ℝ → ℝ) (m m' : ℕ) :
    ∑ p ∈ range (2 * h), mockCoef h amp W DT s m p * mockCoef h amp W DT s m' p =
      1 + 2 * amp ^ 2 * ∑ k ∈ Finset.Ico 1 h, s (1 / ((2 * h : ℕ) * DT / W) * k) ^ 2 *
          Real.cos (2 * Real.pi * k * ((m : ℝ) - m') / (2 * h : ℕ)) +
        amp ^ 2 * s (1 / ((2 * h : ℕ) * DT / W) * h) ^ 2 * (-1) ^ (m + m') := by
  rw [sum_pairs]
  obtain ⟨g, rfl⟩ : ∃ g, h = g + 1 := ⟨h - 1, by omega⟩
  rw [Finset.sum_range_succ', Finset.sum_Ico_eq_sum_range, Finset.mul_sum]
  have eS : ∑ k ∈ range g, (mockCoef (g + 1) amp W DT s m (2 * (k + 1)) * mockCoef (g + 1) amp W DT s m' (2 * (k + 1)) +
        mockCoef (g + 1) amp W DT s m (2 * (k + 1) + 1) * mockCoef (g + 1) amp W DT s m' (2 * (k + 1) + 1)) =
      ∑ k ∈ range (g + 1 - 1), 2 * amp ^ 2 * (s (1 / ((2 * (g + 1) : ℕ) * DT / W) * (1 + k : ℕ)) ^ 2 *
          Real.cos (2 * Real.pi * (1 + k : ℕ) * ((m : ℝ) - m') / (2 * (g + 1) : ℕ))) := by
    refine Finset.sum_congr (by simp) fun k hk => ?_
    rw [show 1 + k = k + 1 by ring]
    unfold mockCoef
    dsimp only
    rw [if_neg (by omega), if_neg (by omega), if_pos (by omega), if_neg (by omega), if_neg (by omega),
      if_pos (by omega), if_neg (by omega), if_neg (by omega), if_neg (by omega), if_neg (by omega),
      if_neg (by omega), if_neg (by omega),
      show 2 * (k + 1) / 2 = k + 1 by omega, show (2 * (k + 1) + 1) / 2 = k + 1 by omega]
    have hc : 2 * Real.pi * ((k + 1 : ℕ) : ℝ) * ((m : ℝ) - m') / (2 * (g + 1) : ℕ) =
        2 * Real.pi * ((((k + 1 : ℕ) : ℤ) * m : ℤ) : ℝ) / (2 * (g + 1) : ℕ) -
        2 * Real.pi * ((((k + 1 : ℕ) : ℤ) * m' : ℤ) : ℝ) / (2 * (g + 1) : ℕ) := by
      push_cast; ring
    rw [hc, Real.cos_sub]
    have h2 : Real.sqrt 2 ^ 2 = 2 := Real.sq_sqrt (by norm_num)
    have h3 : Real.sqrt 2 ≠ 0 := by positivity
    generalize Real.cos (2 * Real.pi * ((((k + 1 : ℕ) : ℤ) * m : ℤ) : ℝ) / (2 * (g + 1) : ℕ)) = a1
    generalize Real.cos (2 * Real.pi * ((((k + 1 : ℕ) : ℤ) * m' : ℤ) : ℝ) / (2 * (g + 1) : ℕ)) = a2
    generalize Real.sin (2 * Real.pi * ((((k + 1 : ℕ) : ℤ) * m : ℤ) : ℝ) / (2 * (g + 1) : ℕ)) = a3
    generalize Real.sin (2 * Real.pi * ((((k + 1 : ℕ) : ℤ) * m' : ℤ) : ℝ) / (2 * (g + 1) : ℕ)) = a4
    generalize s _ = S
    field_simp
    rw [h2]; ring
  rw [eS]
  have c0 : ∀ m, mockCoef (g + 1) amp W DT s m (2 * 0) = 1 := fun m => by simp [mockCoef]
  have c1 : ∀ m, mockCoef (g + 1) amp W DT s m (2 * 0 + 1) =
      amp * s (1 / ((2 * (g + 1) : ℕ) * DT / W) * (g + 1 : ℕ)) * (-1) ^ m := fun m => by simp [mockCoef]
  rw [c0, c0, c1, c1, pow_add]
  ring

/-! ## The sum over frequencies is at most the integral -/

theorem lorentz_sum_le (A B : ℝ) (hA : 0 ≤ A) (hB : 0 < B) (n : ℕ) :
    ∑ k ∈ range n, A / (1 + (B * (k + 1 : ℕ)) ^ 2) ≤ A / B * (Real.pi / 2) := by
  have hanti : AntitoneOn (fun x : ℝ => A / (1 + (B * x) ^ 2)) (Set.Icc (0 : ℝ) (0 + n)) := by
    intro x hx y _ hxy
    have h0 : 0 ≤ B * x := mul_nonneg hB.le hx.1
    have h1 : B * x ≤ B * y := mul_le_mul_of_nonneg_left hxy hB.le
    dsimp only
    gcongr
  have h := hanti.sum_le_integral
  simp only [zero_add] at h
  refine h.trans ?_
  have h1 : ∫ x in (0 : ℝ)..(n : ℝ), A / (1 + (B * x) ^ 2) = A * (B⁻¹ * Real.arctan (B * n)) := by
    have h2 : (fun x : ℝ => A / (1 + (B * x) ^ 2)) = fun x => A * (fun y : ℝ => (1 + y ^ 2)⁻¹) (B * x) := by
      funext x; rw [div_eq_mul_inv]
    rw [h2, intervalIntegral.integral_const_mul, intervalIntegral.integral_comp_mul_left (fun y : ℝ => (1 + y ^ 2)⁻¹) hB.ne',
      integral_inv_one_add_sq]
    simp
  rw [h1]
  have := (Real.arctan_lt_pi_div_two (B * n)).le
  have h3 : 0 ≤ A / B := div_nonneg hA hB.le
  calc A * (B⁻¹ * Real.arctan (B * n)) = A / B * Real.arctan (B * n) := by rw [div_eq_mul_inv]; ring
    _ ≤ _ := mul_le_mul_of_nonneg_left this h3

end Mica
