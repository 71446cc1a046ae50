import Verif.Proof.BandError

/-! The limiting formulas of the covariance functions, compared with their values for equal timescales. -/

namespace Mica
open MeasureTheory Set Filter Topology

theorem mul_exp_neg_le (y : ℝ) : y * Real.exp (-y) ≤ 1 := by
  have h := Real.add_one_le_exp y
  have : Real.exp y * Real.exp (-y) = 1 := by rw [← Real.exp_add]; simp
  have h0 := Real.exp_pos (-y)
  nlinarith

theorem sq_mul_exp_neg_le {y : ℝ} (hy : 0 ≤ y) : y ^ 2 * Real.exp (-y) ≤ 1 := by
  have h := mul_exp_neg_le (y / 2)
  have h2 : Real.exp (-y) = Real.exp (-(y / 2)) * Real.exp (-(y / 2)) := by rw [← Real.exp_add]; congr 1; ring
  have hb : y / 2 * Real.exp (-(y / 2)) ≤ 1 / 2 := by
    have h3 := Real.add_one_le_exp (y / 2 - 1)
    have h4 : Real.exp (y / 2 - 1) = Real.exp (y / 2) * Real.exp (-1) := by rw [← Real.exp_add]; rfl
    have h5 : Real.exp (y / 2) * Real.exp (-(y / 2)) = 1 := by rw [← Real.exp_add]; simp
    have h6 : Real.exp (-1) ≤ 1 / 2 := by
      rw [Real.exp_neg, one_div]
      exact inv_anti₀ (by norm_num) (by have := Real.add_one_le_exp (1 : ℝ); linarith)
    have h7 := Real.exp_pos (-(y / 2))
    have h8 := Real.exp_pos (y / 2)
    calc y / 2 * Real.exp (-(y / 2)) ≤ (Real.exp (y / 2) * Real.exp (-1)) * Real.exp (-(y / 2)) :=
          mul_le_mul_of_nonneg_right (by linarith) h7.le
      _ = Real.exp (-1) := by rw [mul_right_comm, h5, one_mul]
      _ ≤ 1 / 2 := h6
  have h0 : 0 ≤ y / 2 * Real.exp (-(y / 2)) := by positivity
  rw [h2]
  nlinarith

theorem abs_mul_le_of {a b A B : ℝ} (ha : |a| ≤ A) (hb : |b| ≤ B) : |a * b| ≤ A * B := by
  rw [abs_mul]; exact mul_le_mul ha hb (abs_nonneg _) ((abs_nonneg _).trans ha)

theorem half_inv {q : ℝ} (hq : 0 ≤ q) : |1 / (1 + q) - 1 / 2| ≤ |1 - q| / 2 := by
  rw [show 1 / (1 + q) - 1 / 2 = (1 - q) / 2 * (1 / (1 + q)) by field_simp; ring]
  have h : |1 / (1 + q)| ≤ 1 := by rw [abs_of_pos (by positivity), div_le_one (by positivity)]; linarith
  calc |(1 - q) / 2 * (1 / (1 + q))| ≤ |(1 - q) / 2| * 1 := abs_mul_le_of le_rfl h
    _ = |1 - q| / 2 := by rw [mul_one, abs_div, abs_two]

theorem quart_inv {q : ℝ} (hq : 0 ≤ q) : |1 / (1 + q) ^ 2 - 1 / 4| ≤ 3 / 4 * |1 - q| := by
  rw [show 1 / (1 + q) ^ 2 - 1 / 4 = (3 + q) / (4 * (1 + q) ^ 2) * (1 - q) by field_simp; ring]
  refine abs_mul_le_of ?_ le_rfl
  rw [abs_of_pos (by positivity), div_le_div_iff₀ (by positivity) (by norm_num)]
  nlinarith [sq_nonneg q]

/-- The part of the line-line formula that belongs to the second response alone. -/
theorem gdiff {q r : ℝ} (hq : 0 < q) (hr : 0 < r) :
    |q / ((1 + q) * (r + q)) - 1 / (2 * (1 + r))| ≤ |1 - q| / 2 := by
  rw [show q / ((1 + q) * (r + q)) - 1 / (2 * (1 + r)) = (1 - q) / 2 * ((q - r) / (r + q) * (1 / ((1 + q) * (1 + r)))) by
    field_simp; ring]
  have h1 : |(q - r) / (r + q)| ≤ 1 := by
    rw [abs_div, abs_of_pos (show 0 < r + q by positivity), div_le_one (by positivity)]
    exact abs_le.2 ⟨by linarith, by linarith⟩
  have h2 : |1 / ((1 + q) * (1 + r))| ≤ 1 := by
    rw [abs_of_pos (by positivity), div_le_one (by positivity)]; nlinarith [mul_pos hq hr]
  calc |(1 - q) / 2 * ((q - r) / (r + q) * (1 / ((1 + q) * (1 + r))))| ≤ |(1 - q) / 2| * (1 * 1) :=
        abs_mul_le_of le_rfl (abs_mul_le_of h1 h2)
    _ = |1 - q| / 2 := by rw [mul_one, mul_one, abs_div, abs_two]

theorem inv_near {q : ℝ} (hq : 1 / 2 ≤ q) : |1 / q - 1| ≤ 2 * |1 - q| := by
  have : 0 < q := by linarith
  rw [show 1 / q - 1 = 1 / q * (1 - q) by field_simp]
  refine abs_mul_le_of ?_ le_rfl
  rw [abs_of_pos (by positivity), div_le_iff₀ this]; linarith

theorem inv_sq_near {q : ℝ} (hq : 9 / 10 ≤ q) : |1 / q ^ 2 - 1| ≤ 3 * |1 - q| := by
  have : 0 < q := by linarith
  rw [show 1 / q ^ 2 - 1 = (1 + q) / q ^ 2 * (1 - q) by field_simp; ring]
  refine abs_mul_le_of ?_ le_rfl
  rw [abs_of_pos (by positivity), div_le_iff₀ (by positivity)]; nlinarith

/-- Exponential and continuum: limiting formula. -/
theorem limExpC {q y : ℝ} (hq : 0 ≤ q) (hy : 0 ≤ y) :
    |Real.exp (-y) * (y + 1 / (1 + q)) - Real.exp (-y) * (y + 1 / 2)| ≤ |1 - q| / 2 := by
  rw [show Real.exp (-y) * (y + 1 / (1 + q)) - Real.exp (-y) * (y + 1 / 2) = Real.exp (-y) * (1 / (1 + q) - 1 / 2) by ring]
  have h : |Real.exp (-y)| ≤ 1 := by rw [Real.abs_exp]; exact Real.exp_le_one_iff.2 (by linarith)
  simpa using abs_mul_le_of h (half_inv hq)

/-- Gamma function and continuum: limiting formula. -/
theorem limGamC {q y : ℝ} (hq : 0 ≤ q) (hy : 0 ≤ y) :
    |Real.exp (-y) * (y * y / 2 + ((1 + q) * y + 1) / (1 + q) / (1 + q)) - Real.exp (-y) * (y * y / 2 + (2 * y + 1) / 2 / 2)|
      ≤ 2 * |1 - q| := by
  have hq1 : 1 + q ≠ 0 := by positivity
  rw [show Real.exp (-y) * (y * y / 2 + ((1 + q) * y + 1) / (1 + q) / (1 + q)) - Real.exp (-y) * (y * y / 2 + (2 * y + 1) / 2 / 2) =
    y * Real.exp (-y) * (1 / (1 + q) - 1 / 2) + Real.exp (-y) * (1 / (1 + q) ^ 2 - 1 / 4) by
      generalize Real.exp (-y) = X; field_simp; ring]
  have h : |Real.exp (-y)| ≤ 1 := by rw [Real.abs_exp]; exact Real.exp_le_one_iff.2 (by linarith)
  have h2 : |y * Real.exp (-y)| ≤ 1 := by rw [abs_of_nonneg (by positivity)]; exact mul_exp_neg_le y
  refine (abs_add_le _ _).trans ?_
  have e1 := abs_mul_le_of h2 (half_inv hq)
  have e2 := abs_mul_le_of h (quart_inv hq)
  have := abs_nonneg (1 - q)
  linarith

/-- Two exponentials: limiting formula. -/
theorem limExpExp {q r y : ℝ} (hq : 1 / 2 ≤ q) (hr : 0 < r) (hy : 0 ≤ y) :
    |Real.exp (-y) * (y / q / (1 + r) + r / q * 1 / (1 + r) / (1 + r) + 1 / ((1 + q) * ((r + q) / q))) -
      Real.exp (-y) * (y / 1 / (1 + r) + r / 1 * 1 / (1 + r) / (1 + r) + 1 / ((1 + 1) * ((r + 1) / 1)))| ≤ 3 * |1 - q| := by
  have hq0 : 0 < q := by linarith
  rw [show Real.exp (-y) * (y / q / (1 + r) + r / q * 1 / (1 + r) / (1 + r) + 1 / ((1 + q) * ((r + q) / q))) -
      Real.exp (-y) * (y / 1 / (1 + r) + r / 1 * 1 / (1 + r) / (1 + r) + 1 / ((1 + 1) * ((r + 1) / 1))) =
    (1 / q - 1) * (y * Real.exp (-y) * (1 / (1 + r)) + Real.exp (-y) * (r / (1 + r) ^ 2)) +
      Real.exp (-y) * (q / ((1 + q) * (r + q)) - 1 / (2 * (1 + r))) by
    generalize Real.exp (-y) = X; field_simp; ring]
  have h : |Real.exp (-y)| ≤ 1 := by rw [Real.abs_exp]; exact Real.exp_le_one_iff.2 (by linarith)
  have h2 : |y * Real.exp (-y)| ≤ 1 := by rw [abs_of_nonneg (by positivity)]; exact mul_exp_neg_le y
  have h3 : |1 / (1 + r)| ≤ 1 := by rw [abs_of_pos (by positivity), div_le_one (by positivity)]; linarith
  have h4 : |r / (1 + r) ^ 2| ≤ 1 / 4 := by
    rw [abs_of_pos (by positivity), div_le_div_iff₀ (by positivity) (by norm_num)]; nlinarith [sq_nonneg (1 - r)]
  have e1 := abs_mul_le_of (inv_near hq) ((abs_add_le _ _).trans (add_le_add (abs_mul_le_of h2 h3) (abs_mul_le_of h h4)))
  have e2 := abs_mul_le_of h (gdiff hq0 hr)
  refine (abs_add_le _ _).trans ?_
  linarith

/-- Two gamma functions: limiting formula. -/
theorem limGamGam {q r y : ℝ} (hq : 9 / 10 ≤ q) (hr : 0 < r) (hy : 0 ≤ y) :
    |Real.exp (-y) * ((1 / q ^ 2) * (3 * r ^ 2 / (1 + r) ^ 4 + 2 * r * y / (1 + r) ^ 3 + y ^ 2 / (2 * (1 + r) ^ 2)) +
        ((q / ((1 + q) * (r + q))) ^ 2 + y * (q / ((1 + q) * (r + q))) / (r + q) +
          2 * (q / ((1 + q) * (r + q))) * (r * q / (r + q) ^ 2))) -
      Real.exp (-y) * (3 * r ^ 2 / (1 + r) ^ 4 + 2 * r * y / (1 + r) ^ 3 + y ^ 2 / (2 * (1 + r) ^ 2) +
        ((1 / (2 * (1 + r))) ^ 2 + y * (1 / (2 * (1 + r))) / (r + 1) + 2 * (1 / (2 * (1 + r))) * (r * 1 / (r + 1) ^ 2)))|
      ≤ 10 * |1 - q| := by
  have hq0 : 0 < q := by linarith
  set g := q / ((1 + q) * (r + q)) with hg
  set g1 := 1 / (2 * (1 + r)) with hg1
  set h := r * q / (r + q) ^ 2 with hh
  set h1 := r * 1 / (r + 1) ^ 2 with hh1
  have hX : |Real.exp (-y)| ≤ 1 := by rw [Real.abs_exp]; exact Real.exp_le_one_iff.2 (by linarith)
  have hyX : |y * Real.exp (-y)| ≤ 1 := by rw [abs_of_nonneg (by positivity)]; exact mul_exp_neg_le y
  have hyyX : |y ^ 2 * Real.exp (-y)| ≤ 1 := by rw [abs_of_nonneg (by positivity)]; exact sq_mul_exp_neg_le hy
  have gd : |g - g1| ≤ |1 - q| / 2 := gdiff hq0 hr
  have gp : 0 < g := by positivity
  have g1p : 0 < g1 := by positivity
  have gl : g ≤ 1 := by
    rw [hg, div_le_one (by positivity)]; nlinarith [mul_pos hq0 hr]
  have g1l : g1 ≤ 1 / 2 := by
    rw [hg1, div_le_div_iff₀ (by positivity) (by norm_num)]; nlinarith
  have hp : 0 < h := by positivity
  have hl : h ≤ 1 / 4 := by
    rw [hh, div_le_div_iff₀ (by positivity) (by norm_num)]; nlinarith [sq_nonneg (r - q)]
  have hd : |h - h1| ≤ 2 * |1 - q| := by
    rw [hh, hh1, show r * q / (r + q) ^ 2 - r * 1 / (r + 1) ^ 2 = -(r * (r ^ 2 - q) / ((r + q) ^ 2 * (r + 1) ^ 2)) * (1 - q) by
      field_simp; ring]
    refine abs_mul_le_of ?_ le_rfl
    rw [abs_neg, abs_div, abs_of_pos (show 0 < (r + q) ^ 2 * (r + 1) ^ 2 by positivity), div_le_iff₀ (by positivity)]
    have hrq := mul_pos hr hq0
    have b0 : (0:ℝ) < r ^ 2 := by positivity
    have b1 : r ^ 3 ≤ (r + q) ^ 2 * (r + 1) ^ 2 := by
      have c1 : r ^ 2 ≤ (r + q) ^ 2 := by nlinarith
      have c2 : r ≤ (r + 1) ^ 2 := by nlinarith
      calc r ^ 3 = r ^ 2 * r := by ring
        _ ≤ _ := mul_le_mul c1 c2 hr.le (by positivity)
    have b2 : r * q ≤ (r + q) ^ 2 * (r + 1) ^ 2 := by
      have c1 : r * q ≤ (r + q) ^ 2 := by nlinarith
      have c2 : 1 ≤ (r + 1) ^ 2 := by nlinarith
      calc r * q = r * q * 1 := by ring
        _ ≤ _ := mul_le_mul c1 c2 (by norm_num) (by positivity)
    rw [abs_le]; constructor <;> nlinarith [mul_pos hr b0]
  have A1 : |3 * (r ^ 2 / (1 + r) ^ 4)| ≤ 3 / 16 := by
    rw [abs_of_pos (by positivity)]
    have : r ^ 2 / (1 + r) ^ 4 ≤ 1 / 16 := by
      rw [div_le_div_iff₀ (by positivity) (by norm_num)]
      have : 4 * r ≤ (1 + r) ^ 2 := by nlinarith [sq_nonneg (1 - r)]
      calc r ^ 2 * 16 = (4 * r) * (4 * r) := by ring
        _ ≤ (1 + r) ^ 2 * (1 + r) ^ 2 := mul_le_mul this this (by positivity) (by positivity)
        _ = 1 * (1 + r) ^ 4 := by ring
    linarith
  have A2 : |2 * (r / (1 + r) ^ 3)| ≤ 1 / 2 := by
    rw [abs_of_pos (by positivity)]
    have : r / (1 + r) ^ 3 ≤ 1 / 4 := by
      rw [div_le_div_iff₀ (by positivity) (by norm_num)]
      nlinarith [sq_nonneg (1 - r), mul_nonneg hr.le (sq_nonneg (1 + r)), sq_nonneg (1 + r)]
    linarith
  have A3 : |1 / (2 * (1 + r) ^ 2)| ≤ 1 / 2 := by
    rw [abs_of_pos (by positivity), div_le_div_iff₀ (by positivity) (by norm_num)]; nlinarith
  have iq : |1 / (r + q)| ≤ 10 / 9 := by
    rw [abs_of_pos (by positivity), div_le_div_iff₀ (by positivity) (by norm_num)]; linarith
  have ir : |1 / (r + 1)| ≤ 1 := by
    rw [abs_of_pos (by positivity), div_le_one (by positivity)]; linarith
  rw [show Real.exp (-y) * ((1 / q ^ 2) * (3 * r ^ 2 / (1 + r) ^ 4 + 2 * r * y / (1 + r) ^ 3 + y ^ 2 / (2 * (1 + r) ^ 2)) +
        (g ^ 2 + y * g / (r + q) + 2 * g * h)) -
      Real.exp (-y) * (3 * r ^ 2 / (1 + r) ^ 4 + 2 * r * y / (1 + r) ^ 3 + y ^ 2 / (2 * (1 + r) ^ 2) +
        (g1 ^ 2 + y * g1 / (r + 1) + 2 * g1 * h1)) =
    (1 / q ^ 2 - 1) * (Real.exp (-y) * (3 * (r ^ 2 / (1 + r) ^ 4)) + y * Real.exp (-y) * (2 * (r / (1 + r) ^ 3)) +
        y ^ 2 * Real.exp (-y) * (1 / (2 * (1 + r) ^ 2))) +
    (Real.exp (-y) * ((g - g1) * (g + g1)) +
      y * Real.exp (-y) * ((g - g1) * (1 / (r + q)) + g1 * ((1 - q) * (1 / (r + q) * (1 / (r + 1))))) +
      Real.exp (-y) * (2 * ((g - g1) * h + g1 * (h - h1)))) by
    generalize Real.exp (-y) = X
    clear_value g g1 h h1
    field_simp; ring]
  have n := abs_nonneg (1 - q)
  have agg : |g + g1| ≤ 3 / 2 := by rw [abs_of_pos (by positivity)]; linarith
  have ag1 : |g1| ≤ 1 / 2 := by rw [abs_of_pos g1p]; exact g1l
  have ah : |h| ≤ 1 / 4 := by rw [abs_of_pos hp]; exact hl
  have e1 := abs_mul_le_of (inv_sq_near hq) ((abs_add_le _ _).trans (add_le_add ((abs_add_le _ _).trans
    (add_le_add (abs_mul_le_of hX A1) (abs_mul_le_of hyX A2))) (abs_mul_le_of hyyX A3)))
  have e2 := abs_mul_le_of hX (abs_mul_le_of gd agg)
  have e3 := abs_mul_le_of hyX ((abs_add_le _ _).trans (add_le_add (abs_mul_le_of gd iq)
    (abs_mul_le_of ag1 (abs_mul_le_of (le_refl |1 - q|) (abs_mul_le_of iq ir)))))
  have e4 := abs_mul_le_of hX (abs_mul_le_of (le_of_eq (abs_two : |(2:ℝ)| = 2)) ((abs_add_le _ _).trans
    (add_le_add (abs_mul_le_of gd ah) (abs_mul_le_of ag1 hd))))
  refine (abs_add_le _ _).trans ((add_le_add e1 ((abs_add_le _ _).trans (add_le_add ((abs_add_le _ _).trans (add_le_add e2 e3)) e4))).trans ?_)
  linarith

end Mica
