import Verif.Model.Semisep
import Verif.Spec.Cov
import Mathlib.LinearAlgebra.Matrix.Block
import Mathlib.LinearAlgebra.Matrix.PosDef
import Mathlib.Tactic

/-! Helper lemmas about the semiseparable solver. -/

namespace Mica

open Matrix Finset

section
variable {t : ℕ → ℝ} {a c : ℝ} {sigma : ℕ → ℝ} {syserr : ℝ}

/-- `S` of the loop. -/
noncomputable def ssS (t : ℕ → ℝ) (a1 c1 : ℝ) (sigma : ℕ → ℝ) (syserr : ℝ) (i : ℕ) : ℝ :=
  (ssState t a1 c1 sigma syserr i).1

theorem ssS_zero : ssS t a c sigma syserr 0 = 0 := rfl

theorem ssS_succ (i : ℕ) : ssS t a c sigma syserr (i + 1) =
    ssPhi t c (i + 1) * ssPhi t c (i + 1) * (ssS t a c sigma syserr i +
      ssD t a c sigma syserr i * ssW t a c sigma syserr i * ssW t a c sigma syserr i) := rfl

theorem ssD_eq (i : ℕ) : ssD t a c sigma syserr i =
    sigma i * sigma i + syserr * syserr + a - a * a * ssS t a c sigma syserr i := by
  cases i with
  | zero => simp [ssD, ssState, ssS]
  | succ i => rfl

theorem ssW_eq (i : ℕ) : ssW t a c sigma syserr i =
    1 / ssD t a c sigma syserr i * (1 - a * ssS t a c sigma syserr i) := by
  cases i with
  | zero => simp [ssD, ssState, ssS, ssW]
  | succ i => rfl

/-- Positivity of the pivots. -/
theorem ss_pos (ha : 0 < a) (hc : 0 < c) {n : ℕ} (hmono : ∀ i, i + 1 < n → t i ≤ t (i + 1))
    (hN : (∀ i < n, 0 < sigma i * sigma i + syserr * syserr) ∨ ∀ i, i + 1 < n → t i < t (i + 1)) :
    ∀ i < n, 0 ≤ ssS t a c sigma syserr i ∧ a * ssS t a c sigma syserr i ≤ 1 ∧
      0 < ssD t a c sigma syserr i := by
  have hnn : ∀ i, 0 ≤ sigma i * sigma i + syserr * syserr := fun i => by nlinarith [mul_self_nonneg (sigma i), mul_self_nonneg syserr]
  intro i
  induction i with
  | zero =>
    intro _
    refine ⟨by simp [ssS_zero], by simp [ssS_zero], ?_⟩
    rw [ssD_eq, ssS_zero]
    have := hnn 0
    nlinarith
  | succ i ih =>
    intro hi
    obtain ⟨h1, h2, h3⟩ := ih (by omega)
    set S := ssS t a c sigma syserr i with hS
    set D := ssD t a c sigma syserr i with hD
    set W := ssW t a c sigma syserr i with hW
    have hDe : D = sigma i * sigma i + syserr * syserr + a - a * a * S := ssD_eq i
    have hWe : W = 1 / D * (1 - a * S) := ssW_eq i
    have hDW : D * W = 1 - a * S := by rw [hWe]; field_simp
    have hDWW : D * W * W = (1 - a * S) * (1 - a * S) / D := by rw [hDW, hWe]; ring
    have hq : 0 ≤ D * W * W := by
      rw [hDWW]; exact div_nonneg (mul_self_nonneg _) h3.le
    have hq2 : a * (S + D * W * W) ≤ 1 := by
      rw [hDWW]
      have : a * ((1 - a * S) * (1 - a * S) / D) ≤ 1 - a * S := by
        rw [mul_div_assoc', div_le_iff₀ h3]
        have := hnn i
        nlinarith
      linarith
    have hph : 0 < ssPhi t c (i + 1) ∧ ssPhi t c (i + 1) ≤ 1 := by
      refine ⟨Real.exp_pos _, ?_⟩
      simp only [ssPhi]
      rw [Real.exp_le_one_iff]
      have := hmono i hi
      nlinarith
    set φ := ssPhi t c (i + 1) with hφ
    have hSs : ssS t a c sigma syserr (i + 1) = φ * φ * (S + D * W * W) := ssS_succ i
    have hφφ : φ * φ ≤ 1 := by nlinarith
    have hb : 0 ≤ a * (S + D * W * W) := mul_nonneg ha.le (by linarith)
    have hle : a * ssS t a c sigma syserr (i + 1) ≤ φ * φ := by
      rw [hSs]
      nlinarith [mul_nonneg hph.1.le hph.1.le]
    refine ⟨?_, le_trans hle hφφ, ?_⟩
    · rw [hSs]; exact mul_nonneg (mul_nonneg hph.1.le hph.1.le) (by linarith)
    · rw [ssD_eq]
      rcases hN with hN | hN
      · have := hN (i + 1) hi
        nlinarith
      · have hlt : φ < 1 := by
          rw [hφ]; simp only [ssPhi]
          rw [Real.exp_lt_one_iff]
          have := hN i hi
          nlinarith
        have : φ * φ < 1 := by nlinarith
        have := hnn (i + 1)
        nlinarith

/-- Entry of the unit lower triangular factor. -/
noncomputable def ssL (t : ℕ → ℝ) (a c : ℝ) (sigma : ℕ → ℝ) (syserr : ℝ) (i j : ℕ) : ℝ :=
  if j = i then 1 else if j < i then a * (Real.exp (-c * (t i - t j)) * ssW t a c sigma syserr j) else 0

/-- `S` is the weighted sum over the previous points. -/
theorem ssS_sum (i : ℕ) : ssS t a c sigma syserr i =
    ∑ k ∈ range i, Real.exp (-c * (t i - t k)) * Real.exp (-c * (t i - t k)) *
      (ssD t a c sigma syserr k * ssW t a c sigma syserr k * ssW t a c sigma syserr k) := by
  induction i with
  | zero => simp [ssS_zero]
  | succ i ih =>
    rw [ssS_succ, ih, sum_range_succ, mul_add, mul_sum]
    congr 1
    · apply sum_congr rfl
      intro k _
      simp only [ssPhi]
      have : Real.exp (-c * (t (i + 1) - t k))
          = Real.exp (-c * (t (i + 1) - t i)) * Real.exp (-c * (t i - t k)) := by
        rw [← Real.exp_add]; ring_nf
      rw [this]; ring

/-- The matrix entries are those of `L D Lᵀ`. -/
theorem ss_factor {n : ℕ} (hD : ∀ i < n, ssD t a c sigma syserr i ≠ 0)
    {i j : ℕ} (hi : i < n) (hij : j ≤ i) :
    ∑ k ∈ range (j + 1), ssL t a c sigma syserr i k * ssD t a c sigma syserr k * ssL t a c sigma syserr j k
    = a * Real.exp (-c * (t i - t j)) + if i = j then sigma i * sigma i + syserr * syserr else 0 := by
  have hSj := ssS_sum (t := t) (a := a) (c := c) (sigma := sigma) (syserr := syserr) j
  have hsum : ∑ k ∈ range j, ssL t a c sigma syserr i k * ssD t a c sigma syserr k * ssL t a c sigma syserr j k
      = a * a * Real.exp (-c * (t i - t j)) * ssS t a c sigma syserr j := by
    rw [hSj, mul_sum]
    apply sum_congr rfl
    intro k hk
    have hk := mem_range.1 hk
    simp only [ssL]
    rw [if_neg (by omega), if_pos (by omega), if_neg (by omega), if_pos hk]
    have : Real.exp (-c * (t i - t k)) = Real.exp (-c * (t i - t j)) * Real.exp (-c * (t j - t k)) := by
      rw [← Real.exp_add]; ring_nf
    rw [this]; ring
  rw [sum_range_succ, hsum]
  have hDj := hD j (by omega)
  have hW : ssD t a c sigma syserr j * ssW t a c sigma syserr j = 1 - a * ssS t a c sigma syserr j := by
    rw [ssW_eq]; field_simp
  by_cases h : i = j
  · subst h
    simp only [ssL, if_true, sub_self, mul_zero, Real.exp_zero]
    rw [ssD_eq]; ring
  · have hlt : j < i := by omega
    simp only [ssL, if_neg h, if_pos hlt]
    rw [if_neg (by omega : ¬ j = i), if_true]
    have : a * (Real.exp (-c * (t i - t j)) * ssW t a c sigma syserr j) * ssD t a c sigma syserr j * 1
        = a * Real.exp (-c * (t i - t j)) * (ssD t a c sigma syserr j * ssW t a c sigma syserr j) := by ring
    rw [this, hW]; ring

/-- Forward substitution solves `L z = y`. -/
theorem ssFwd_sum (y : ℕ → ℝ) (i : ℕ) :
    (ssFwd y (ssW t a c sigma syserr) (ssPhi t c) a i).1 =
      ∑ k ∈ range i, Real.exp (-c * (t i - t k)) * (ssW t a c sigma syserr k *
        (ssFwd y (ssW t a c sigma syserr) (ssPhi t c) a k).2) := by
  induction i with
  | zero => simp [ssFwd]
  | succ i ih =>
    conv_lhs => simp only [ssFwd]
    rw [ih, sum_range_succ, mul_add, mul_sum]
    congr 1
    apply sum_congr rfl
    intro k _
    simp only [ssPhi]
    have : Real.exp (-c * (t (i + 1) - t k))
        = Real.exp (-c * (t (i + 1) - t i)) * Real.exp (-c * (t i - t k)) := by
      rw [← Real.exp_add]; ring_nf
    rw [this]; ring

theorem ssFwd_solves (y : ℕ → ℝ) (i : ℕ) :
    ∑ k ∈ range (i + 1), ssL t a c sigma syserr i k *
      (ssFwd y (ssW t a c sigma syserr) (ssPhi t c) a k).2 = y i := by
  rw [sum_range_succ]
  have h1 : ∑ k ∈ range i, ssL t a c sigma syserr i k *
      (ssFwd y (ssW t a c sigma syserr) (ssPhi t c) a k).2
      = a * (ssFwd y (ssW t a c sigma syserr) (ssPhi t c) a i).1 := by
    rw [ssFwd_sum, mul_sum]
    apply sum_congr rfl
    intro k hk
    have hk := mem_range.1 hk
    simp only [ssL]
    rw [if_neg (by omega), if_pos hk]; ring
  rw [h1]
  simp only [ssL, if_true, one_mul]
  cases i with
  | zero => simp [ssFwd]
  | succ i => simp only [ssFwd]; ring

/-- Backward substitution: `g` is the sum over the later points. -/
theorem ssBack_sum (z W D : ℕ → ℝ) (n k : ℕ) (hk : k < n) :
    (ssBack z W D (ssPhi t c) n a k).1 = ∑ m ∈ range k,
      Real.exp (-c * (t (n - 1 - m) - t (n - 1 - k))) * (a * (ssBack z W D (ssPhi t c) n a m).2) := by
  induction k with
  | zero => simp [ssBack]
  | succ k ih =>
    conv_lhs => simp only [ssBack]
    rw [ih (by omega), sum_range_succ]
    have e1 : n - 2 - k + 1 = n - 1 - k := by omega
    have e2 : n - 2 - k = n - 1 - (k + 1) := by omega
    have hφ : ssPhi t c (n - 2 - k + 1) = Real.exp (-c * (t (n - 1 - k) - t (n - 1 - (k + 1)))) := by
      simp only [ssPhi]; rw [e1, e2]
    rw [hφ, mul_add, mul_sum]
    congr 1
    apply sum_congr rfl
    intro m _
    have : Real.exp (-c * (t (n - 1 - m) - t (n - 1 - (k + 1))))
        = Real.exp (-c * (t (n - 1 - k) - t (n - 1 - (k + 1)))) *
          Real.exp (-c * (t (n - 1 - m) - t (n - 1 - k))) := by
      rw [← Real.exp_add]; ring_nf
    rw [this]; ring

/-- The factor as a matrix. -/
noncomputable def ssLm (t : ℕ → ℝ) (a c : ℝ) (sigma : ℕ → ℝ) (syserr : ℝ) (n : ℕ) :
    Matrix (Fin n) (Fin n) ℝ := fun i j => ssL t a c sigma syserr i j

noncomputable def ssDm (t : ℕ → ℝ) (a c : ℝ) (sigma : ℕ → ℝ) (syserr : ℝ) (n : ℕ) :
    Matrix (Fin n) (Fin n) ℝ := diagonal fun i => ssD t a c sigma syserr i

/-- The covariance matrix of the first `n` points. -/
noncomputable def ssC (t : ℕ → ℝ) (a c : ℝ) (sigma : ℕ → ℝ) (syserr : ℝ) (n : ℕ) :
    Matrix (Fin n) (Fin n) ℝ :=
  drwCov a c (fun i : Fin n => t i) (fun i => sigma i * sigma i + syserr * syserr)

theorem mono_of_step {n : ℕ} (hmono : ∀ i, i + 1 < n → t i ≤ t (i + 1)) {i j : ℕ} (hij : j ≤ i)
    (hi : i < n) : t j ≤ t i := by
  induction i with
  | zero => have : j = 0 := by omega
            rw [this]
  | succ i ih =>
    rcases Nat.lt_or_eq_of_le hij with h | h
    · exact (ih (by omega) (by omega)).trans (hmono i hi)
    · rw [h]

theorem ssC_symm (n : ℕ) : (ssC t a c sigma syserr n)ᵀ = ssC t a c sigma syserr n := by
  ext i j
  simp only [transpose_apply, ssC, drwCov]
  rw [abs_sub_comm]
  by_cases h : i = j
  · subst h; rfl
  · rw [if_neg h, if_neg (Ne.symm h)]

theorem ss_matrix {n : ℕ} (hmono : ∀ i, i + 1 < n → t i ≤ t (i + 1))
    (hD : ∀ i < n, ssD t a c sigma syserr i ≠ 0) :
    ssC t a c sigma syserr n =
      ssLm t a c sigma syserr n * ssDm t a c sigma syserr n * (ssLm t a c sigma syserr n)ᵀ := by
  set R := ssLm t a c sigma syserr n * ssDm t a c sigma syserr n * (ssLm t a c sigma syserr n)ᵀ with hR
  have hRs : Rᵀ = R := by
    rw [hR]
    simp [Matrix.transpose_mul, Matrix.mul_assoc, ssDm]
  have key : ∀ i j : Fin n, j ≤ i → ssC t a c sigma syserr n i j = R i j := by
    intro i j hij
    have e : R i j = ∑ k ∈ range n, ssL t a c sigma syserr i k * ssD t a c sigma syserr k
        * ssL t a c sigma syserr j k := by
      rw [hR, Matrix.mul_apply]
      simp only [ssDm, Matrix.mul_diagonal, transpose_apply, ssLm]
      exact Fin.sum_univ_eq_sum_range (fun k => ssL t a c sigma syserr i k * ssD t a c sigma syserr k
        * ssL t a c sigma syserr j k) n
    have hsub : range ((j : ℕ) + 1) ⊆ range n := by
      intro k hk; rw [mem_range] at *; omega
    rw [e, ← sum_subset hsub (by
      intro k _ hk
      rw [mem_range] at hk
      have : ssL t a c sigma syserr j k = 0 := by
        simp only [ssL]; rw [if_neg (by omega), if_neg (by omega)]
      rw [this, mul_zero])]
    have hij' : (j : ℕ) ≤ i := hij
    rw [ss_factor hD i.2 hij']
    simp only [ssC, drwCov]
    rw [abs_of_nonneg (by linarith [mono_of_step hmono hij' i.2])]
    simp only [Fin.ext_iff]
  ext i j
  rcases le_total j i with h | h
  · exact key i j h
  · have := key j i h
    rw [← ssC_symm, transpose_apply, this, ← hRs, transpose_apply, hRs]

theorem ssLm_det (n : ℕ) : (ssLm t a c sigma syserr n).det = 1 := by
  rw [Matrix.det_of_isLowerTriangular]
  · apply Finset.prod_eq_one
    intro i _
    simp [ssLm, ssL]
  · intro i j hij
    have hij : i < j := hij
    have : (i : ℕ) < j := hij
    simp only [ssLm, ssL]
    rw [if_neg (by omega), if_neg (by omega)]

theorem ssC_det {n : ℕ} (hmono : ∀ i, i + 1 < n → t i ≤ t (i + 1))
    (hD : ∀ i < n, ssD t a c sigma syserr i ≠ 0) :
    (ssC t a c sigma syserr n).det = ∏ i : Fin n, ssD t a c sigma syserr i := by
  rw [ss_matrix hmono hD, Matrix.det_mul, Matrix.det_mul, Matrix.det_transpose, ssLm_det]
  simp [ssDm]

theorem ssLndet_eq {n : ℕ} (D : ℕ → ℝ) (hD : ∀ i < n, 0 < D i) :
    ssLndet D n = Real.log (∏ i : Fin n, D i) := by
  induction n with
  | zero => simp [ssLndet]
  | succ n ih =>
    rw [ssLndet, ih (fun i hi => hD i (by omega)), Fin.prod_univ_castSucc]
    have h1 : (∏ i : Fin n, D i) ≠ 0 := prod_ne_zero_iff.2 fun i _ => (hD i (by omega)).ne'
    have h2 : D n ≠ 0 := (hD n (by omega)).ne'
    simp only [Fin.val_castSucc, Fin.val_last]
    rw [Real.log_mul h1 h2]

/-- Backward substitution solves `Lᵀ z = D⁻¹ z'`. -/
theorem ssBack_solves (zf : ℕ → ℝ) {n : ℕ} (i : ℕ) (hi : i < n) :
    ∑ j ∈ range n, ssL t a c sigma syserr j i *
      (ssBack zf (ssW t a c sigma syserr) (ssD t a c sigma syserr) (ssPhi t c) n a (n - 1 - j)).2
      = zf i / ssD t a c sigma syserr i := by
  rw [← sum_range_reflect]
  set b := ssBack zf (ssW t a c sigma syserr) (ssD t a c sigma syserr) (ssPhi t c) n a with hb
  obtain ⟨k, hk⟩ : ∃ k, k = n - 1 - i := ⟨_, rfl⟩
  have hsub : range (k + 1) ⊆ range n := by
    intro m hm; rw [mem_range] at *; omega
  rw [← sum_subset hsub (by
    intro m hm1 hm
    rw [mem_range] at hm hm1
    have : ssL t a c sigma syserr (n - 1 - m) i = 0 := by
      simp only [ssL]; rw [if_neg (by omega), if_neg (by omega)]
    rw [this, zero_mul])]
  rw [sum_range_succ]
  have hsum : ∑ m ∈ range k, ssL t a c sigma syserr (n - 1 - m) i * (b (n - 1 - (n - 1 - m))).2
      = ssW t a c sigma syserr i * (b k).1 := by
    rw [hb, ssBack_sum _ _ _ n k (by omega), mul_sum]
    apply sum_congr rfl
    intro m hm
    rw [mem_range] at hm
    rw [show n - 1 - (n - 1 - m) = m by omega, show n - 1 - k = i by omega]
    simp only [ssL]
    rw [if_neg (by omega), if_pos (by omega)]
    ring
  rw [hsum, show n - 1 - k = i by omega, show n - 1 - i = k by omega]
  simp only [ssL, if_true, one_mul]
  have hlast : (b k).2 = zf i / ssD t a c sigma syserr i - ssW t a c sigma syserr i * (b k).1 := by
    cases k with
    | zero =>
      rw [hb]; simp only [ssBack]
      rw [show n - 1 = i by omega]; ring
    | succ k =>
      rw [hb]; simp only [ssBack]
      rw [show n - 2 - k = i by omega]
  rw [hlast]; ring

/-- The solver solves the system. -/
theorem ssSolve_spec {n : ℕ} (hmono : ∀ i, i + 1 < n → t i ≤ t (i + 1))
    (hD : ∀ i < n, ssD t a c sigma syserr i ≠ 0) (y : ℕ → ℝ) :
    (ssC t a c sigma syserr n).mulVec
      (fun i : Fin n => ssSolve y (ssW t a c sigma syserr) (ssD t a c sigma syserr) (ssPhi t c) n a i)
      = fun i : Fin n => y i := by
  rw [ss_matrix hmono hD, ← Matrix.mulVec_mulVec, ← Matrix.mulVec_mulVec]
  set zf : ℕ → ℝ := fun i => (ssFwd y (ssW t a c sigma syserr) (ssPhi t c) a i).2 with hzf
  have h1 : (ssLm t a c sigma syserr n)ᵀ.mulVec (fun i : Fin n =>
      ssSolve y (ssW t a c sigma syserr) (ssD t a c sigma syserr) (ssPhi t c) n a i)
      = fun i : Fin n => zf i / ssD t a c sigma syserr i := by
    ext i
    simp only [Matrix.mulVec, dotProduct, transpose_apply, ssLm, ssSolve]
    rw [Fin.sum_univ_eq_sum_range (fun j => ssL t a c sigma syserr j i *
      (ssBack zf (ssW t a c sigma syserr) (ssD t a c sigma syserr) (ssPhi t c) n a (n - 1 - j)).2) n]
    exact ssBack_solves zf i i.2
  have h2 : (ssDm t a c sigma syserr n).mulVec (fun i : Fin n => zf i / ssD t a c sigma syserr i)
      = fun i : Fin n => zf i := by
    ext i
    rw [ssDm, Matrix.mulVec_diagonal]
    have := hD i i.2
    field_simp
  rw [h1, h2]
  ext i
  simp only [Matrix.mulVec, dotProduct, ssLm]
  rw [Fin.sum_univ_eq_sum_range (fun j => ssL t a c sigma syserr i j * zf j) n]
  have hsub : range ((i : ℕ) + 1) ⊆ range n := by
    intro k hk; rw [mem_range] at *; omega
  rw [← sum_subset hsub (by
    intro k _ hk
    rw [mem_range] at hk
    have : ssL t a c sigma syserr i k = 0 := by
      simp only [ssL]; rw [if_neg (by omega), if_neg (by omega)]
    rw [this, zero_mul])]
  exact ssFwd_solves y i

/-- The lower triangular matrix of `inverse_semiseparable` is a square root of the covariance. -/
theorem ssLower_mul {n : ℕ} (hmono : ∀ i, i + 1 < n → t i ≤ t (i + 1))
    (hD : ∀ i < n, 0 < ssD t a c sigma syserr i) :
    ssLower t a c (ssW t a c sigma syserr) (ssD t a c sigma syserr) n *
      (ssLower t a c (ssW t a c sigma syserr) (ssD t a c sigma syserr) n)ᵀ = ssC t a c sigma syserr n := by
  have e : ssLower t a c (ssW t a c sigma syserr) (ssD t a c sigma syserr) n =
      ssLm t a c sigma syserr n * diagonal (fun i : Fin n => Real.sqrt (ssD t a c sigma syserr i)) := by
    ext i j
    rw [Matrix.mul_diagonal]
    simp only [ssLower, ssLm, ssL, Fin.ext_iff, Fin.lt_def]
    by_cases h : (j : ℕ) = i
    · have : j = i := Fin.ext h
      subst this; simp
    · rw [if_neg h, if_neg h]
      split <;> simp
  rw [ss_matrix hmono fun i hi => (hD i hi).ne', e, Matrix.transpose_mul, diagonal_transpose,
    Matrix.mul_assoc, ← Matrix.mul_assoc (diagonal _) (diagonal _), diagonal_mul_diagonal, ssDm,
    ← Matrix.mul_assoc]
  congr 3
  ext i
  exact Real.mul_self_sqrt (hD i i.2).le

theorem ssInverse_eq {n : ℕ} (hmono : ∀ i, i + 1 < n → t i ≤ t (i + 1))
    (hD : ∀ i < n, 0 < ssD t a c sigma syserr i) :
    ssInverse t a c (ssW t a c sigma syserr) (ssD t a c sigma syserr) n =
      (ssC t a c sigma syserr n)⁻¹ := by
  set M := ssLower t a c (ssW t a c sigma syserr) (ssD t a c sigma syserr) n with hM
  have hC := ssLower_mul hmono hD
  rw [← hM] at hC
  have hP : (M⁻¹)ᵀ * M⁻¹ = (ssC t a c sigma syserr n)⁻¹ := by
    rw [← hC, Matrix.mul_inv_rev, Matrix.transpose_nonsing_inv]
  have hs : ((ssC t a c sigma syserr n)⁻¹)ᵀ = (ssC t a c sigma syserr n)⁻¹ := by
    rw [Matrix.transpose_nonsing_inv, ssC_symm]
  ext i j
  simp only [ssInverse, ← hM]
  rw [hP]
  split
  · rfl
  · rw [← hs, transpose_apply, hs]

end

end Mica
