import Verif.Proof.LU
import Mathlib.LinearAlgebra.Matrix.PosDef
import Mathlib.LinearAlgebra.Matrix.Notation
import Mathlib.Tactic.FinCases

/-!
# C106: Determinants, their logarithms and signs are read off the LU factors correctly

The theorems hold for every output that LAPACK's documentation of `dgetrf` allows for the given matrix.
-/

namespace Mica

open Matrix

/-- **C106.** `det_mat` returns the determinant, and ends the program exactly for singular matrices. -/
theorem C106_det {n : ℕ} (A : Matrix (Fin n) (Fin n) ℝ) (o : LUOut n) (h : IsLU A o) :
    (A.det = 0 → detMat o = .exit) ∧ (A.det ≠ 0 → detMat o = .ok A.det) := by
  unfold detMat
  constructor
  · intro h0; rw [if_pos ((det_zero_iff h).1 h0)]
  · intro h0
    rw [if_neg (fun hx => h0 ((det_zero_iff h).2 hx)), foldl_det, one_mul, finRange_prod, Finset.prod_mul_distrib, det_eq h]

/-- **C106.** `lndet_mat` returns the logarithm of the absolute value of the determinant. -/
theorem C106_lndet {n : ℕ} (A : Matrix (Fin n) (Fin n) ℝ) (o : LUOut n) (h : IsLU A o) :
    (A.det = 0 → lndetMat o = .exit) ∧ (A.det ≠ 0 → lndetMat o = .ok (Real.log |A.det|)) := by
  unfold lndetMat
  constructor
  · intro h0; rw [if_pos ((det_zero_iff h).1 h0)]
  · intro h0
    have hx : ¬ ∃ i, o.a i i = 0 := fun hx => h0 ((det_zero_iff h).2 hx)
    rw [if_neg hx, foldl_ln, zero_add, finRange_sum, log_abs_det h hx]

/-- **C106.** `lndet_mat3`, used by the likelihoods, returns logarithm and sign of the determinant. -/
theorem C106_sign {n : ℕ} (A : Matrix (Fin n) (Fin n) ℝ) (o : LUOut n) (h : IsLU A o) :
    (A.det = 0 → lndetMat3 o = .exit) ∧ (0 < A.det → lndetMat3 o = .ok (Real.log A.det, 1)) ∧
    (A.det < 0 → lndetMat3 o = .ok (Real.log (-A.det), -1)) := by
  have gen : A.det ≠ 0 → lndetMat3 o = .ok (Real.log |A.det|, open Classical in if 0 < A.det then 1 else -1) := by
    intro h0
    have hx : ¬ ∃ i, o.a i i = 0 := fun hx => h0 ((det_zero_iff h).2 hx)
    unfold lndetMat3
    rw [if_neg hx, foldl_3, zero_add, one_mul, finRange_sum, log_abs_det h hx, prod_pivSign h h0]
  refine ⟨?_, ?_, ?_⟩
  · intro h0; unfold lndetMat3; rw [if_pos ((det_zero_iff h).1 h0)]
  · intro h0; rw [gen h0.ne', if_pos h0, abs_of_pos h0]
  · intro h0; rw [gen h0.ne, if_neg (by linarith), abs_of_neg h0]

/-- **C106.** `inverse_mat_lndet` returns all three, or ends the program. -/
theorem C106_inverse {n : ℕ} (A : Matrix (Fin n) (Fin n) ℝ) (o : LUOut n) (h : IsLU A o) :
    (A.det = 0 → inverseMatLndet A o = .exit) ∧
    (A.det ≠ 0 → ∃ B s, inverseMatLndet A o = .ok (B, Real.log |A.det|, s) ∧ A * B = 1 ∧ (s : ℝ) * |A.det| = A.det) := by
  obtain ⟨h1, h2, h3⟩ := C106_sign A o h
  constructor
  · intro h0; unfold inverseMatLndet; rw [h1 h0]; rfl
  · intro h0
    have hB : A * A⁻¹ = 1 := Matrix.mul_nonsing_inv A (isUnit_iff_ne_zero.2 h0)
    rcases lt_or_gt_of_ne h0 with hl | hg
    · refine ⟨A⁻¹, -1, ?_, hB, ?_⟩
      · unfold inverseMatLndet luInv; rw [h3 hl, Res.ok_bind, if_neg h0, Res.ok_bind, abs_of_neg hl]
      · rw [abs_of_neg hl]; push_cast; ring
    · refine ⟨A⁻¹, 1, ?_, hB, ?_⟩
      · unfold inverseMatLndet luInv; rw [h2 hg, Res.ok_bind, if_neg h0, Res.ok_bind, abs_of_pos hg]
      · rw [abs_of_pos hg]; push_cast; ring

/-- **C106.** `lndet_mat2` with a matrix of size at least 1: the logarithm is right, the sign on entry does not matter.
Missing: the sign is not what the comment promises, see `C106_sign2_fails`. -/
theorem C106_lndet2_partial {n : ℕ} (A : Matrix (Fin (n + 1)) (Fin (n + 1)) ℝ) (o : LUOut (n + 1)) (s0 s1 : ℤ) (h : IsLU A o) :
    (A.det = 0 → lndetMat2 o s0 = .exit) ∧
    (A.det ≠ 0 → ∃ s, (s = 1 ∨ s = -1) ∧ lndetMat2 o s0 = .ok (Real.log |A.det|, s) ∧
      lndetMat2 o s1 = .ok (Real.log |A.det|, s)) := by
  have key : ∀ (l : List (Fin (n + 1))) (s : ℤ), (s = 1 ∨ s = -1) → (sign2 o l s = 1 ∨ sign2 o l s = -1) := by
    intro l
    induction l with
    | nil => intro s hs; exact hs
    | cons i l ih =>
      intro s _
      unfold sign2
      dsimp only
      by_cases ha : 0 ≤ o.a i i
      · by_cases hp : (o.p i : ℕ) + 1 ≠ (i : ℕ) + 1
        · rw [if_pos ha, if_pos hp]; simp
        · rw [if_pos ha, if_neg hp]; simpa using ih 1 (.inl rfl)
      · by_cases hp : (o.p i : ℕ) + 1 ≠ (i : ℕ) + 1
        · rw [if_neg ha, if_pos hp]; simpa using ih 1 (.inl rfl)
        · rw [if_neg ha, if_neg hp]; simp
  unfold lndetMat2
  constructor
  · intro h0; rw [if_pos ((det_zero_iff h).1 h0)]
  · intro h0
    have hx : ¬ ∃ i, o.a i i = 0 := fun hx => h0 ((det_zero_iff h).2 hx)
    rw [if_neg hx, if_neg hx, foldl_ln, zero_add, finRange_sum, log_abs_det h hx]
    have e : ∀ s s', sign2 o (List.finRange (n + 1)) s = sign2 o (List.finRange (n + 1)) s' := by
      intro s s'; rw [List.finRange_succ]; rfl
    refine ⟨sign2 o (List.finRange (n + 1)) 1, key _ _ (.inl rfl), ?_, ?_⟩
    · rw [e s0 1]
    · rw [e s1 1]

/-- The matrix of the next theorem. -/
def exA : Matrix (Fin 2) (Fin 2) ℝ := !![1, 2; 2, 5]

/-- **C106.** The comment of `lndet_mat2` says that it returns -1 if an eigenvalue is negative.  For a positive definite matrix
it returns -1 whatever LAPACK does within its documentation: an interchange is counted as a negative eigenvalue. -/
theorem C106_sign2_fails : exA.PosDef ∧ ∀ (o : LUOut 2) (s0 : ℤ), IsLU exA o → lndetMat2 o s0 = .ok (0, -1) := by
  constructor
  · refine Matrix.PosDef.of_dotProduct_mulVec_pos ?_ ?_
    · ext i j; fin_cases i <;> fin_cases j <;> simp [exA]
    · intro x hx
      have e : star x ⬝ᵥ exA.mulVec x = (x 0 + 2 * x 1) ^ 2 + x 1 ^ 2 := by
        simp [exA, dotProduct, Matrix.mulVec, Fin.sum_univ_two]; ring
      rw [e]
      by_contra hn
      have h1 : x 1 = 0 := by nlinarith [sq_nonneg (x 0 + 2 * x 1), sq_nonneg (x 1)]
      have h0 : x 0 = 0 := by rw [h1] at hn; nlinarith [sq_nonneg (x 0)]
      apply hx; ext i; fin_cases i
      · exact h0
      · exact h1
  · intro o s0 h
    have hdet : exA.det = 1 := by simp [exA, Matrix.det_fin_two]; norm_num
    have hx : ¬ ∃ i, o.a i i = 0 := fun hx => by
      have := (det_zero_iff h).2 hx; rw [hdet] at this; norm_num at this
    have hp1 : o.p 1 = 1 := le_antisymm (Fin.le_last _) (h.later 1)
    have hs := h.small 1 0 (by decide)
    have hrow : ∀ i j, rowSwaps o.p (List.finRange 2) exA i j = exA (Equiv.swap 0 (o.p 0) i) j := by
      intro i j
      simp [rowSwaps, List.finRange_succ, hp1]
    have e : ∀ i j, exA (Equiv.swap 0 (o.p 0) i) j = (lowUnit o.a * uppPart o.a) i j := fun i j => by
      rw [← hrow i j, h.prod]
    have e00 := e 0 0
    have e10 := e 1 0
    simp [Matrix.mul_apply, lowUnit, uppPart] at e00 e10
    have hp0 : o.p 0 = 1 := by
      by_contra hne
      have hp : o.p 0 = 0 := by
        have : (o.p 0 : ℕ) < 2 := (o.p 0).2
        have h2 : (o.p 0 : ℕ) ≠ 1 := fun h => hne (Fin.ext h)
        exact Fin.ext (by show (o.p 0 : ℕ) = 0; omega)
      rw [hp] at e00 e10
      simp [exA] at e00 e10
      rw [← e00] at e10
      rw [abs_le] at hs
      linarith [hs.2]
    rw [hp0] at e00
    simp [exA] at e00
    unfold lndetMat2
    rw [if_neg hx, foldl_ln, zero_add, finRange_sum, ← log_abs_det h hx, hdet]
    simp [List.finRange_succ, sign2, ← e00, hp0]

/-- **C106.** `Chol_decomp_U` leaves a lower triangular `M` with `A = M Mᵀ`. -/
theorem C106_chol {n : ℕ} (A a : Matrix (Fin n) (Fin n) ℝ) (h : IsChol A a) :
    cholDecompU a * (cholDecompU a)ᵀ = A ∧ ∀ i j, i < j → cholDecompU a i j = 0 := by
  have e : cholDecompU a = Matrix.of fun i j => if j ≤ i then a i j else 0 := by
    ext i j
    simp only [cholDecompU, Matrix.of_apply]
    by_cases hij : i < j
    · rw [if_pos hij, if_neg (not_le.2 hij)]
    · rw [if_neg hij, if_pos (not_lt.1 hij)]
  constructor
  · rw [e]; exact h.prod
  · intro i j hij; simp [cholDecompU, hij]

/-- **C106.** The comment of `Chol_decomp_U` promises `A = Mᵀ M`, which does not hold. -/
theorem C106_chol_comment_fails : ∃ A a : Matrix (Fin 2) (Fin 2) ℝ, IsChol A a ∧ (cholDecompU a)ᵀ * cholDecompU a ≠ A := by
  refine ⟨!![4, 2; 2, 2], !![2, 0; 1, 1], ⟨?_, ?_⟩, ?_⟩
  · ext i j; fin_cases i <;> fin_cases j <;> simp [Matrix.mul_apply, Fin.sum_univ_two] <;> norm_num
  · intro i; fin_cases i <;> simp
  · intro h
    have := congrFun (congrFun h 0) 0
    simp [Matrix.mul_apply, Fin.sum_univ_two, cholDecompU] at this
    norm_num at this

/-- The factorisation of `exA` that LAPACK finds. -/
noncomputable def exLU : LUOut 2 := ⟨!![2, 5; 1 / 2, -1 / 2], ![1, 1]⟩

/-- The hypotheses of the theorems are met by `exA`. -/
example : IsLU exA exLU := by
  refine ⟨?_, ?_, ?_⟩
  · ext i j
    simp only [rowSwaps, List.finRange_succ, List.finRange_zero, exLU, exA]
    fin_cases i <;> fin_cases j <;>
      simp [Matrix.mul_apply, Fin.sum_univ_two, lowUnit, uppPart] <;> norm_num
  · intro i; fin_cases i <;> simp [exLU]
  · intro i j h
    fin_cases i <;> fin_cases j <;> simp [exLU] at h ⊢
    norm_num

end Mica
