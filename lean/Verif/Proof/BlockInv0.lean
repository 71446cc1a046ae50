import Verif.Model.BlockInv
import Verif.Proof.Semisep
import Mathlib.LinearAlgebra.Matrix.SchurComplement
import Mathlib.Tactic

/-! Helper lemmas about inversion by blocks. -/

namespace Mica

open Matrix

theorem upperSym_of_symm {n : ℕ} {A : Matrix (Fin n) (Fin n) ℝ} (h : Aᵀ = A) : upperSym A = A := by
  ext i j
  simp only [upperSym]
  split
  · rfl
  · exact congrFun (congrFun h i) j

theorem upperSym_congr {n : ℕ} {A B : Matrix (Fin n) (Fin n) ℝ} (h : ∀ i j, i ≤ j → A i j = B i j) :
    upperSym A = upperSym B := by
  ext i j
  simp only [upperSym]
  split
  · rename_i hij; exact h i j hij
  · rename_i hij; exact h j i (le_of_not_ge hij)

theorem inv_symm {n : Type*} [Fintype n] [DecidableEq n] {A : Matrix n n ℝ} (h : Aᵀ = A) :
    (A⁻¹)ᵀ = A⁻¹ := by
  rw [Matrix.transpose_nonsing_inv, h]

theorem inverseSymat_eq {n : ℕ} {A : Matrix (Fin n) (Fin n) ℝ} (h : Aᵀ = A) : inverseSymat A = A⁻¹ := by
  unfold inverseSymat
  rw [upperSym_of_symm h, upperSym_of_symm (inv_symm h)]

theorem inverseSymat_subUpper {n : ℕ} {S T : Matrix (Fin n) (Fin n) ℝ} (hS : Sᵀ = S) (hT : Tᵀ = T) :
    inverseSymat (subUpper S T) = (S - T)⁻¹ := by
  have : upperSym (subUpper S T) = S - T := by
    have h : (S - T)ᵀ = S - T := by rw [Matrix.transpose_sub, hS, hT]
    rw [← upperSym_of_symm h]
    apply upperSym_congr
    intro i j hij
    simp [subUpper, hij]
  have h : (S - T)ᵀ = S - T := by rw [Matrix.transpose_sub, hS, hT]
  unfold inverseSymat
  rw [this, upperSym_of_symm (inv_symm h)]

section blocks
variable {m n : Type*} [Fintype m] [Fintype n] [DecidableEq m] [DecidableEq n]

omit [Fintype n] [DecidableEq n] in
/-- The Schur complement of a symmetric matrix is symmetric. -/
theorem schur_symm {P : Matrix m m ℝ} {S : Matrix n n ℝ} (Q : Matrix m n ℝ) (hP : Pᵀ = P) (hS : Sᵀ = S) :
    (S - Qᵀ * (P⁻¹ * Q))ᵀ = S - Qᵀ * (P⁻¹ * Q) := by
  rw [Matrix.transpose_sub, hS, Matrix.transpose_mul, Matrix.transpose_mul, inv_symm hP,
    Matrix.transpose_transpose, Matrix.mul_assoc]

omit [Fintype n] [DecidableEq n] in
theorem quad_symm {P : Matrix m m ℝ} (Q : Matrix m n ℝ) (hP : Pᵀ = P) :
    (Qᵀ * (P⁻¹ * Q))ᵀ = Qᵀ * (P⁻¹ * Q) := by
  rw [Matrix.transpose_mul, Matrix.transpose_mul, inv_symm hP,
    Matrix.transpose_transpose, Matrix.mul_assoc]

/-- The block formula for the inverse. -/
theorem block_inverse {P : Matrix m m ℝ} {S : Matrix n n ℝ} (Q : Matrix m n ℝ) (hP : Pᵀ = P)
    (hS : Sᵀ = S) (hPu : P.det ≠ 0) (hSu : (S - Qᵀ * (P⁻¹ * Q)).det ≠ 0) :
    fromBlocks P Q Qᵀ S * fromBlocks (P⁻¹ + P⁻¹ * Q * (S - Qᵀ * (P⁻¹ * Q))⁻¹ * (P⁻¹ * Q)ᵀ)
      (-(P⁻¹ * Q * (S - Qᵀ * (P⁻¹ * Q))⁻¹)) (-(P⁻¹ * Q * (S - Qᵀ * (P⁻¹ * Q))⁻¹))ᵀ
      (S - Qᵀ * (P⁻¹ * Q))⁻¹ = 1 := by
  set M := S - Qᵀ * (P⁻¹ * Q) with hM
  have hPP : P * P⁻¹ = 1 := Matrix.mul_nonsing_inv _ (isUnit_iff_ne_zero.2 hPu)
  have hMM : M * M⁻¹ = 1 := Matrix.mul_nonsing_inv _ (isUnit_iff_ne_zero.2 hSu)
  have hMt : (M⁻¹)ᵀ = M⁻¹ := inv_symm (schur_symm Q hP hS)
  have hPt : (P⁻¹)ᵀ = P⁻¹ := inv_symm hP
  have hSM : S = M + Qᵀ * (P⁻¹ * Q) := by rw [hM]; abel
  have hPPn : ∀ X : Matrix m n ℝ, P * (P⁻¹ * X) = X := by
    intro X; rw [← Matrix.mul_assoc, hPP, Matrix.one_mul]
  have hPPm : ∀ X : Matrix m m ℝ, P * (P⁻¹ * X) = X := by
    intro X; rw [← Matrix.mul_assoc, hPP, Matrix.one_mul]
  have hMMm : ∀ X : Matrix n m ℝ, M * (M⁻¹ * X) = X := by
    intro X; rw [← Matrix.mul_assoc, hMM, Matrix.one_mul]
  rw [Matrix.fromBlocks_multiply, ← Matrix.fromBlocks_one]
  congr 1
  · simp only [Matrix.mul_add, Matrix.transpose_neg, Matrix.transpose_mul, hPt, hMt, Matrix.mul_neg,
      Matrix.mul_assoc, hPP, hPPm]
    abel
  · simp only [Matrix.mul_neg, Matrix.mul_assoc, hPPn]
    abel
  · rw [hSM]
    simp only [Matrix.mul_add, Matrix.add_mul, Matrix.transpose_neg, Matrix.transpose_mul, hPt, hMt,
      Matrix.mul_neg, Matrix.mul_assoc, hMMm]
    abel
  · rw [hSM]
    simp only [Matrix.add_mul, Matrix.mul_neg, Matrix.mul_assoc, hMM]
    abel

end blocks

theorem partInv_eq {n1 n2 : ℕ} {P : Matrix (Fin n1) (Fin n1) ℝ} {S : Matrix (Fin n2) (Fin n2) ℝ}
    (Q : Matrix (Fin n1) (Fin n2) ℝ) (hP : Pᵀ = P) (hS : Sᵀ = S) :
    partInv P⁻¹ S Q = (P⁻¹ + P⁻¹ * Q * (S - Qᵀ * (P⁻¹ * Q))⁻¹ * (P⁻¹ * Q)ᵀ,
      -(P⁻¹ * Q * (S - Qᵀ * (P⁻¹ * Q))⁻¹), (S - Qᵀ * (P⁻¹ * Q))⁻¹) := by
  simp only [partInv]
  rw [inverseSymat_subUpper hS (quad_symm Q hP)]

/-- The leading block split in four. -/
theorem block_split (A : ℕ → ℕ → ℝ) (hA : ∀ i j, A i j = A j i) (n1 n2 : ℕ) :
    (block A 0 (n1 + n2) 0 (n1 + n2)).submatrix finSumFinEquiv finSumFinEquiv =
      fromBlocks (block A 0 n1 0 n1) (block A 0 n1 n1 n2) (block A 0 n1 n1 n2)ᵀ (block A n1 n2 n1 n2) := by
  ext i j
  rcases i with i | i <;> rcases j with j | j <;>
    simp [block, fromBlocks, finSumFinEquiv, Fin.natAdd, Fin.castAdd]
  exact hA _ _

theorem block_symm (A : ℕ → ℕ → ℝ) (hA : ∀ i j, A i j = A j i) (r n : ℕ) :
    (block A r n r n)ᵀ = block A r n r n := by
  ext i j; simp only [transpose_apply, block]; exact hA _ _

theorem assemble_split {n1 n2 : ℕ} (PN : Matrix (Fin n1) (Fin n1) ℝ) (QN : Matrix (Fin n1) (Fin n2) ℝ)
    (SN : Matrix (Fin n2) (Fin n2) ℝ) :
    (block (assemble PN QN SN) 0 (n1 + n2) 0 (n1 + n2)).submatrix finSumFinEquiv finSumFinEquiv =
      fromBlocks PN QN QNᵀ SN := by
  ext i j
  rcases i with i | i <;> rcases j with j | j <;>
    simp [block, fromBlocks, finSumFinEquiv, Fin.natAdd, Fin.castAdd, assemble]

theorem block_arrayOf {n : ℕ} (M : Matrix (Fin n) (Fin n) ℝ) : block (arrayOf M) 0 n 0 n = M := by
  ext i j; simp [block, arrayOf]

end Mica
