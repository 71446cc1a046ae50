import Verif.Proof.BlockInv

/-! # C60: the log-determinant read off the symmetric factorisation -/

namespace Mica

open Matrix

/-- C60: for a positive definite matrix the factorisation uses 1x1 pivots only (as many pivots as rows),
all positive, so that the log-determinant and the sign read off the diagonal are those of the matrix. -/
theorem C60_pivots (n : ℕ) (M : Matrix (Fin n) (Fin n) ℝ) (hM : M.PosDef) :
    (bkDiag n (arrayOf M)).length = n ∧ (∀ d ∈ bkDiag n (arrayOf M), 0 < d) ∧
    (bkDiag n (arrayOf M)).prod = M.det ∧
    lndetSymat M = Real.log M.det ∧ signSymat M = 1 := by
  have hs := posDef_symm hM
  have hL : LeadPD (arrayOf M) n := by rw [LeadPD, block_arrayOf]; exact hM
  obtain ⟨h1, h2, h3⟩ := bkDiag_posDef n (arrayOf M) (arrayOf_symm hs) hL
  rw [block_arrayOf] at h3
  exact ⟨h1, h2, h3, lndetSymat_posDef hM, signSymat_posDef hM⟩

/-- C60: only the upper triangle is read: whatever the strict lower triangle holds, the result is the
log-determinant of the symmetric matrix given by the upper one. -/
theorem C60_upper (n : ℕ) (M B : Matrix (Fin n) (Fin n) ℝ) (hM : M.PosDef)
    (h : ∀ i j, i ≤ j → B i j = M i j) :
    lndetSymat B = Real.log M.det ∧ signSymat B = 1 ∧ inverseSymat B = M⁻¹ := by
  have e : upperSym B = upperSym M := upperSym_congr h
  refine ⟨?_, ?_, ?_⟩
  · rw [lndetSymat, e]; exact lndetSymat_posDef hM
  · rw [signSymat, e]; exact signSymat_posDef hM
  · rw [inverseSymat, e]; exact inverseSymat_eq (posDef_symm hM)

/-- The hypothesis holds for a matrix whose largest entries are off the diagonal of its last row, so
that an interchange is considered. -/
example : (!![3, 1; 1, 1/2] : Matrix (Fin 2) (Fin 2) ℝ).PosDef := by
  refine Matrix.PosDef.of_dotProduct_mulVec_pos ?_ ?_
  · ext i j; fin_cases i <;> fin_cases j <;> simp
  · intro x hx
    simp only [dotProduct, Matrix.mulVec, Fin.sum_univ_two, star_trivial]
    simp
    have : x 0 ≠ 0 ∨ x 1 ≠ 0 := by
      by_contra h
      push Not at h
      exact hx (by ext i; fin_cases i; exacts [h.1, h.2])
    have e : x 0 * (3 * x 0 + x 1) + x 1 * (x 0 + 2⁻¹ * x 1) = (x 0) ^ 2 + 2 * (x 0 + x 1 / 2) ^ 2 := by
      ring
    rw [e]
    rcases this with h | h
    · positivity
    · rcases eq_or_ne (x 0) 0 with h0 | h0
      · rw [h0]; simp; positivity
      · positivity

/-- C60: the column entry the pivot is compared with is the largest of the column, and the first one of
that size, so a pivot taken without interchange is never smaller than `bkAlpha` times any entry that is
divided by it: no multiplier of the elimination is larger than `1 / bkAlpha`. -/
theorem C60_multiplier (A : ℕ → ℕ → ℝ) (k i : ℕ) (hi : i < k) :
    |A i k| ≤ |A (amaxIdx (fun i => A i k) k) k| ∧
    (i < amaxIdx (fun i => A i k) k → |A i k| < |A (amaxIdx (fun i => A i k) k) k|) ∧
    (A k k ≠ 0 → bkAlpha * |A (amaxIdx (fun i => A i k) k) k| ≤ |A k k| →
      |A i k / A k k| ≤ 1 / bkAlpha) := by
  have key : ∀ (f : ℕ → ℝ) (m : ℕ), ∀ i < m, |f i| ≤ |f (amaxIdx f m)| ∧
      (i < amaxIdx f m → |f i| < |f (amaxIdx f m)|) := by
    intro f m
    induction m with
    | zero => intro i hi; omega
    | succ m ih =>
      intro i hi
      simp only [amaxIdx]
      split
      · rename_i hlt
        rcases Nat.lt_succ_iff_lt_or_eq.1 hi with h | rfl
        · exact ⟨((ih i h).1.trans_lt hlt).le, fun _ => (ih i h).1.trans_lt hlt⟩
        · exact ⟨le_rfl, fun h => absurd h (lt_irrefl _)⟩
      · rename_i hle
        rcases Nat.lt_succ_iff_lt_or_eq.1 hi with h | rfl
        · exact ih i h
        · refine ⟨not_lt.1 hle, fun h => ?_⟩
          rcases Nat.eq_zero_or_pos i with rfl | hp
          · simp [amaxIdx] at h
          · exact absurd h (by have := amaxIdx_lt f i hp; omega)
  obtain ⟨h1, h2⟩ := key (fun i => A i k) k i hi
  refine ⟨h1, h2, fun h0 h => ?_⟩
  have hp : 0 < |A k k| := abs_pos.2 h0
  rw [abs_div, div_le_div_iff₀ hp bkAlpha_pos, one_mul, mul_comm]
  exact (mul_le_mul_of_nonneg_left h1 bkAlpha_pos.le).trans h

/-- C60: positive definiteness is needed: a 2x2 pivot leaves its off-diagonal entry out of the sum, and
the reported sign is `+1` for a matrix of negative determinant. -/
theorem C60_indefinite : ∃ M : Matrix (Fin 2) (Fin 2) ℝ, Mᵀ = M ∧ M.det < 0 ∧ signSymat M = 1 ∧
    lndetSymat M ≠ Real.log |M.det| := by
  refine ⟨!![1/10, 1; 1, 1/10], ?_, ?_, ?_⟩
  · ext i j; fin_cases i <;> fin_cases j <;> rfl
  · rw [Matrix.det_fin_two_of]; norm_num
  · have hal : (1 : ℝ) / 2 < bkAlpha := by
      have : (3 : ℝ) < Real.sqrt 17 := by
        rw [Real.lt_sqrt (by norm_num)]; norm_num
      unfold bkAlpha; linarith
    have hs : (!![1/10, 1; 1, 1/10] : Matrix (Fin 2) (Fin 2) ℝ)ᵀ = !![1/10, 1; 1, 1/10] := by
      ext i j; fin_cases i <;> fin_cases j <;> rfl
    have hd : bkDiag 2 (arrayOf !![1/10, 1; 1, 1/10]) = [1/10, 1/10] := by
      simp only [bkDiag, amaxIdx, rowMax, arrayOf, swapRC]
      norm_num
      have hc : ¬ bkAlpha ≤ 1 / 10 := by linarith
      rw [if_neg hc, if_neg hc, if_neg hc]
    constructor
    · rw [signSymat, upperSym_of_symm hs, bkSign, hd]
      norm_num
    · rw [lndetSymat, upperSym_of_symm hs, bkLndet, hd, Matrix.det_fin_two_of]
      intro h
      norm_num at h
      have h1 : Real.log (99 / 100) = Real.log (1 / 100) := by
        rw [← h, ← Real.log_mul (by norm_num) (by norm_num)]
        norm_num
      have := Real.log_injOn_pos (Set.mem_Ioi.2 (by norm_num : (0 : ℝ) < 99 / 100))
        (Set.mem_Ioi.2 (by norm_num : (0 : ℝ) < 1 / 100)) h1
      norm_num at this
end Mica
