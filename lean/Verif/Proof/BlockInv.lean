import Verif.Proof.BlockInv0
import Verif.Proof.Pivot

/-! Helper lemmas about inversion by blocks: the loop over bands. -/

namespace Mica

open Matrix

theorem arrayOf_symm {n : ℕ} {M : Matrix (Fin n) (Fin n) ℝ} (h : Mᵀ = M) (i j : ℕ) :
    arrayOf M i j = arrayOf M j i := by
  unfold arrayOf
  by_cases hi : i < n <;> by_cases hj : j < n <;> simp [hi, hj]
  exact congrFun (congrFun h ⟨j, hj⟩) ⟨i, hi⟩ |>.symm ▸ rfl

theorem posDef_symm {n : Type*} [Finite n] {M : Matrix n n ℝ} (hM : M.PosDef) : Mᵀ = M := by
  have := hM.1
  rwa [IsHermitian, conjTranspose_eq_transpose_of_trivial] at this

theorem posDef_leading {n m : ℕ} {M : Matrix (Fin n) (Fin n) ℝ} (hM : M.PosDef) (hm : m ≤ n) :
    (block (arrayOf M) 0 m 0 m).PosDef := by
  have : block (arrayOf M) 0 m 0 m = M.submatrix (Fin.castLE hm) (Fin.castLE hm) := by
    ext i j
    have hi := i.2
    have hj := j.2
    simp [block, arrayOf, show (i : ℕ) < n by omega, show (j : ℕ) < n by omega, Fin.castLE]
  rw [this]
  exact hM.submatrix (Fin.castLE_injective hm)

theorem lndetSymat_posDef {n : ℕ} {M : Matrix (Fin n) (Fin n) ℝ} (hM : M.PosDef) :
    lndetSymat M = Real.log M.det := by
  have hs := posDef_symm hM
  rw [lndetSymat, upperSym_of_symm hs, bkLndet_posDef (arrayOf_symm hs)
    (by rw [LeadPD, block_arrayOf]; exact hM), block_arrayOf]

theorem signSymat_posDef {n : ℕ} {M : Matrix (Fin n) (Fin n) ℝ} (hM : M.PosDef) :
    signSymat M = 1 := by
  have hs := posDef_symm hM
  rw [signSymat, upperSym_of_symm hs, bkSign_posDef (arrayOf_symm hs)
    (by rw [LeadPD, block_arrayOf]; exact hM)]

theorem partFastCore_eq {n1 n2 : ℕ} {P : Matrix (Fin n1) (Fin n1) ℝ} {S : Matrix (Fin n2) (Fin n2) ℝ}
    (Q : Matrix (Fin n1) (Fin n2) ℝ) (hP : Pᵀ = P) (hS : Sᵀ = S) :
    partFastCore P⁻¹ S Q (P⁻¹ * Q) = (P⁻¹ + P⁻¹ * Q * (S - Qᵀ * (P⁻¹ * Q))⁻¹ * (P⁻¹ * Q)ᵀ,
      -(P⁻¹ * Q * (S - Qᵀ * (P⁻¹ * Q))⁻¹), (S - Qᵀ * (P⁻¹ * Q))⁻¹,
      lndetSymat (S - Qᵀ * (P⁻¹ * Q))) := by
  have e : (-1 : ℝ) • (Qᵀ * (P⁻¹ * Q)) + (1 : ℝ) • S = S - Qᵀ * (P⁻¹ * Q) := by
    rw [neg_smul, one_smul, one_smul]; abel
  simp only [partFastCore]
  rw [e, inverseSymat_eq (schur_symm Q hP hS)]
  simp only [neg_smul, one_smul, Matrix.neg_mul, neg_neg]
  congr 1
  abel

/-- Determinant of the enlarged block. -/
theorem det_step (A : ℕ → ℕ → ℝ) (hA : ∀ i j, A i j = A j i) (n1 n2 : ℕ)
    (h1 : (block A 0 n1 0 n1).det ≠ 0) :
    (block A 0 (n1 + n2) 0 (n1 + n2)).det = (block A 0 n1 0 n1).det *
      (block A n1 n2 n1 n2 - (block A 0 n1 n1 n2)ᵀ * ((block A 0 n1 0 n1)⁻¹ * block A 0 n1 n1 n2)).det := by
  rw [← Matrix.det_submatrix_equiv_self finSumFinEquiv, block_split A hA]
  have := Matrix.invertibleOfIsUnitDet _ (isUnit_iff_ne_zero.2 h1)
  rw [Matrix.det_fromBlocks₁₁, Matrix.invOf_eq_nonsing_inv, Matrix.mul_assoc]

theorem LeadPD.mono {A : ℕ → ℕ → ℝ} {m n : ℕ} (h : LeadPD A n) (hm : m ≤ n) : LeadPD A m := by
  have : block A 0 m 0 m = (block A 0 n 0 n).submatrix (Fin.castLE hm) (Fin.castLE hm) := by
    ext i j
    simp [block, Fin.castLE]
  rw [LeadPD, this]
  exact Matrix.PosDef.submatrix h (Fin.castLE_injective hm)

/-- The Schur complement of the leading block of a positive definite array is positive definite. -/
theorem schur_posDef (A : ℕ → ℕ → ℝ) (hA : ∀ i j, A i j = A j i) (n1 n2 : ℕ)
    (h : LeadPD A (n1 + n2)) :
    (block A n1 n2 n1 n2 - (block A 0 n1 n1 n2)ᵀ *
      ((block A 0 n1 0 n1)⁻¹ * block A 0 n1 n1 n2)).PosDef := by
  have h1 : LeadPD A n1 := h.mono (by omega)
  have hne : (block A 0 n1 0 n1).det ≠ 0 := h1.det_pos.ne'
  have hinst := Matrix.invertibleOfIsUnitDet _ (isUnit_iff_ne_zero.2 hne)
  have hp : (fromBlocks (block A 0 n1 0 n1) (block A 0 n1 n1 n2) (block A 0 n1 n1 n2)ᴴ
      (block A n1 n2 n1 n2)).PosDef := by
    rw [Matrix.conjTranspose_eq_transpose_of_trivial, ← block_split A hA]
    exact Matrix.PosDef.submatrix h (Equiv.injective _)
  have hps := (Matrix.PosDef.fromBlocks₁₁ (block A 0 n1 n1 n2) (block A n1 n2 n1 n2) h1).1 hp.posSemidef
  rw [Matrix.conjTranspose_eq_transpose_of_trivial, Matrix.mul_assoc] at hps
  refine hps.posDef_iff_det_ne_zero.2 ?_
  intro h0
  have hd := det_step A hA n1 n2 hne
  rw [h0, mul_zero] at hd
  exact h.det_pos.ne' hd

/-- One band. -/
theorem core_step (A : ℕ → ℕ → ℝ) (hA : ∀ i j, A i j = A j i) (n1 n2 : ℕ)
    (h1 : (block A 0 n1 0 n1).det ≠ 0) (h2 : (block A 0 (n1 + n2) 0 (n1 + n2)).det ≠ 0) :
    let r := partFastCore (block A 0 n1 0 n1)⁻¹ (block A n1 n2 n1 n2) (block A 0 n1 n1 n2)
      ((block A 0 n1 0 n1)⁻¹ * block A 0 n1 n1 n2)
    block (assemble r.1 r.2.1 r.2.2.1) 0 (n1 + n2) 0 (n1 + n2) =
      (block A 0 (n1 + n2) 0 (n1 + n2))⁻¹ ∧
    (LeadPD A (n1 + n2) → Real.log (block A 0 n1 0 n1).det + r.2.2.2 =
      Real.log (block A 0 (n1 + n2) 0 (n1 + n2)).det) := by
  intro r
  have hr : r = _ := partFastCore_eq (block A 0 n1 n1 n2) (block_symm A hA 0 n1) (block_symm A hA n1 n2)
  have hd := det_step A hA n1 n2 h1
  have hs : (block A n1 n2 n1 n2 - (block A 0 n1 n1 n2)ᵀ *
      ((block A 0 n1 0 n1)⁻¹ * block A 0 n1 n1 n2)).det ≠ 0 := by
    intro h; rw [h, mul_zero] at hd; exact h2 hd
  constructor
  · have hb := block_inverse (block A 0 n1 n1 n2) (block_symm A hA 0 n1) (block_symm A hA n1 n2) h1 hs
    rw [← block_split A hA] at hb
    have e : (block (assemble r.1 r.2.1 r.2.2.1) 0 (n1 + n2) 0 (n1 + n2)).submatrix
        finSumFinEquiv finSumFinEquiv = fromBlocks r.1 r.2.1 r.2.1ᵀ r.2.2.1 := assemble_split _ _ _
    rw [hr] at e ⊢
    rw [← e, Matrix.submatrix_mul_equiv] at hb
    symm
    apply Matrix.inv_eq_right_inv
    have hb' := congrArg (fun M => Matrix.submatrix M finSumFinEquiv.symm finSumFinEquiv.symm) hb
    simpa using hb'
  · intro hpd
    rw [hr, hd, Real.log_mul h1 hs, lndetSymat_posDef (schur_posDef A hA n1 n2 hpd)]

/-- Invariant of the loop over bands. -/
def BandInv (A : ℕ → ℕ → ℝ) (st : ℕ × (ℕ → ℕ → ℝ) × ℝ) : Prop :=
  block st.2.1 0 st.1 0 st.1 = (block A 0 st.1 0 st.1)⁻¹ ∧
    (LeadPD A st.1 → st.2.2 = Real.log (block A 0 st.1 0 st.1).det)

theorem bandStep_inv (A : ℕ → ℕ → ℝ) (hA : ∀ i j, A i j = A j i) (st : ℕ × (ℕ → ℕ → ℝ) × ℝ) (nq : ℕ)
    (h1 : (block A 0 st.1 0 st.1).det ≠ 0) (h2 : (block A 0 (st.1 + nq) 0 (st.1 + nq)).det ≠ 0)
    (hi : BandInv A st) : BandInv A (bandStep A st nq) := by
  obtain ⟨ni, Ai, ld⟩ := st
  obtain ⟨hi1, hi2⟩ := hi
  simp only at hi1 hi2 h1 h2
  have := core_step A hA ni nq h1 h2
  simp only [BandInv, bandStep, partFast]
  rw [hi1]
  refine ⟨this.1, fun hpd => ?_⟩
  rw [hi2 (hpd.mono (by omega))]
  exact this.2 hpd

/-- Sizes reached by the loop. -/
def prefixSizes (n0 : ℕ) : List ℕ → List ℕ
  | [] => [n0]
  | q :: l => n0 :: prefixSizes (n0 + q) l

theorem mem_prefixSizes_le {n0 : ℕ} {narr : List ℕ} {m : ℕ} (h : m ∈ prefixSizes n0 narr) :
    m ≤ n0 + narr.sum := by
  induction narr generalizing n0 with
  | nil => simp [prefixSizes] at h; simp [h]
  | cons q l ih =>
    rw [prefixSizes, List.mem_cons] at h
    rcases h with rfl | h
    · omega
    · have := ih h
      simp only [List.sum_cons]; omega

theorem foldl_band (A : ℕ → ℕ → ℝ) (hA : ∀ i j, A i j = A j i) (narr : List ℕ) (st : ℕ × (ℕ → ℕ → ℝ) × ℝ)
    (hd : ∀ m ∈ prefixSizes st.1 narr, (block A 0 m 0 m).det ≠ 0) (hi : BandInv A st) :
    (narr.foldl (bandStep A) st).1 = st.1 + narr.sum ∧ BandInv A (narr.foldl (bandStep A) st) := by
  induction narr generalizing st with
  | nil => exact ⟨by simp, hi⟩
  | cons q l ih =>
    have h1 : (block A 0 st.1 0 st.1).det ≠ 0 := hd _ (by simp [prefixSizes])
    have h2 : (block A 0 (st.1 + q) 0 (st.1 + q)).det ≠ 0 := by
      apply hd
      cases l <;> simp [prefixSizes]
    have hstep := bandStep_inv A hA st q h1 h2 hi
    have := ih (bandStep A st q) (by
      intro m hm
      exact hd m (by rw [prefixSizes]; exact List.mem_cons_of_mem _ hm)) hstep
    refine ⟨?_, this.2⟩
    rw [List.foldl_cons, this.1]
    simp [bandStep, add_assoc]

end Mica
