import Verif.Proof.BlockInv
import Mathlib.Analysis.Matrix.PosDef
import Mathlib.Algebra.Order.Star.Real

/-! # C25: inversion by blocks -/

namespace Mica

open Matrix

/-- C25: the block formula returns the four blocks of the inverse (only the upper triangle of the
Schur complement is ever formed). -/
theorem C25_partition (n1 n2 : ℕ) (P : Matrix (Fin n1) (Fin n1) ℝ) (S : Matrix (Fin n2) (Fin n2) ℝ)
    (Q : Matrix (Fin n1) (Fin n2) ℝ) (hP : Pᵀ = P) (hS : Sᵀ = S) (hPu : P.det ≠ 0)
    (hSu : (S - Qᵀ * (P⁻¹ * Q)).det ≠ 0) :
    (fromBlocks P Q Qᵀ S)⁻¹ = fromBlocks (partition P S Q).1 (partition P S Q).2.1
      (partition P S Q).2.1ᵀ (partition P S Q).2.2 ∧
    partInv P⁻¹ S Q = partition P S Q := by
  have e : partition P S Q = partInv P⁻¹ S Q := by
    simp only [partition, partInv, inverseSymat_eq hP]
  rw [e, partInv_eq Q hP hS]
  exact ⟨Matrix.inv_eq_right_inv (block_inverse Q hP hS hPu hSu), rfl⟩

/-- The loop over bands. -/
theorem partIter_fold {A : ℕ → ℕ → ℝ} {n0 : ℕ} {narr : List ℕ} (hne : narr ≠ []) :
    partIter A n0 narr = narr.foldl (bandStep A) (n0, arrayOf (inverseSymat (block A 0 n0 0 n0)),
      lndetSymat (block A 0 n0 0 n0)) := by
  cases narr with
  | nil => exact absurd rfl hne
  | cons q l => rfl

theorem bandInv_start {A : ℕ → ℕ → ℝ} (hA : ∀ i j, A i j = A j i) (n0 : ℕ) :
    BandInv A (n0, arrayOf (inverseSymat (block A 0 n0 0 n0)), lndetSymat (block A 0 n0 0 n0)) := by
  constructor
  · simp only [block_arrayOf]
    rw [inverseSymat_eq (block_symm _ hA 0 n0)]
  · exact fun hpd => lndetSymat_posDef hpd

/-- C25 (partial: at least one band after the first block): iterating over any number of bands of any
sizes gives the inverse of the whole matrix. -/
theorem C25_iter_partial (n0 : ℕ) (narr : List ℕ) (hne : narr ≠ [])
    (M : Matrix (Fin (n0 + narr.sum)) (Fin (n0 + narr.sum)) ℝ) (hM : Mᵀ = M)
    (hd : ∀ m ∈ prefixSizes n0 narr, (block (arrayOf M) 0 m 0 m).det ≠ 0) :
    block (partIter (arrayOf M) n0 narr).2.1 0 (n0 + narr.sum) 0 (n0 + narr.sum) = M⁻¹ := by
  have hA := arrayOf_symm hM
  obtain ⟨h1, h2, _⟩ := foldl_band (arrayOf M) hA narr _ hd (bandInv_start hA n0)
  rw [← partIter_fold hne] at h1 h2
  have h1' : (partIter (arrayOf M) n0 narr).1 = n0 + narr.sum := h1
  rw [h1', block_arrayOf] at h2
  exact h2

/-- C25: for a positive definite matrix the band iteration returns the logarithm of the determinant,
whatever the number of bands. -/
theorem C25_iter_lndet (n0 : ℕ) (narr : List ℕ)
    (M : Matrix (Fin (n0 + narr.sum)) (Fin (n0 + narr.sum)) ℝ) (hM : M.PosDef) :
    (partIter (arrayOf M) n0 narr).2.2 = Real.log M.det := by
  have hs : Mᵀ = M := posDef_symm hM
  have hA := arrayOf_symm hs
  have hd : ∀ m ∈ prefixSizes n0 narr, (block (arrayOf M) 0 m 0 m).det ≠ 0 := fun m hm =>
    (posDef_leading hM (mem_prefixSizes_le hm)).det_pos.ne'
  obtain ⟨h1, _, h3⟩ := foldl_band (arrayOf M) hA narr _ hd (bandInv_start hA n0)
  have e : (partIter (arrayOf M) n0 narr).2.2 = (narr.foldl (bandStep (arrayOf M)) (n0,
      arrayOf (inverseSymat (block (arrayOf M) 0 n0 0 n0)), lndetSymat (block (arrayOf M) 0 n0 0 n0))).2.2 := by
    cases narr <;> rfl
  rw [e]
  have h1' : (narr.foldl (bandStep (arrayOf M)) (n0, arrayOf (inverseSymat (block (arrayOf M) 0 n0 0 n0)),
    lndetSymat (block (arrayOf M) 0 n0 0 n0))).1 = n0 + narr.sum := h1
  rw [LeadPD, h1', block_arrayOf] at h3
  exact h3 hM

/-- C25 (partial: at least one band): for a positive definite matrix the band iteration returns the inverse
and the logarithm of the determinant. -/
theorem C25_iter_posdef_partial (n0 : ℕ) (narr : List ℕ) (hne : narr ≠ [])
    (M : Matrix (Fin (n0 + narr.sum)) (Fin (n0 + narr.sum)) ℝ) (hM : M.PosDef) :
    block (partIter (arrayOf M) n0 narr).2.1 0 (n0 + narr.sum) 0 (n0 + narr.sum) = M⁻¹ ∧
    (partIter (arrayOf M) n0 narr).2.2 = Real.log M.det :=
  ⟨C25_iter_partial n0 narr hne M (posDef_symm hM) fun _ hm =>
    (posDef_leading hM (mem_prefixSizes_le hm)).det_pos.ne', C25_iter_lndet n0 narr M hM⟩

/-- The first band with the semiseparable solver is the same step. -/
theorem bandStepSemi_eq {t sigma : ℕ → ℝ} {a c syserr : ℝ} {n0 : ℕ} (A : ℕ → ℕ → ℝ)
    (hmono : ∀ i, i + 1 < n0 → t i ≤ t (i + 1))
    (hpos : ∀ i < n0, 0 < ssD t a c sigma syserr i)
    (hlead : block A 0 n0 0 n0 = ssC t a c sigma syserr n0) (Ai : ℕ → ℕ → ℝ)
    (hAi : block Ai 0 n0 0 n0 = (block A 0 n0 0 n0)⁻¹) (ld : ℝ) (nq : ℕ) :
    bandStepSemi (ssW t a c sigma syserr) (ssD t a c sigma syserr) (ssPhi t c) a A (n0, Ai, ld) nq
      = bandStep A (n0, Ai, ld) nq := by
  have hne := fun i hi => (hpos i hi).ne'
  have hw : (fun (i : Fin n0) (j : Fin nq) => ssSolveMat (fun i j => A i (n0 + j)) (ssW t a c sigma syserr)
      (ssD t a c sigma syserr) (ssPhi t c) n0 a i j) = (block Ai 0 n0 0 n0) * block A 0 n0 n0 nq := by
    have hmul : ssC t a c sigma syserr n0 * (Matrix.of fun (i : Fin n0) (j : Fin nq) =>
        ssSolveMat (fun i j => A i (n0 + j)) (ssW t a c sigma syserr)
          (ssD t a c sigma syserr) (ssPhi t c) n0 a i j) = block A 0 n0 n0 nq := by
      ext i j
      have := congrFun (ssSolve_spec hmono hne (fun i => A i (n0 + j))) i
      simp only [Matrix.mul_apply, Matrix.of_apply, block, zero_add]
      exact this
    have hu : IsUnit (ssC t a c sigma syserr n0).det := by
      rw [ssC_det hmono hne]
      exact isUnit_iff_ne_zero.2 (Finset.prod_pos fun (i : Fin n0) _ => hpos i i.2).ne'
    rw [hAi, hlead, ← hmul, ← Matrix.mul_assoc, Matrix.nonsing_inv_mul _ hu, Matrix.one_mul]
    rfl
  simp only [bandStepSemi, bandStep, partFast]
  rw [hw]

/-- C25 (partial: the inverse with at least one band only): the variant that treats the continuum block with
the semiseparable solver returns the same inverse and log-determinant, provided the leading block is the
continuum covariance. -/
theorem C25_semi_iter_partial (n0 : ℕ) (narr : List ℕ) (t sigma : ℕ → ℝ) (a c syserr : ℝ) (ha : 0 < a)
    (hc : 0 < c) (hmono : ∀ i, i + 1 < n0 → t i ≤ t (i + 1))
    (hN : (∀ i < n0, 0 < sigma i * sigma i + syserr * syserr) ∨ ∀ i, i + 1 < n0 → t i < t (i + 1))
    (M : Matrix (Fin (n0 + narr.sum)) (Fin (n0 + narr.sum)) ℝ) (hM : M.PosDef)
    (hlead : ∀ i j : Fin n0, M (Fin.castAdd _ i) (Fin.castAdd _ j) =
      drwCov a c (fun i : Fin n0 => t i) (fun i => sigma i * sigma i + syserr * syserr) i j) :
    (narr ≠ [] → block (semiIter t a c sigma syserr (arrayOf M) n0 narr).2.1 0 (n0 + narr.sum) 0 (n0 + narr.sum) = M⁻¹) ∧
    (semiIter t a c sigma syserr (arrayOf M) n0 narr).2.2 = Real.log M.det := by
  have hs : Mᵀ = M := posDef_symm hM
  have hA := arrayOf_symm hs
  have hpos := fun i hi => (ss_pos ha hc hmono hN i hi).2.2
  have hne := fun i hi => (hpos i hi).ne'
  have hl : block (arrayOf M) 0 n0 0 n0 = ssC t a c sigma syserr n0 := by
    ext i j
    rw [ssC, ← hlead i j]
    have hi := i.2
    have hj := j.2
    simp [block, arrayOf, show (i : ℕ) < n0 + narr.sum by omega, show (j : ℕ) < n0 + narr.sum by omega,
      Fin.castAdd, Fin.castLE]
  have e : ssInverse t a c (ssW t a c sigma syserr) (ssD t a c sigma syserr) n0 =
      inverseSymat (block (arrayOf M) 0 n0 0 n0) := by
    rw [inverseSymat_eq (block_symm _ hA 0 n0), hl, ssInverse_eq hmono hpos]
  have e2 : ssLndet (ssD t a c sigma syserr) n0 = lndetSymat (block (arrayOf M) 0 n0 0 n0) := by
    rw [lndetSymat_posDef (posDef_leading hM (by omega)), hl, ssLndet_eq _ hpos, ssC_det hmono hne]
  have heq : semiIter t a c sigma syserr (arrayOf M) n0 narr = partIter (arrayOf M) n0 narr := by
    unfold semiIter partIter
    cases narr with
    | nil => simp only [e2]
    | cons q l =>
      simp only
      rw [e, e2, bandStepSemi_eq (arrayOf M) hmono hpos hl]
      rw [block_arrayOf, inverseSymat_eq (block_symm _ hA 0 n0)]
  rw [heq]
  exact ⟨fun hne => (C25_iter_posdef_partial n0 narr hne M hM).1, C25_iter_lndet n0 narr M hM⟩

/-- C25 fails without a band (a data set without lines): the array still holds the matrix itself. -/
theorem C25_no_band (n0 : ℕ) (t sigma : ℕ → ℝ) (a c syserr : ℝ) (M : Matrix (Fin n0) (Fin n0) ℝ) :
    block (partIter (arrayOf M) n0 []).2.1 0 n0 0 n0 = M ∧
    block (semiIter t a c sigma syserr (arrayOf M) n0 []).2.1 0 n0 0 n0 = M :=
  ⟨block_arrayOf M, block_arrayOf M⟩

/-- The matrix (2) is positive definite and not its own inverse. -/
example : (Matrix.diagonal fun _ => 2 : Matrix (Fin 1) (Fin 1) ℝ).PosDef ∧
    block (partIter (arrayOf (Matrix.diagonal fun _ => 2 : Matrix (Fin 1) (Fin 1) ℝ)) 1 []).2.1 0 1 0 1 ≠
      (Matrix.diagonal fun _ => 2 : Matrix (Fin 1) (Fin 1) ℝ)⁻¹ := by
  refine ⟨Matrix.PosDef.diagonal (by simp), ?_⟩
  rw [(C25_no_band 1 (fun _ => 0) (fun _ => 0) 0 0 0 _).1]
  intro h
  have h2 : (Matrix.diagonal fun _ => 2 : Matrix (Fin 1) (Fin 1) ℝ) * (Matrix.diagonal fun _ => 2) = 1 := by
    conv_lhs => lhs; rw [h]
    exact Matrix.nonsing_inv_mul _ (by simp)
  have h1 := congrFun (congrFun h2 0) 0
  rw [Matrix.diagonal_mul_diagonal, Matrix.diagonal_apply_eq, Matrix.one_apply_eq] at h1
  norm_num at h1

/-- A positive definite matrix with three bands of sizes 2, 1 and 1. -/
example : block (partIter (arrayOf (Matrix.diagonal fun _ => 2 : Matrix (Fin (2 + [1, 1].sum)) _ ℝ)) 2
    [1, 1]).2.1 0 (2 + [1, 1].sum) 0 (2 + [1, 1].sum) =
    (Matrix.diagonal fun _ => 2 : Matrix (Fin (2 + [1, 1].sum)) _ ℝ)⁻¹ :=
  (C25_iter_posdef_partial 2 [1, 1] (by simp) _ (Matrix.PosDef.diagonal (by simp))).1

end Mica
