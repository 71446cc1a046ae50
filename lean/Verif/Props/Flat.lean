import Verif.Proof.FlatSemi
import Verif.Proof.FlatVec

/-!
# C105: The matrix helpers compute the products they name and touch nothing else

Every helper gets bare pointers and numbers of rows and columns; the theorems say which matrix it reads at which pointer, which
one it leaves, and that nothing but the result changes.
-/

namespace Mica

open Matrix

/-- **C105.** Products of matrices of any shape: `A B`, `Aᵀ B`, `A Bᵀ` and their versions with factors; the old content of the
result matters only through `beta`. -/
theorem C105_matrices (sz : Arr → ℕ) (a b c : DPtr) (m n k : ℕ) (alpha beta : ℝ) (M : Mem) (hm : 0 < m) (hn : 0 < n) (hk : 0 < k)
    (ia : inside sz a (m * k)) (ib : inside sz b (k * n)) (ic : inside sz c (m * n))
    (da : apart c (m * n) a (m * k)) (db : apart c (m * n) b (k * n)) :
    Leaves (fMN sz a b c m n k M) M c (m * n) (fun M' => matAt M' c m n = matAt M a m k * matAt M b k n) ∧
    Leaves (fMNTA sz a b c m n k M) M c (m * n) (fun M' => matAt M' c m n = (matAt M a k m)ᵀ * matAt M b k n) ∧
    Leaves (fMNTB sz a b c m n k M) M c (m * n) (fun M' => matAt M' c m n = matAt M a m k * (matAt M b n k)ᵀ) ∧
    Leaves (fMNab sz a b c m n k alpha beta M) M c (m * n)
      (fun M' => matAt M' c m n = alpha • (matAt M a m k * matAt M b k n) + beta • matAt M c m n) ∧
    Leaves (fMNTAab sz a b c m n k alpha beta M) M c (m * n)
      (fun M' => matAt M' c m n = alpha • ((matAt M a k m)ᵀ * matAt M b k n) + beta • matAt M c m n) ∧
    Leaves (fMNTBab sz a b c m n k alpha beta M) M c (m * n)
      (fun M' => matAt M' c m n = alpha • (matAt M a m k * (matAt M b n k)ᵀ) + beta • matAt M c m n) := by
  refine ⟨?_, ?_, ?_, fMN_spec hm hn hk ia ib ic da db, fMNTA_spec hm hn hk ia ib ic da db, fMNTB_spec hm hn hk ia ib ic da db⟩
  · obtain ⟨M', e, o, v⟩ := fMN_spec (M := M) (alpha := 1) (beta := 0) hm hn hk ia ib ic da db
    exact ⟨M', e, o, by beta_reduce; rw [v, one_smul, zero_smul, add_zero]⟩
  · obtain ⟨M', e, o, v⟩ := fMNTA_spec (M := M) (alpha := 1) (beta := 0) hm hn hk ia ib ic da db
    exact ⟨M', e, o, by beta_reduce; rw [v, one_smul, zero_smul, add_zero]⟩
  · obtain ⟨M', e, o, v⟩ := fMNTB_spec (M := M) (alpha := 1) (beta := 0) hm hn hk ia ib ic da db
    exact ⟨M', e, o, by beta_reduce; rw [v, one_smul, zero_smul, add_zero]⟩

/-- **C105.** Square matrices and vectors. -/
theorem C105_square (sz : Arr → ℕ) (a b c x y : DPtr) (n : ℕ) (M : Mem) (hn : 0 < n)
    (ia : inside sz a (n * n)) (ib : inside sz b (n * n)) (ic : inside sz c (n * n)) (ix : inside sz x n) (iy : inside sz y n)
    (da : apart c (n * n) a (n * n)) (db : apart c (n * n) b (n * n)) (dy : apart y n a (n * n)) (dx : apart y n x n) :
    Leaves (fMat sz a b c n M) M c (n * n) (fun M' => matAt M' c n n = matAt M a n n * matAt M b n n) ∧
    Leaves (fMatTA sz a b c n M) M c (n * n) (fun M' => matAt M' c n n = (matAt M a n n)ᵀ * matAt M b n n) ∧
    Leaves (fMatTB sz a b c n M) M c (n * n) (fun M' => matAt M' c n n = matAt M a n n * (matAt M b n n)ᵀ) ∧
    Leaves (fMatvec sz a x n y M) M y n (fun M' => vecAt M' y n = (matAt M a n n).mulVec (vecAt M x n)) ∧
    Leaves (fMatvecTA sz a x n y M) M y n (fun M' => vecAt M' y n = (matAt M a n n)ᵀ.mulVec (vecAt M x n)) := by
  obtain ⟨h1, h2, h3, -⟩ := C105_matrices sz a b c n n n 1 0 M hn hn hn ia ib ic da db
  refine ⟨h1, h2, h3, ?_, ?_⟩
  · obtain ⟨M', e, o, v⟩ := fMatvec_spec (M := M) (alpha := 1) (beta := 0) hn ia ix iy dy dx
    exact ⟨M', e, o, by beta_reduce; rw [v, one_smul, zero_smul, add_zero]⟩
  · obtain ⟨M', e, o, v⟩ := fMatvecTA_spec (M := M) (alpha := 1) (beta := 0) hn ia ix iy dy dx
    exact ⟨M', e, o, by beta_reduce; rw [v, one_smul, zero_smul, add_zero]⟩

/-- **C105.** Products with vectors: `A x` and its version with factors. -/
theorem C105_vector (sz : Arr → ℕ) (a x y : DPtr) (m n : ℕ) (alpha beta : ℝ) (M : Mem) (hn : 0 < n)
    (ia : inside sz a (m * n)) (ix : inside sz x n) (iy : inside sz y m) (da : apart y m a (m * n)) (dx : apart y m x n) :
    Leaves (fMatvecMN sz a m n x y M) M y m (fun M' => vecAt M' y m = (matAt M a m n).mulVec (vecAt M x n)) ∧
    Leaves (fMatvecMNab sz a m n x y alpha beta M) M y m
      (fun M' => vecAt M' y m = alpha • (matAt M a m n).mulVec (vecAt M x n) + beta • vecAt M y m) := by
  refine ⟨?_, fMatvec_spec hn ia ix iy da dx⟩
  obtain ⟨M', e, o, v⟩ := fMatvec_spec (M := M) (alpha := 1) (beta := 0) hn ia ix iy da dx
  exact ⟨M', e, o, by beta_reduce; rw [v, one_smul, zero_smul, add_zero]⟩

/-- **C105.** Products with vectors: `Aᵀ x` and its version with factors.  The vector read has `m` elements and the one written
`n` (the comments in the source, "y(m) = A^T(m, n) * x(n)", have it the other way round). -/
theorem C105_vector_transposed (sz : Arr → ℕ) (a x y : DPtr) (m n : ℕ) (alpha beta : ℝ) (M : Mem) (hn : 0 < n)
    (ia : inside sz a (m * n)) (ix : inside sz x m) (iy : inside sz y n) (da : apart y n a (m * n)) (dx : apart y n x m) :
    Leaves (fMatvecMNTA sz a m n x y M) M y n (fun M' => vecAt M' y n = (matAt M a m n)ᵀ.mulVec (vecAt M x m)) ∧
    Leaves (fMatvecMNTAab sz a m n x y alpha beta M) M y n
      (fun M' => vecAt M' y n = alpha • (matAt M a m n)ᵀ.mulVec (vecAt M x m) + beta • vecAt M y n) := by
  refine ⟨?_, fMatvecTA_spec hn ia ix iy da dx⟩
  obtain ⟨M', e, o, v⟩ := fMatvecTA_spec (M := M) (alpha := 1) (beta := 0) hn ia ix iy da dx
  exact ⟨M', e, o, by beta_reduce; rw [v, one_smul, zero_smul, add_zero]⟩

/-- **C105.** Whoever takes the comment at its word and provides a result of `m < n` elements has memory behind it
overwritten. -/
theorem C105_vector_transposed_short (sz : Arr → ℕ) (a x y : DPtr) (m n : ℕ) (M : Mem) (hn : 0 < n)
    (hy : sz y.arr < y.off + n) : fMatvecMNTA sz a m n x y M = .ub := by
  unfold fMatvecMNTA dgemv
  dsimp only
  rw [if_neg (by omega), if_pos]
  rintro ⟨-, -, h⟩
  unfold inside at h
  simp only [if_true] at h
  omega

/-- **C105.** A product over an empty index or with an empty result is refused by the library. -/
theorem C105_empty (sz : Arr → ℕ) (a b c : DPtr) (m n k : ℕ) (M : Mem) (h : n = 0 ∨ k = 0) :
    fMN sz a b c m n k M = .exit := by
  unfold fMN dgemm
  dsimp only
  rw [if_pos]
  simp only [Bool.false_eq_true, if_false]
  omega

/-- **C105.** `multiply_vec2mat` leaves the matrix of all products. -/
theorem C105_outer (sz : Arr → ℕ) (x a : DPtr) (n : ℕ) (M : Mem) (ix : inside sz x n) (ia : inside sz a (n * n))
    (d : apart x n a (n * n)) :
    Leaves (fVec2mat sz x a n M) M a (n * n) (fun M' => ∀ i j, matAt M' a n n i j = vecAt M x n i * vecAt M x n j) := by
  obtain ⟨M', e, o, v⟩ := fVec2mat_spec (M := M) ix ia d
  exact ⟨M', e, o, fun i j => by rw [v]; rfl⟩

/-- **C105.** The inverse of a symmetric matrix: whatever is below the diagonal is not read, and the full inverse is left in
place of the matrix. -/
theorem C105_inverse (sz : Arr → ℕ) (p : DPtr) (n : ℕ) (M : Mem) (S : Matrix (Fin n) (Fin n) ℝ) (hi : inside sz p (n * n))
    (hp : n ≤ sz (.sh .ipiv)) (hS : Sᵀ = S) (hu : ∀ i j, i ≤ j → matAt M p n n i j = S i j) (hd : S.det ≠ 0) :
    ∃ l s M', fInverseSymat sz p n M = .ok (some (l, s, M')) ∧ Only (reg p (n * n)) M M' ∧ matAt M' p n n * S = 1 := by
  have e : upperSym (matAt M p n n) = S := by rw [← upperSym_of_symm hS]; exact upperSym_congr hu
  obtain ⟨M', e1, o1, v1⟩ := fInverseSymat_spec (M := M) hi hp (by rw [e]; exact hd)
  refine ⟨_, _, M', e1, o1, ?_⟩
  rw [v1, inverseSymat, e]
  have hu : IsUnit S.det := isUnit_iff_ne_zero.2 hd
  rw [upperSym_of_symm (by rw [Matrix.transpose_nonsing_inv, hS])]
  exact Matrix.nonsing_inv_mul S hu

/-- **C105.** What the inversion needs, and all it needs: room for the matrix and one pivot for each row.  Whatever the matrix
holds, with that room it ends normally, and with less the program writes or reads outside. -/
theorem C105_inverse_room (sz : Arr → ℕ) (p : DPtr) (n : ℕ) (M : Mem) :
    fInverseSymat sz p n M = .ub ↔ ¬ inside sz p (n * n) ∨ sz (.sh .ipiv) < n := by
  constructor
  · intro h
    by_contra hc
    push Not at hc
    by_cases hd : (upperSym (matAt M p n n)).det = 0
    · rw [fInverseSymat_none hc.1 hc.2 hd] at h; cases h
    · obtain ⟨M', e, _⟩ := fInverseSymat_spec hc.1 hc.2 hd
      rw [e] at h; cases h
  · intro h
    unfold fInverseSymat
    rw [if_pos]
    rcases h with h | h
    · exact fun hc => h hc.1
    · exact fun hc => by omega

/-- The hypotheses are met by a 2x3 and a 3x2 matrix kept one after the other in the workspace, the result behind them. -/
example : let sz : Arr → ℕ := fun _ => 16
    inside sz ⟨.sh .workspace, 0⟩ (2 * 3) ∧ inside sz ⟨.sh .workspace, 6⟩ (3 * 2) ∧ inside sz ⟨.sh .workspace, 12⟩ (2 * 2) ∧
    apart ⟨.sh .workspace, 12⟩ (2 * 2) ⟨.sh .workspace, 0⟩ (2 * 3) ∧ apart ⟨.sh .workspace, 12⟩ (2 * 2) ⟨.sh .workspace, 6⟩ (3 * 2) := by
  simp [inside, apart]

end Mica
