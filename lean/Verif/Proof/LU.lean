import Verif.Model.LU
import Mathlib.LinearAlgebra.Matrix.Block
import Mathlib.Algebra.Order.BigOperators.Ring.Finset

namespace Mica

open Matrix

theorem det_lowUnit {n : ℕ} (a : Matrix (Fin n) (Fin n) ℝ) : (lowUnit a).det = 1 := by
  rw [Matrix.det_of_isLowerTriangular]
  · simp [lowUnit]
  · intro i j h
    have h : i < j := h
    simp [lowUnit, h.ne, not_lt.2 h.le]

theorem det_uppPart {n : ℕ} (a : Matrix (Fin n) (Fin n) ℝ) : (uppPart a).det = ∏ i, a i i := by
  rw [Matrix.det_of_isUpperTriangular]
  · simp [uppPart]
  · intro i j h
    have h : j < i := h
    simp [uppPart, not_le.2 h]

/-- The sign of one interchange. -/
noncomputable def swapSign {n : ℕ} (p : Fin n → Fin n) (i : Fin n) : ℝ := if (p i : ℕ) + 1 ≠ (i : ℕ) + 1 then -1 else 1

theorem swapSign_ne {n : ℕ} (p : Fin n → Fin n) (i : Fin n) : swapSign p i ≠ 0 := by
  unfold swapSign; split <;> norm_num

theorem swapSign_sq {n : ℕ} (p : Fin n → Fin n) (i : Fin n) : swapSign p i * swapSign p i = 1 := by
  unfold swapSign; split <;> norm_num

theorem det_rowSwaps {n : ℕ} (p : Fin n → Fin n) (l : List (Fin n)) (A : Matrix (Fin n) (Fin n) ℝ) :
    (rowSwaps p l A).det = (l.map (swapSign p)).prod * A.det := by
  induction l generalizing A with
  | nil => simp [rowSwaps]
  | cons i l ih =>
    have : rowSwaps p (i :: l) A = rowSwaps p l (A.submatrix (Equiv.swap i (p i)) id) := rfl
    rw [this, ih, Matrix.det_permute]
    simp only [List.map_cons, List.prod_cons]
    have hs : ((Equiv.Perm.sign (Equiv.swap i (p i)) : ℤˣ) : ℝ) = swapSign p i := by
      unfold swapSign
      by_cases h : p i = i
      · rw [h]; simp
      · rw [Equiv.Perm.sign_swap (Ne.symm h), if_pos (by intro h'; exact h (Fin.ext (by omega)))]
        simp
    rw [hs]; ring

theorem prod_signs {n : ℕ} (p : Fin n → Fin n) : ((List.finRange n).map (swapSign p)).prod = ∏ i, swapSign p i := by
  rw [← List.prod_ofFn, List.ofFn_eq_map]

theorem det_eq {n : ℕ} {A : Matrix (Fin n) (Fin n) ℝ} {o : LUOut n} (h : IsLU A o) :
    A.det = (∏ i, swapSign o.p i) * ∏ i, o.a i i := by
  have := congrArg Matrix.det h.prod
  rw [det_rowSwaps, Matrix.det_mul, det_lowUnit, det_uppPart, one_mul, prod_signs] at this
  rw [← this, ← mul_assoc, ← Finset.prod_mul_distrib]
  simp [swapSign_sq]

theorem det_zero_iff {n : ℕ} {A : Matrix (Fin n) (Fin n) ℝ} {o : LUOut n} (h : IsLU A o) :
    A.det = 0 ↔ ∃ i, o.a i i = 0 := by
  rw [det_eq h, mul_eq_zero, Finset.prod_eq_zero_iff, Finset.prod_eq_zero_iff]
  simp [swapSign_ne]

theorem foldl_det {n : ℕ} (o : LUOut n) (l : List (Fin n)) (d : ℝ) :
    l.foldl (fun det i => let det := det * o.a i i; if (o.p i : ℕ) + 1 ≠ (i : ℕ) + 1 then -det else det) d =
      d * (l.map fun i => swapSign o.p i * o.a i i).prod := by
  induction l generalizing d with
  | nil => simp
  | cons i l ih =>
    rw [List.foldl_cons, ih, List.map_cons, List.prod_cons]
    unfold swapSign
    dsimp only
    split <;> ring

theorem foldl_ln {n : ℕ} (o : LUOut n) (l : List (Fin n)) (d : ℝ) :
    l.foldl (fun s i => s + Real.log |o.a i i|) d = d + (l.map fun i => Real.log |o.a i i|).sum := by
  induction l generalizing d with
  | nil => simp
  | cons i l ih => rw [List.foldl_cons, ih, List.map_cons, List.sum_cons]; ring

theorem finRange_sum {n : ℕ} (f : Fin n → ℝ) : ((List.finRange n).map f).sum = ∑ i, f i := by
  rw [← List.sum_ofFn, List.ofFn_eq_map]

theorem finRange_prod {n : ℕ} (f : Fin n → ℝ) : ((List.finRange n).map f).prod = ∏ i, f i := by
  rw [← List.prod_ofFn, List.ofFn_eq_map]

theorem log_abs_det {n : ℕ} {A : Matrix (Fin n) (Fin n) ℝ} {o : LUOut n} (h : IsLU A o) (h0 : ¬ ∃ i, o.a i i = 0) :
    Real.log |A.det| = ∑ i, Real.log |o.a i i| := by
  have h1 : |A.det| = ∏ i, |o.a i i| := by
    rw [det_eq h, abs_mul, Finset.abs_prod, Finset.abs_prod]
    have : ∀ i, |swapSign o.p i| = 1 := by intro i; unfold swapSign; split <;> norm_num
    simp [this]
  rw [h1, Real.log_prod]
  intro i _
  exact abs_ne_zero.2 fun h => h0 ⟨i, h⟩

open Classical in
/-- Sign of one factor. -/
noncomputable def pivSign {n : ℕ} (o : LUOut n) (i : Fin n) : ℤ :=
  (if 0 ≤ o.a i i then 1 else -1) * (if (o.p i : ℕ) + 1 ≠ (i : ℕ) + 1 then -1 else 1)

theorem foldl_3 {n : ℕ} (o : LUOut n) (l : List (Fin n)) (s : ℝ × ℤ) :
    l.foldl (fun s i =>
    let sg : ℤ := s.2 * (open Classical in if 0 ≤ o.a i i then 1 else -1)
    (s.1 + Real.log |o.a i i|, if (o.p i : ℕ) + 1 ≠ (i : ℕ) + 1 then sg * -1 else sg)) s =
      (s.1 + (l.map fun i => Real.log |o.a i i|).sum, s.2 * (l.map (pivSign o)).prod) := by
  induction l generalizing s with
  | nil => simp
  | cons i l ih =>
    rw [List.foldl_cons, ih, List.map_cons, List.sum_cons, List.map_cons, List.prod_cons]
    unfold pivSign
    dsimp only
    ext
    · dsimp only; ring
    · dsimp only; split <;> ring

theorem pivSign_mul {n : ℕ} (o : LUOut n) (i : Fin n) : (pivSign o i : ℝ) * |o.a i i| = swapSign o.p i * o.a i i := by
  unfold pivSign swapSign
  by_cases h : 0 ≤ o.a i i
  · rw [if_pos h, abs_of_nonneg h]; split <;> simp
  · rw [if_neg h, abs_of_neg (not_le.1 h)]; split <;> simp

theorem pivSign_or {n : ℕ} (o : LUOut n) (i : Fin n) : pivSign o i = 1 ∨ pivSign o i = -1 := by
  unfold pivSign; split <;> split <;> simp

theorem prod_pivSign {n : ℕ} {A : Matrix (Fin n) (Fin n) ℝ} {o : LUOut n} (h : IsLU A o) (h0 : A.det ≠ 0) :
    ((List.finRange n).map (pivSign o)).prod = (open Classical in if 0 < A.det then 1 else -1) := by
  have e : ((List.finRange n).map (pivSign o)).prod = ∏ i, pivSign o i := by
    rw [← List.prod_ofFn, List.ofFn_eq_map]
  rw [e]
  have h1 : ((∏ i, pivSign o i : ℤ) : ℝ) * |A.det| = A.det := by
    have h2 : |A.det| = ∏ i, |o.a i i| := by
      rw [det_eq h, abs_mul, Finset.abs_prod, Finset.abs_prod]
      have : ∀ i, |swapSign o.p i| = 1 := by intro i; unfold swapSign; split <;> norm_num
      simp [this]
    rw [h2]
    push_cast
    rw [← Finset.prod_mul_distrib, det_eq h, ← Finset.prod_mul_distrib]
    exact Finset.prod_congr rfl fun i _ => pivSign_mul o i
  have hor : (∏ i, pivSign o i) = 1 ∨ (∏ i, pivSign o i) = -1 := by
    apply Finset.prod_induction (pivSign o) (fun z : ℤ => z = 1 ∨ z = -1)
    · rintro a b (ha | ha) (hb | hb) <;> simp [ha, hb]
    · left; rfl
    · intro i _; exact pivSign_or o i
  have hpos := abs_pos.2 h0
  rcases hor with h3 | h3
  · rw [h3] at h1 ⊢
    rw [if_pos (by push_cast at h1; linarith)]
  · rw [h3] at h1 ⊢
    rw [if_neg (by push_cast at h1; linarith)]

end Mica
