import Verif.Model.Pivot
import Verif.Proof.BlockInv0
import Mathlib.Analysis.Matrix.PosDef
import Mathlib.Analysis.Matrix.Order
import Mathlib.Algebra.Order.Star.Real
import Mathlib.Tactic

/-! Helper lemmas about the pivots of the symmetric factorisation. -/

namespace Mica

open Matrix

theorem bkAlpha_pos : 0 < bkAlpha := by unfold bkAlpha; positivity

theorem bkAlpha_lt_one : bkAlpha < 1 := by
  have : Real.sqrt 17 < 7 := by
    rw [Real.sqrt_lt' (by norm_num)]; norm_num
  unfold bkAlpha; linarith

theorem amaxIdx_lt (f : ℕ → ℝ) (m : ℕ) (hm : 0 < m) : amaxIdx f m < m := by
  induction m with
  | zero => omega
  | succ k ih =>
    simp only [amaxIdx]
    split
    · omega
    · rcases Nat.eq_zero_or_pos k with rfl | h
      · simp [amaxIdx]
      · have := ih h; omega

theorem le_rowMax (A : ℕ → ℕ → ℝ) (r m j : ℕ) (hj : j < m) (hr : j ≠ r) : |A r j| ≤ rowMax A r m := by
  induction m with
  | zero => omega
  | succ k ih =>
    simp only [rowMax]
    rcases Nat.lt_succ_iff_lt_or_eq.1 hj with h | rfl
    · split
      · exact ih h
      · exact le_max_of_le_left (ih h)
    · rw [if_neg hr]; exact le_max_right _ _

/-- Positive definiteness of the leading part of an array. -/
def LeadPD (A : ℕ → ℕ → ℝ) (m : ℕ) : Prop := (block A 0 m 0 m).PosDef

theorem LeadPD.diag {A : ℕ → ℕ → ℝ} {m : ℕ} (h : LeadPD A m) {i : ℕ} (hi : i < m) : 0 < A i i := by
  have := h.diag_pos (i := ⟨i, hi⟩)
  simpa [block] using this

/-- Two-by-two minors are positive. -/
theorem LeadPD.minor {A : ℕ → ℕ → ℝ} (hA : ∀ i j, A i j = A j i) {m : ℕ} (h : LeadPD A m) {i j : ℕ}
    (hi : i < m) (hj : j < m) (hij : i ≠ j) : A i j * A i j < A i i * A j j := by
  have hinj : Function.Injective (![⟨i, hi⟩, ⟨j, hj⟩] : Fin 2 → Fin m) := by
    intro a b hab
    fin_cases a <;> fin_cases b <;> simp_all
  have := (h.submatrix hinj).det_pos
  rw [Matrix.det_fin_two] at this
  simp only [submatrix_apply, block, zero_add, Matrix.cons_val_zero, Matrix.cons_val_one] at this
  rw [hA j i] at this
  linarith

theorem swapRC_symm {A : ℕ → ℕ → ℝ} (hA : ∀ i j, A i j = A j i) (r s : ℕ) :
    ∀ i j, swapRC A r s i j = swapRC A r s j i := fun _ _ => hA _ _

theorem elim1_symm {A : ℕ → ℕ → ℝ} (hA : ∀ i j, A i j = A j i) (m : ℕ) :
    ∀ i j, elim1 A m i j = elim1 A m j i := by
  intro i j
  simp only [elim1]
  rw [hA i j, mul_comm (A i m)]

/-- Interchange within the leading part, as a relabelling. -/
theorem block_swap (A : ℕ → ℕ → ℝ) {r s m : ℕ} (hr : r < m) (hs : s < m) :
    block (swapRC A r s) 0 m 0 m =
      (block A 0 m 0 m).submatrix (Equiv.swap (⟨r, hr⟩ : Fin m) ⟨s, hs⟩) (Equiv.swap ⟨r, hr⟩ ⟨s, hs⟩) := by
  have key : ∀ i : Fin m, Equiv.swap r s (i : ℕ) = ((Equiv.swap (⟨r, hr⟩ : Fin m) ⟨s, hs⟩ i : Fin m) : ℕ) := by
    intro i
    simp only [Equiv.swap_apply_def, Fin.ext_iff]
    split_ifs <;> rfl
  ext i j
  simp only [block, swapRC, submatrix_apply, zero_add]
  rw [key i, key j]

theorem LeadPD.swap {A : ℕ → ℕ → ℝ} {r s m : ℕ} (h : LeadPD A m) (hr : r < m) (hs : s < m) :
    LeadPD (swapRC A r s) m := by
  unfold LeadPD
  rw [block_swap A hr hs]
  exact h.submatrix (Equiv.injective _)

theorem det_swap (A : ℕ → ℕ → ℝ) {r s m : ℕ} (hr : r < m) (hs : s < m) :
    (block (swapRC A r s) 0 m 0 m).det = (block A 0 m 0 m).det := by
  rw [block_swap A hr hs, Matrix.det_submatrix_equiv_self]

/-- The elimination is the Schur complement of the last diagonal entry. -/
theorem elim1_block (A : ℕ → ℕ → ℝ) (m : ℕ) :
    block (elim1 A m) 0 m 0 m = block A 0 m 0 m - block A 0 m m 1 * (block A m 1 m 1)⁻¹ *
      (block A 0 m m 1)ᵀ := by
  ext i j
  have e : ∀ a b, (block A m 1 m 1)⁻¹ a b = (A m m)⁻¹ := by
    intro a b
    rw [Subsingleton.elim b a, Matrix.inv_subsingleton]
    simp [block, Matrix.diagonal, Ring.inverse_eq_inv']
  rw [Matrix.sub_apply, Matrix.mul_apply]
  simp only [Matrix.mul_apply, e, Finset.univ_unique, Finset.sum_singleton, Matrix.transpose_apply]
  simp [block, elim1]
  ring

theorem elim1_spec {A : ℕ → ℕ → ℝ} (hA : ∀ i j, A i j = A j i) {m : ℕ} (h : LeadPD A (m + 1)) :
    LeadPD (elim1 A m) m ∧
      (block A 0 (m + 1) 0 (m + 1)).det = A m m * (block (elim1 A m) 0 m 0 m).det := by
  have hd : (block A m 1 m 1).det = A m m := by simp [block]
  have hmm : 0 < A m m := h.diag (Nat.lt_succ_self m)
  have hu : IsUnit (block A m 1 m 1).det := by rw [hd]; exact isUnit_iff_ne_zero.2 hmm.ne'
  have := Matrix.invertibleOfIsUnitDet _ hu
  have hs := block_split A hA m 1
  have hdet : (block A 0 (m + 1) 0 (m + 1)).det = A m m * (block (elim1 A m) 0 m 0 m).det := by
    rw [← Matrix.det_submatrix_equiv_self finSumFinEquiv, hs, Matrix.det_fromBlocks₂₂, hd,
      Matrix.invOf_eq_nonsing_inv, elim1_block]
  refine ⟨?_, hdet⟩
  have hp : (fromBlocks (block A 0 m 0 m) (block A 0 m m 1) (block A 0 m m 1)ᴴ
      (block A m 1 m 1)).PosDef := by
    rw [Matrix.conjTranspose_eq_transpose_of_trivial, ← hs]
    exact h.submatrix (Equiv.injective _)
  have hDpd : (block A m 1 m 1).PosDef := by
    have := hp.submatrix (e := fun i : Fin 1 => Sum.inr i) Sum.inr_injective
    exact this
  have hps := (Matrix.PosDef.fromBlocks₂₂ (block A 0 m 0 m) (block A 0 m m 1) hDpd).1 hp.posSemidef
  rw [Matrix.conjTranspose_eq_transpose_of_trivial, ← elim1_block] at hps
  refine (hps.posDef_iff_det_ne_zero).2 ?_
  intro h0
  rw [h0, mul_zero] at hdet
  exact h.det_pos.ne' hdet

/-- For a positive definite array every pivot is a positive number and the product of the pivots is the
determinant. -/
theorem bkDiag_posDef (n : ℕ) (A : ℕ → ℕ → ℝ) (hA : ∀ i j, A i j = A j i) (h : LeadPD A n) :
    (bkDiag n A).length = n ∧ (∀ d ∈ bkDiag n A, 0 < d) ∧
      (bkDiag n A).prod = (block A 0 n 0 n).det := by
  induction n generalizing A with
  | zero => simp [bkDiag]
  | succ k ih =>
    rcases k with _ | m
    · have := h.diag (i := 0) (by omega)
      simp [bkDiag, block, this]
    · have hkk : 0 < A (m + 1) (m + 1) := h.diag (by omega)
      have one : ∀ B : ℕ → ℕ → ℝ, (∀ i j, B i j = B j i) → LeadPD B (m + 2) →
          (block B 0 (m + 2) 0 (m + 2)).det = (block A 0 (m + 2) 0 (m + 2)).det →
          ∀ l, l = B (m + 1) (m + 1) :: bkDiag (m + 1) (elim1 B (m + 1)) →
          l.length = m + 2 ∧ (∀ d ∈ l, 0 < d) ∧ l.prod = (block A 0 (m + 2) 0 (m + 2)).det := by
        intro B hB hpd hdet l hl
        obtain ⟨h1, h2⟩ := elim1_spec hB hpd
        obtain ⟨i1, i2, i3⟩ := ih (elim1 B (m + 1)) (elim1_symm hB _) h1
        subst hl
        refine ⟨by simp [i1], ?_, ?_⟩
        · intro d hd
          rcases List.mem_cons.1 hd with rfl | hd
          · exact hpd.diag (by omega)
          · exact i2 d hd
        · rw [List.prod_cons, i3, ← h2, hdet]
      set imax := amaxIdx (fun i => A i (m + 1)) (m + 1) with him
      have him_lt : imax < m + 1 := amaxIdx_lt _ _ (by omega)
      simp only [bkDiag]
      rw [← him]
      have h0 : ¬ max |A (m + 1) (m + 1)| |A imax (m + 1)| = 0 := by
        have : 0 < |A (m + 1) (m + 1)| := abs_pos.2 hkk.ne'
        exact (lt_max_of_lt_left this).ne'
      rw [if_neg h0]
      by_cases c1 : bkAlpha * |A imax (m + 1)| ≤ |A (m + 1) (m + 1)|
      · rw [if_pos c1]; exact one A hA h rfl _ rfl
      rw [if_neg c1]
      by_cases c2 : bkAlpha * |A imax (m + 1)| * (|A imax (m + 1)| / rowMax A imax (m + 1 + 1)) ≤
          |A (m + 1) (m + 1)|
      · rw [if_pos c2]; exact one A hA h rfl _ rfl
      rw [if_neg c2]
      have c3 : bkAlpha * rowMax A imax (m + 1 + 1) ≤ |A imax imax| := by
        by_contra c3
        push Not at c1 c2 c3
        have hne : imax ≠ m + 1 := by omega
        have hmin := h.minor hA (i := imax) (j := m + 1) (by omega) (by omega) hne
        have hii : 0 < A imax imax := h.diag (by omega)
        rw [abs_of_pos hkk] at c1 c2
        rw [abs_of_pos hii] at c3
        have hal := bkAlpha_pos
        have hal1 := bkAlpha_lt_one
        have hlam : 0 < |A imax (m + 1)| := by
          by_contra hl
          have : |A imax (m + 1)| = 0 := le_antisymm (not_lt.1 hl) (abs_nonneg _)
          rw [this, mul_zero] at c1
          linarith
        have hrow : |A imax (m + 1)| ≤ rowMax A imax (m + 1 + 1) :=
          le_rowMax A imax _ (m + 1) (by omega) (by omega)
        set lam := |A imax (m + 1)| with hlamdef
        set sg := rowMax A imax (m + 1 + 1)
        have hsg : 0 < sg := lt_of_lt_of_le hlam hrow
        have hsq : A imax (m + 1) * A imax (m + 1) = lam * lam := by rw [hlamdef, abs_mul_abs_self]
        rw [hsq] at hmin
        have c2' : A (m + 1) (m + 1) * sg < bkAlpha * lam * lam := by
          have := (mul_lt_mul_of_pos_right c2 hsg)
          have e : bkAlpha * lam * (lam / sg) * sg = bkAlpha * lam * lam := by field_simp
          rwa [e] at this
        have h3 : A imax imax * A (m + 1) (m + 1) < bkAlpha * sg * A (m + 1) (m + 1) :=
          mul_lt_mul_of_pos_right c3 hkk
        have h4 : bkAlpha * sg * A (m + 1) (m + 1) < bkAlpha * (bkAlpha * lam * lam) := by
          have := mul_lt_mul_of_pos_left c2' hal
          linarith [this]
        have h5 : bkAlpha * (bkAlpha * lam * lam) < lam * lam := by
          have : bkAlpha * bkAlpha < 1 := by nlinarith
          have h6 : 0 < lam * lam := mul_pos hlam hlam
          nlinarith
        linarith
      rw [if_pos c3]
      exact one (swapRC A imax (m + 1)) (swapRC_symm hA _ _)
        (h.swap (by omega) (by omega)) (det_swap A (by omega) (by omega)) _ rfl

theorem bkLndet_posDef {n : ℕ} {A : ℕ → ℕ → ℝ} (hA : ∀ i j, A i j = A j i) (h : LeadPD A n) :
    bkLndet n A = Real.log (block A 0 n 0 n).det := by
  obtain ⟨_, h2, h3⟩ := bkDiag_posDef n A hA h
  rw [← h3, bkLndet]
  generalize bkDiag n A = l at h2
  induction l with
  | nil => simp
  | cons d l ih =>
    have hd := h2 d (by simp)
    have hl : (0 : ℝ) < l.prod := List.prod_pos fun x hx => h2 x (List.mem_cons_of_mem _ hx)
    rw [List.map_cons, List.sum_cons, List.prod_cons, Real.log_mul hd.ne' hl.ne', abs_of_pos hd,
      ih fun x hx => h2 x (List.mem_cons_of_mem _ hx)]

theorem bkSign_posDef {n : ℕ} {A : ℕ → ℕ → ℝ} (hA : ∀ i j, A i j = A j i) (h : LeadPD A n) :
    bkSign n A = 1 := by
  obtain ⟨_, h2, _⟩ := bkDiag_posDef n A hA h
  rw [bkSign]
  generalize bkDiag n A = l at h2
  induction l with
  | nil => simp
  | cons d l ih =>
    rw [List.map_cons, List.prod_cons, if_pos (h2 d (by simp)).le, one_mul]
    exact ih fun x hx => h2 x (List.mem_cons_of_mem _ hx)

end Mica
