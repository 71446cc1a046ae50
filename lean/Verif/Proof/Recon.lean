import Verif.Model.Recon
import Verif.Spec.Recon
import Verif.Proof.Gauss
import Verif.Proof.Line

/-! Helper lemmas about reconstructions. -/

namespace Mica

open Matrix

section core
variable {n q : ℕ} {C : Matrix (Fin n) (Fin n) ℝ} {L : Matrix (Fin n) (Fin q) ℝ}

/-- The weights of the prediction. -/
noncomputable def blupW (C : Matrix (Fin n) (Fin n) ℝ) (L : Matrix (Fin n) (Fin q) ℝ) (s : Fin n → ℝ)
    (l : Fin q → ℝ) : Fin n → ℝ :=
  C⁻¹.mulVec s + C⁻¹.mulVec (L.mulVec ((Lᵀ * (C⁻¹ * L))⁻¹.mulVec (l - Lᵀ.mulVec (C⁻¹.mulVec s))))

theorem dot_mulVec_transpose {m n : ℕ} (A : Matrix (Fin m) (Fin n) ℝ) (x : Fin m → ℝ) (y : Fin n → ℝ) :
    x ⬝ᵥ A.mulVec y = Aᵀ.mulVec x ⬝ᵥ y := by
  rw [Matrix.dotProduct_mulVec, Matrix.mulVec_transpose]

theorem unbiased_iff (w : Fin n → ℝ) (l : Fin q → ℝ) :
    (∀ p, w ⬝ᵥ L.mulVec p = l ⬝ᵥ p) ↔ Lᵀ.mulVec w = l := by
  constructor
  · intro h
    ext j
    have := h (Pi.single j 1)
    rw [dot_mulVec_transpose] at this
    simpa using this
  · intro h p
    rw [dot_mulVec_transpose, h]

theorem blupW_unbiased (hC : C.PosDef) (hL : Function.Injective L.mulVec) (s : Fin n → ℝ) (l : Fin q → ℝ) :
    Lᵀ.mulVec (blupW C L s l) = l := by
  have hq := trend_posDef hC hL
  have h1 : ∀ v : Fin q → ℝ, Lᵀ.mulVec (C⁻¹.mulVec (L.mulVec ((Lᵀ * (C⁻¹ * L))⁻¹.mulVec v))) = v := by
    intro v
    rw [Matrix.mulVec_mulVec, Matrix.mulVec_mulVec, Matrix.mulVec_mulVec, Matrix.mul_assoc Lᵀ C⁻¹ L,
      Matrix.mul_nonsing_inv _ (isUnit_iff_ne_zero.2 hq.det_pos.ne'), Matrix.one_mulVec]
  unfold blupW
  rw [Matrix.mulVec_add, h1]
  abel

theorem mulVec_inv_cancel (hC : C.PosDef) (x : Fin n → ℝ) : C.mulVec (C⁻¹.mulVec x) = x := by
  rw [Matrix.mulVec_mulVec, Matrix.mul_nonsing_inv _ (isUnit_iff_ne_zero.2 hC.det_pos.ne'), Matrix.one_mulVec]

/-- Error of any unbiased weights. -/
theorem predErr_split (hC : C.PosDef) (hL : Function.Injective L.mulVec) (s : Fin n → ℝ) (l : Fin q → ℝ) (a : ℝ)
    (w : Fin n → ℝ) (hw : Lᵀ.mulVec w = l) :
    predErr C s a w = predErr C s a (blupW C L s l) +
      (w - blupW C L s l) ⬝ᵥ C.mulVec (w - blupW C L s l) := by
  set w0 := blupW C L s l with hw0
  have hu := blupW_unbiased hC hL s l
  rw [← hw0] at hu
  have hres : C.mulVec w0 = s + L.mulVec ((Lᵀ * (C⁻¹ * L))⁻¹.mulVec (l - Lᵀ.mulVec (C⁻¹.mulVec s))) := by
    rw [hw0, blupW, Matrix.mulVec_add, mulVec_inv_cancel hC, mulVec_inv_cancel hC]
  have hcross : (w - w0) ⬝ᵥ C.mulVec w0 = (w - w0) ⬝ᵥ s := by
    rw [hres, dotProduct_add, dot_mulVec_transpose L, Matrix.mulVec_sub, hw, hu, sub_self, zero_dotProduct, add_zero]
  have hcross' : w0 ⬝ᵥ C.mulVec (w - w0) = (w - w0) ⬝ᵥ s := by
    rw [dot_symm (posDef_symm hC), hcross]
  have e : w = w0 + (w - w0) := by abel
  have e2 : w ⬝ᵥ s = w0 ⬝ᵥ s + (w - w0) ⬝ᵥ s := by rw [← add_dotProduct, ← e]
  have e3 : w ⬝ᵥ C.mulVec w = w0 ⬝ᵥ C.mulVec w0 + 2 * ((w - w0) ⬝ᵥ s) + (w - w0) ⬝ᵥ C.mulVec (w - w0) := by
    conv_lhs => rw [e]
    rw [Matrix.mulVec_add, add_dotProduct, dotProduct_add, dotProduct_add, hcross, hcross']
    ring
  unfold predErr
  rw [e2, e3]
  ring

theorem isBlup_blupW (hC : C.PosDef) (hL : Function.Injective L.mulVec) (s : Fin n → ℝ) (l : Fin q → ℝ) (a : ℝ) :
    IsBlup C L s l a (blupW C L s l) := by
  refine ⟨(unbiased_iff _ _).2 (blupW_unbiased hC hL s l), fun w' hw' hne => ?_⟩
  rw [predErr_split hC hL s l a w' ((unbiased_iff _ _).1 hw')]
  have := hC.dotProduct_mulVec_pos (sub_ne_zero.2 hne)
  simp only [star_trivial] at this
  linarith

theorem mulVec_dot {m n : ℕ} (A : Matrix (Fin m) (Fin n) ℝ) (x : Fin n → ℝ) (y : Fin m → ℝ) :
    A.mulVec x ⬝ᵥ y = x ⬝ᵥ Aᵀ.mulVec y := by
  rw [dotProduct_comm, dot_mulVec_transpose, dotProduct_comm]

theorem trendQ_symm (hC : C.PosDef) : ((Lᵀ * (C⁻¹ * L))⁻¹)ᵀ = (Lᵀ * (C⁻¹ * L))⁻¹ := by
  apply inv_symm
  rw [Matrix.transpose_mul, Matrix.transpose_mul, Matrix.transpose_transpose, inv_symm (posDef_symm hC), Matrix.mul_assoc]

/-- The value predicted. -/
theorem blupW_dot (hC : C.PosDef) (s : Fin n → ℝ) (l : Fin q → ℝ) (f : Fin n → ℝ) :
    blupW C L s l ⬝ᵥ f = s ⬝ᵥ C⁻¹.mulVec (f - L.mulVec (glsCoef C L f)) + l ⬝ᵥ glsCoef C L f := by
  have hs := inv_symm (posDef_symm hC)
  have h1 : C⁻¹.mulVec (L.mulVec ((Lᵀ * (C⁻¹ * L))⁻¹.mulVec (l - Lᵀ.mulVec (C⁻¹.mulVec s)))) ⬝ᵥ f =
      (l - Lᵀ.mulVec (C⁻¹.mulVec s)) ⬝ᵥ glsCoef C L f := by
    rw [mulVec_dot, hs, mulVec_dot, mulVec_dot, trendQ_symm hC]
    rfl
  have h2 : Lᵀ.mulVec (C⁻¹.mulVec s) ⬝ᵥ glsCoef C L f = s ⬝ᵥ C⁻¹.mulVec (L.mulVec (glsCoef C L f)) := by
    rw [mulVec_dot, mulVec_dot, hs, Matrix.transpose_transpose]
  unfold blupW
  rw [add_dotProduct, h1, sub_dotProduct, h2, mulVec_dot, hs, Matrix.mulVec_sub, dotProduct_sub]
  ring

/-- The error of the prediction. -/
theorem blupW_err (hC : C.PosDef) (hL : Function.Injective L.mulVec) (s : Fin n → ℝ) (l : Fin q → ℝ) (a : ℝ) :
    predErr C s a (blupW C L s l) = a - s ⬝ᵥ C⁻¹.mulVec s +
      (Lᵀ.mulVec (C⁻¹.mulVec s) - l) ⬝ᵥ (Lᵀ * (C⁻¹ * L))⁻¹.mulVec (Lᵀ.mulVec (C⁻¹.mulVec s) - l) := by
  have hs := inv_symm (posDef_symm hC)
  set w := blupW C L s l with hw
  set v := l - Lᵀ.mulVec (C⁻¹.mulVec s) with hv
  set Q := (Lᵀ * (C⁻¹ * L))⁻¹ with hQ
  have hu : Lᵀ.mulVec w = l := blupW_unbiased hC hL s l
  have hres : C.mulVec w = s + L.mulVec (Q.mulVec v) := by
    rw [hw, blupW, Matrix.mulVec_add, mulVec_inv_cancel hC, mulVec_inv_cancel hC]
  have e1 : w ⬝ᵥ C.mulVec w = w ⬝ᵥ s + l ⬝ᵥ Q.mulVec v := by
    rw [hres, dotProduct_add, dot_mulVec_transpose L, hu]
  have e2 : w ⬝ᵥ s = s ⬝ᵥ C⁻¹.mulVec s + v ⬝ᵥ Q.mulVec (Lᵀ.mulVec (C⁻¹.mulVec s)) := by
    rw [hw, blupW, add_dotProduct, mulVec_dot, hs, mulVec_dot, hs, mulVec_dot, mulVec_dot, trendQ_symm hC]
  have e3 : Lᵀ.mulVec (C⁻¹.mulVec s) = l - v := by rw [hv]; abel
  have hQs : Qᵀ = Q := trendQ_symm hC
  unfold predErr
  rw [e1, e2, e3, show l - v - l = -v by abel, Matrix.mulVec_neg, neg_dotProduct_neg, Matrix.mulVec_sub, dotProduct_sub,
    dot_symm hQs l v]
  ring

/-- Change of units. -/
theorem predErr_smul (C : Matrix (Fin n) (Fin n) ℝ) (s : Fin n → ℝ) (a c : ℝ) (w : Fin n → ℝ) :
    predErr (c • C) (c • s) (c * a) w = c * predErr C s a w := by
  unfold predErr
  rw [Matrix.smul_mulVec, dotProduct_smul, dotProduct_smul]
  simp only [smul_eq_mul]
  ring

theorem blupW_smul (hC : C.PosDef) (hL : Function.Injective L.mulVec) (s : Fin n → ℝ) (l : Fin q → ℝ) {c : ℝ}
    (hc : c ≠ 0) : blupW (c • C) L (c • s) l = blupW C L s l := by
  have hq := (trend_posDef hC hL).det_pos.ne'
  unfold blupW
  rw [trend_smul L hc hC.det_pos.ne', smul_inv_mat (inv_ne_zero hc) hq, smul_inv_mat hc hC.det_pos.ne']
  simp only [Matrix.smul_mulVec, Matrix.mulVec_smul, smul_smul, inv_inv, mul_inv_cancel₀ hc, one_smul]

/-- An exact copy of a data point without noise is predicted by that point alone. -/
theorem blupW_copy (hC : C.PosDef) (s : Fin n → ℝ) (l : Fin q → ℝ) (k : Fin n) (hs : s = C.mulVec (Pi.single k 1))
    (hl : l = L k) : blupW C L s l = Pi.single k 1 := by
  have h1 : C⁻¹.mulVec s = Pi.single k 1 := by
    rw [hs, Matrix.mulVec_mulVec, Matrix.nonsing_inv_mul _ (isUnit_iff_ne_zero.2 hC.det_pos.ne'), Matrix.one_mulVec]
  have h2 : Lᵀ.mulVec (Pi.single k (1 : ℝ)) = l := by
    rw [hl]; ext j; simp [Matrix.mulVec, dotProduct, Pi.single_apply]
  unfold blupW
  rw [h1, h2, sub_self, Matrix.mulVec_zero, Matrix.mulVec_zero, Matrix.mulVec_zero, add_zero]

theorem isBlup_unique {s : Fin n → ℝ} {l : Fin q → ℝ} {a : ℝ} {w w' : Fin n → ℝ} (h : IsBlup C L s l a w)
    (h' : IsBlup C L s l a w') : w = w' := by
  by_contra hne
  have h1 := h.2 w' h'.1 (Ne.symm hne)
  have h2 := h'.2 w h.1 hne
  linarith

/-- The weights are also the best in the original units. -/
theorem isBlup_scaled (hC : C.PosDef) (hL : Function.Injective L.mulVec) (s : Fin n → ℝ) (l : Fin q → ℝ) (a : ℝ)
    {c : ℝ} (hc : 0 < c) : IsBlup (c • C) L (c • s) l (c * a) (blupW C L s l) := by
  rw [← blupW_smul hC hL s l hc.ne']
  exact isBlup_blupW (hC.smul hc) hL _ _ _

/-- What every reconstruction returns, given the weights. -/
noncomputable def blupRecon {m : ℕ} (PC : Matrix (Fin n) (Fin n) ℝ) (U : Matrix (Fin m) (Fin n) ℝ)
    (A : Fin m → ℝ) (L : Matrix (Fin n) (Fin q) ℝ) (Lrec : Matrix (Fin m) (Fin q) ℝ)
    (f : Fin n → ℝ) (sigma : ℝ) : Recon q m :=
  ⟨glsCoef PC L f, fun i => blupW PC L (U i) (Lrec i) ⬝ᵥ f,
    fun i => (cSqrt (predErr PC (U i) (A i) (blupW PC L (U i) (Lrec i)))).map fun s => sigma * s⟩

variable {m : ℕ} {PC : Matrix (Fin n) (Fin n) ℝ} {U : Matrix (Fin m) (Fin n) ℝ} {Lrec : Matrix (Fin m) (Fin q) ℝ}

theorem recon_val (hC : PC.PosDef) (f : Fin n → ℝ) :
    (fun i => blupW PC L (U i) (Lrec i) ⬝ᵥ f) =
      U.mulVec (PC⁻¹.mulVec (f - L.mulVec (glsCoef PC L f))) + Lrec.mulVec (glsCoef PC L f) := by
  ext i
  rw [blupW_dot hC]
  rfl

theorem recon_err (hC : PC.PosDef) (hL : Function.Injective L.mulVec) (a : ℝ) (i : Fin m) :
    predErr PC (U i) a (blupW PC L (U i) (Lrec i)) = a - (U * PC⁻¹ * Uᵀ) i i +
      ((U * PC⁻¹ * L - Lrec) * (Lᵀ * (PC⁻¹ * L))⁻¹ * (U * PC⁻¹ * L - Lrec)ᵀ) i i := by
  have hs := inv_symm (posDef_symm hC)
  rw [blupW_err hC hL]
  have row : ∀ {r c : ℕ} (B : Matrix (Fin m) (Fin r) ℝ) (M : Matrix (Fin r) (Fin c) ℝ), (B * M) i = Mᵀ.mulVec (B i) := by
    intro r c B M
    ext j
    simp only [Matrix.mul_apply, Matrix.mulVec, dotProduct, transpose_apply, mul_comm]
  have diag : ∀ {c : ℕ} (B D : Matrix (Fin m) (Fin c) ℝ), (B * Dᵀ) i i = B i ⬝ᵥ D i := by
    intro c B D
    simp only [Matrix.mul_apply, dotProduct, transpose_apply]
  have hX : (U * PC⁻¹ * L - Lrec) i = Lᵀ.mulVec (PC⁻¹.mulVec (U i)) - Lrec i := by
    have : (U * PC⁻¹ * L - Lrec) i = (U * PC⁻¹ * L) i - Lrec i := rfl
    rw [this, row, row, hs]
  rw [diag, diag, row, hs, row, trendQ_symm hC, hX]
  congr 1
  · rw [dotProduct_comm]
  · rw [dotProduct_comm]

end core

end Mica
