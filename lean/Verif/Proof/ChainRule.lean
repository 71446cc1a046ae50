import Verif.Proof.Merge
import Verif.Proof.Recon
import Mathlib.LinearAlgebra.Matrix.SchurComplement

/-! The likelihood of the data as the likelihood of all but one measurement and the probability of that measurement given
the others. -/

namespace Mica

open Matrix

section
variable {n q : ℕ} {C : Matrix (Fin n) (Fin n) ℝ} {L : Matrix (Fin n) (Fin q) ℝ}

/-- Any solution of `C u + L b = f`, `Lᵀ u = 0` gives the quadratic form. -/
theorem gls_of_saddle (hC : C.PosDef) (hL : Function.Injective L.mulVec) {f u : Fin n → ℝ} {b : Fin q → ℝ}
    (h1 : C.mulVec u + L.mulVec b = f) (h2 : Lᵀ.mulVec u = 0) :
    glsCoef C L f = b ∧ (f - L.mulVec (glsCoef C L f)) ⬝ᵥ C⁻¹.mulVec (f - L.mulVec (glsCoef C L f)) = f ⬝ᵥ u := by
  have hu : IsUnit C.det := isUnit_iff_ne_zero.2 hC.det_pos.ne'
  have hq := trend_posDef hC hL
  have e1 : C⁻¹.mulVec f = u + C⁻¹.mulVec (L.mulVec b) := by
    rw [← h1, Matrix.mulVec_add, Matrix.mulVec_mulVec, Matrix.nonsing_inv_mul _ hu, Matrix.one_mulVec]
  have hb : glsCoef C L f = b := by
    unfold glsCoef
    rw [e1, Matrix.mulVec_add, h2, zero_add, Matrix.mulVec_mulVec _ C⁻¹, Matrix.mulVec_mulVec _ Lᵀ,
      Matrix.mulVec_mulVec, Matrix.nonsing_inv_mul _ (isUnit_iff_ne_zero.2 hq.det_pos.ne'), Matrix.one_mulVec]
  refine ⟨hb, ?_⟩
  have e2 : C⁻¹.mulVec (f - L.mulVec b) = u := by
    rw [Matrix.mulVec_sub, e1]; abel
  rw [hb, e2, sub_dotProduct, dotProduct_comm (L.mulVec b), dot_mulVec_transpose, h2, zero_dotProduct, sub_zero]

/-- The solution exists. -/
theorem saddle_gls (hC : C.PosDef) (hL : Function.Injective L.mulVec) (f : Fin n → ℝ) :
    ∃ u b, C.mulVec u + L.mulVec b = f ∧ Lᵀ.mulVec u = 0 := by
  refine ⟨C⁻¹.mulVec (f - L.mulVec (glsCoef C L f)), glsCoef C L f, ?_, gls_normal hC hL f⟩
  rw [mulVec_inv_cancel hC]; abel

/-- The matrix bordered by the trend. -/
theorem border_det (hC : C.PosDef) :
    (Matrix.fromBlocks C L Lᵀ 0).det = (-1) ^ q * (C.det * (Lᵀ * (C⁻¹ * L)).det) := by
  have hu : IsUnit C := (Matrix.isUnit_iff_isUnit_det _).2 (isUnit_iff_ne_zero.2 hC.det_pos.ne')
  let _ := hu.invertible
  rw [Matrix.det_fromBlocks₁₁, Matrix.invOf_eq_nonsing_inv, zero_sub, Matrix.det_neg, Fintype.card_fin, Matrix.mul_assoc]
  ring

end

/-- The position of the measurement that is taken out and those of the others. -/
def chainPos {n q : ℕ} (i : Fin (n + 1)) : (Fin n ⊕ Fin q) ⊕ Unit → Fin (n + 1) ⊕ Fin q
  | .inl (.inl j) => .inl (i.succAbove j)
  | .inl (.inr c) => .inr c
  | .inr _ => .inl i

theorem chainPos_bij {n q : ℕ} (i : Fin (n + 1)) : Function.Bijective (chainPos (q := q) i) := by
  constructor
  · rintro ((a | a) | a) ((b | b) | b) h <;> simp only [chainPos, Sum.inl.injEq, Sum.inr.injEq, reduceCtorEq] at h
    · rw [Fin.succAbove_right_injective h]
    · exact absurd h (Fin.succAbove_ne i a)
    · rw [h]
    · exact absurd h.symm (Fin.succAbove_ne i b)
    · rfl
  · rintro (a | a)
    · rcases Fin.eq_self_or_eq_succAbove i a with rfl | ⟨b, rfl⟩
      · exact ⟨.inr (), rfl⟩
      · exact ⟨.inl (.inl b), rfl⟩
    · exact ⟨.inl (.inr a), rfl⟩

/-- One measurement more: the likelihood is multiplied by the normal density of the measurement around its prediction from the
other data, with the mean squared error of the prediction and the noise as variance. -/
theorem margLL_chain {n q : ℕ} {C : Matrix (Fin (n + 1)) (Fin (n + 1)) ℝ} {L : Matrix (Fin (n + 1)) (Fin q) ℝ}
    (f : Fin (n + 1) → ℝ) (i : Fin (n + 1)) (hC : C.PosDef)
    (hL : Function.Injective (L.submatrix i.succAbove id).mulVec) {a ν : ℝ} (hii : C i i = a + ν) {w : Fin n → ℝ}
    (hw : IsBlup (C.submatrix i.succAbove i.succAbove) (L.submatrix i.succAbove id) (fun j => C i (i.succAbove j)) (L i) a w) :
    let V := predErr (C.submatrix i.succAbove i.succAbove) (fun j => C i (i.succAbove j)) a w + ν
    0 < V ∧ margLL C L f = margLL (C.submatrix i.succAbove i.succAbove) (L.submatrix i.succAbove id) (f ∘ i.succAbove) -
      1 / 2 * ((f i - w ⬝ᵥ (f ∘ i.succAbove)) ^ 2 / V) - 1 / 2 * Real.log V := by
  intro V
  set C' := C.submatrix i.succAbove i.succAbove with hC'd
  set L' := L.submatrix i.succAbove id with hL'd
  set s : Fin n → ℝ := fun j => C i (i.succAbove j) with hs
  have hsym : ∀ x y, C x y = C y x := fun x y => by
    have := hC.isHermitian
    have := congrFun (congrFun this x) y
    simpa using this.symm
  have hC' : C'.PosDef := hC.submatrix Fin.succAbove_right_injective
  have hLi : Function.Injective L.mulVec := by
    intro x y hxy
    refine hL ?_
    ext j
    exact congrFun hxy (i.succAbove j)
  have hwb : w = blupW C' L' s (L i) := isBlup_unique hw (isBlup_blupW hC' hL s (L i) a)
  have hl : L'ᵀ.mulVec w = L i := by rw [hwb]; exact blupW_unbiased hC' hL s (L i)
  obtain ⟨lam, hlam⟩ : ∃ lam, C'.mulVec w + L'.mulVec lam = s := by
    refine ⟨-((L'ᵀ * (C'⁻¹ * L'))⁻¹.mulVec (L i - L'ᵀ.mulVec (C'⁻¹.mulVec s))), ?_⟩
    rw [hwb, blupW, Matrix.mulVec_add, mulVec_inv_cancel hC', mulVec_inv_cancel hC', Matrix.mulVec_neg]
    abel
  have hwC : w ⬝ᵥ C'.mulVec w = w ⬝ᵥ s - L i ⬝ᵥ lam := by
    rw [← hlam, dotProduct_add, dot_mulVec_transpose L', hl]; ring
  have hV : V = C i i - w ⬝ᵥ s - L i ⬝ᵥ lam := by
    show predErr C' s a w + ν = _
    unfold predErr
    rw [hwC, hii]; ring
  have hrow : ∀ (x : Fin (n + 1) → ℝ) (M : Fin (n + 1) → ℝ), M ⬝ᵥ x = M i * x i + (M ∘ i.succAbove) ⬝ᵥ (x ∘ i.succAbove) := by
    intro x M
    simp only [dotProduct]
    rw [Fin.sum_univ_succAbove _ i]; rfl
  have hVpos : 0 < V := by
    let x : Fin (n + 1) → ℝ := Fin.insertNth (α := fun _ => ℝ) i 1 (fun j => -w j)
    have x1 : x i = 1 := by simp [x]
    have x2 : x ∘ i.succAbove = -w := by ext j; simp [x]
    have hx : x ≠ 0 := fun h => by
      have := congrFun h i
      rw [x1] at this
      simp at this
    have hp := hC.dotProduct_mulVec_pos hx
    have e : x ⬝ᵥ C.mulVec x = V := by
      rw [hrow, x1, x2]
      have h1 : C.mulVec x i = C i i - s ⬝ᵥ w := by
        show C i ⬝ᵥ x = _
        rw [hrow, x1, x2, dotProduct_neg]
        show _ + -(s ⬝ᵥ w) = _
        ring
      have h2 : C.mulVec x ∘ i.succAbove = s - C'.mulVec w := by
        ext j
        show C (i.succAbove j) ⬝ᵥ x = _
        rw [hrow, x1, x2, dotProduct_neg, hsym]
        show _ + -(C' j ⬝ᵥ w) = _
        simp only [Pi.sub_apply, hs, Matrix.mulVec]
        ring
      rw [h1, h2, neg_dotProduct, dotProduct_sub, hwC, dotProduct_comm s w, hV]
      ring
    have e' : star x ⬝ᵥ C.mulVec x = V := by simpa using e
    rw [← e']; exact hp
  refine ⟨hVpos, ?_⟩
  -- the quadratic form
  obtain ⟨u0, b0, h1, h2⟩ := saddle_gls hC' hL (f ∘ i.succAbove)
  set c := (f i - w ⬝ᵥ (f ∘ i.succAbove)) / V with hc
  let u : Fin (n + 1) → ℝ := Fin.insertNth (α := fun _ => ℝ) i c (fun j => u0 j - w j * c)
  have v1 : u i = c := by simp [u]
  have v2 : u ∘ i.succAbove = u0 - c • w := by ext j; simp [u, mul_comm]
  have hpred : w ⬝ᵥ (f ∘ i.succAbove) = s ⬝ᵥ u0 + L i ⬝ᵥ b0 := by
    rw [← h1, dotProduct_add, dot_mulVec_transpose L', hl, ← hlam, add_dotProduct, dotProduct_comm (L'.mulVec lam) u0,
      dot_mulVec_transpose L', h2, zero_dotProduct, add_zero, dot_mulVec_transpose C']
    congr 3
    ext x y
    exact hsym _ _
  have S1 : C.mulVec u + L.mulVec (b0 - c • lam) = f := by
    ext x
    rcases Fin.eq_self_or_eq_succAbove i x with rfl | ⟨j, rfl⟩
    · show C x ⬝ᵥ u + L x ⬝ᵥ (b0 - c • lam) = f x
      rw [hrow, v1, v2]
      show C x x * c + s ⬝ᵥ (u0 - c • w) + _ = _
      rw [dotProduct_sub, dotProduct_sub, dotProduct_smul, dotProduct_smul, smul_eq_mul, smul_eq_mul, dotProduct_comm s w]
      have : c * V = f x - w ⬝ᵥ (f ∘ x.succAbove) := by rw [hc]; field_simp
      rw [hV, hpred] at this
      linarith
    · show C (i.succAbove j) ⬝ᵥ u + L (i.succAbove j) ⬝ᵥ (b0 - c • lam) = _
      rw [hrow, v1, v2]
      show C (i.succAbove j) i * c + C' j ⬝ᵥ (u0 - c • w) + L' j ⬝ᵥ (b0 - c • lam) = _
      have e1 := congrFun h1 j
      have e2 := congrFun hlam j
      have e1 : C' j ⬝ᵥ u0 + L' j ⬝ᵥ b0 = f (i.succAbove j) := e1
      have e2 : C' j ⬝ᵥ w + L' j ⬝ᵥ lam = C i (i.succAbove j) := e2
      rw [dotProduct_sub, dotProduct_sub, dotProduct_smul, dotProduct_smul, smul_eq_mul, smul_eq_mul, hsym, ← e2, ← e1]
      ring
  have S2 : Lᵀ.mulVec u = 0 := by
    ext k
    show (fun x => L x k) ⬝ᵥ u = 0
    rw [hrow, v1, v2]
    show L i k * c + L'ᵀ k ⬝ᵥ (u0 - c • w) = 0
    have e1 : L'ᵀ k ⬝ᵥ u0 = 0 := congrFun h2 k
    have e2 : L'ᵀ k ⬝ᵥ w = L i k := congrFun hl k
    rw [dotProduct_sub, dotProduct_smul, e1, e2, smul_eq_mul]
    ring
  have hq1 := (gls_of_saddle hC hLi S1 S2).2
  have hq0 := (gls_of_saddle hC' hL h1 h2).2
  have hquad : f ⬝ᵥ u = (f ∘ i.succAbove) ⬝ᵥ u0 + (f i - w ⬝ᵥ (f ∘ i.succAbove)) ^ 2 / V := by
    rw [hrow, v1, v2, dotProduct_sub, dotProduct_smul, smul_eq_mul, dotProduct_comm _ w, hc]
    ring
  -- the determinants
  have hQ := trend_posDef hC hLi
  have hQ' := trend_posDef hC' hL
  have hdet : C.det * (Lᵀ * (C⁻¹ * L)).det = V * (C'.det * (L'ᵀ * (C'⁻¹ * L')).det) := by
    have hB' : IsUnit (Matrix.fromBlocks C' L' L'ᵀ 0).det := by
      rw [border_det hC']
      refine isUnit_iff_ne_zero.2 (mul_ne_zero (by simp) (mul_ne_zero hC'.det_pos.ne' hQ'.det_pos.ne'))
    have hsub : (Matrix.fromBlocks C L Lᵀ 0).submatrix (Equiv.ofBijective _ (chainPos_bij (q := q) i))
        (Equiv.ofBijective _ (chainPos_bij (q := q) i)) =
        Matrix.fromBlocks (Matrix.fromBlocks C' L' L'ᵀ 0) (Matrix.replicateCol Unit (Sum.elim s (L i)))
          (Matrix.replicateRow Unit (Sum.elim s (L i))) (Matrix.of fun _ _ => C i i) := by
      ext x y
      rcases x with (x | x) | x <;> rcases y with (y | y) | y <;> try rfl
      exact hsym _ _
    have e1 := Matrix.det_submatrix_equiv_self (Equiv.ofBijective _ (chainPos_bij (q := q) i)) (Matrix.fromBlocks C L Lᵀ 0)
    let _ := ((Matrix.isUnit_iff_isUnit_det _).2 hB').invertible
    rw [hsub, Matrix.det_fromBlocks₁₁, border_det hC, border_det hC', Matrix.invOf_eq_nonsing_inv] at e1
    have hz : (Matrix.fromBlocks C' L' L'ᵀ 0).mulVec (Sum.elim w lam) = Sum.elim s (L i) := by
      rw [Matrix.fromBlocks_mulVec]
      simp only [Sum.elim_comp_inl, Sum.elim_comp_inr, Matrix.zero_mulVec, add_zero]
      rw [hlam, hl]
    have e2 : (Matrix.fromBlocks C' L' L'ᵀ 0)⁻¹.mulVec (Sum.elim s (L i)) = Sum.elim w lam := by
      rw [← hz, Matrix.mulVec_mulVec, Matrix.nonsing_inv_mul _ hB', Matrix.one_mulVec]
    have e3 : (Matrix.of (fun (_ _ : Unit) => C i i) - Matrix.replicateRow Unit (Sum.elim s (L i)) *
        (Matrix.fromBlocks C' L' L'ᵀ 0)⁻¹ * Matrix.replicateCol Unit (Sum.elim s (L i))).det = V := by
      rw [Matrix.mul_assoc, ← Matrix.replicateCol_mulVec, e2, Matrix.det_unique, Matrix.sub_apply,
        Matrix.replicateRow_mul_replicateCol_apply, Matrix.of_apply, hV, sumElim_dotProduct_sumElim,
        dotProduct_comm s w]
      ring
    rw [e3] at e1
    have hne : ((-1 : ℝ) ^ q) ≠ 0 := by simp
    apply mul_left_cancel₀ hne
    rw [← e1]; ring
  have hlog : Real.log C.det + Real.log (Lᵀ * (C⁻¹ * L)).det =
      Real.log V + (Real.log C'.det + Real.log (L'ᵀ * (C'⁻¹ * L')).det) := by
    rw [← Real.log_mul hC.det_pos.ne' hQ.det_pos.ne', hdet, Real.log_mul hVpos.ne'
      (mul_ne_zero hC'.det_pos.ne' hQ'.det_pos.ne'), Real.log_mul hC'.det_pos.ne' hQ'.det_pos.ne']
  unfold margLL
  rw [hq1, hq0, hquad]
  linarith

/-- The same for data that lie in arrays of their own. -/
theorem margLL_chain_at {n N q q' : ℕ} (hN : N = n + 1) (hq : q' = q) (P : ℕ) (hP : P < N) (hsk : ∀ p < n, skipAt P p < N)
    {C : Matrix (Fin N) (Fin N) ℝ} {L : Matrix (Fin N) (Fin q) ℝ} {f : Fin N → ℝ}
    {C' : Matrix (Fin n) (Fin n) ℝ} {L' : Matrix (Fin n) (Fin q') ℝ} {f' : Fin n → ℝ} {s : Fin n → ℝ} {l : Fin q' → ℝ} {a ν : ℝ}
    {w : Fin n → ℝ} (hC : C.PosDef) (hL : Function.Injective L'.mulVec)
    (h1 : ∀ p r : Fin n, C' p r = C ⟨skipAt P p, hsk p p.2⟩ ⟨skipAt P r, hsk r r.2⟩)
    (h2 : ∀ (p : Fin n) c, L' p c = L ⟨skipAt P p, hsk p p.2⟩ (Fin.cast hq c))
    (h3 : ∀ p : Fin n, f' p = f ⟨skipAt P p, hsk p p.2⟩) (h4 : ∀ p : Fin n, s p = C ⟨P, hP⟩ ⟨skipAt P p, hsk p p.2⟩)
    (h5 : ∀ c, l c = L ⟨P, hP⟩ (Fin.cast hq c)) (h6 : C ⟨P, hP⟩ ⟨P, hP⟩ = a + ν) (hw : IsBlup C' L' s l a w) :
    0 < predErr C' s a w + ν ∧ margLL C L f = margLL C' L' f' -
      1 / 2 * ((f ⟨P, hP⟩ - w ⬝ᵥ f') ^ 2 / (predErr C' s a w + ν)) - 1 / 2 * Real.log (predErr C' s a w + ν) := by
  subst hN hq
  have hi : ∀ p : Fin n, (⟨P, hP⟩ : Fin (n + 1)).succAbove p = ⟨skipAt P p, hsk p p.2⟩ := fun p =>
    Fin.ext (skipAt_succAbove ⟨P, hP⟩ p)
  have e1 : C' = C.submatrix (⟨P, hP⟩ : Fin (n + 1)).succAbove (⟨P, hP⟩ : Fin (n + 1)).succAbove := by
    ext p r
    rw [Matrix.submatrix_apply, hi, hi, h1]
  have e2 : L' = L.submatrix (⟨P, hP⟩ : Fin (n + 1)).succAbove id := by
    ext p c
    rw [Matrix.submatrix_apply, hi, h2]; rfl
  have e3 : f' = f ∘ (⟨P, hP⟩ : Fin (n + 1)).succAbove := by
    ext p
    rw [Function.comp_apply, hi, h3]
  have e4 : s = fun p => C ⟨P, hP⟩ ((⟨P, hP⟩ : Fin (n + 1)).succAbove p) := by
    ext p
    rw [hi, h4]
  have e5 : l = L ⟨P, hP⟩ := by
    ext c
    rw [h5]; rfl
  subst e1 e2 e3 e4 e5
  exact margLL_chain f ⟨P, hP⟩ hC hL h6 hw

end Mica
