import Verif.Props.Like
import Mathlib.LinearAlgebra.Matrix.Transvection

/-! Likelihoods of data with two measurements of one quantity. -/

namespace Mica

open Matrix

/-- A linear map with determinant 1 of the data, their covariance and the trend does not change the likelihood. -/
theorem margLL_data {n q : ℕ} (C : Matrix (Fin n) (Fin n) ℝ) (L : Matrix (Fin n) (Fin q) ℝ) (f : Fin n → ℝ)
    (T : Matrix (Fin n) (Fin n) ℝ) (hT : T.det = 1) : margLL (T * C * Tᵀ) (T * L) (T.mulVec f) = margLL C L f := by
  have hu : IsUnit T.det := by rw [hT]; exact isUnit_one
  have hut : IsUnit Tᵀ.det := by rw [Matrix.det_transpose]; exact hu
  have hI : (T * C * Tᵀ)⁻¹ = Tᵀ⁻¹ * (C⁻¹ * T⁻¹) := by
    rw [Matrix.mul_inv_rev, Matrix.mul_inv_rev]
  have h1 : (T * L)ᵀ * (T * C * Tᵀ)⁻¹ = Lᵀ * (C⁻¹ * T⁻¹) := by
    rw [hI, Matrix.transpose_mul, Matrix.mul_assoc, ← Matrix.mul_assoc Tᵀ, Matrix.mul_nonsing_inv _ hut, Matrix.one_mul]
  have h2 : (T * L)ᵀ * ((T * C * Tᵀ)⁻¹ * (T * L)) = Lᵀ * (C⁻¹ * L) := by
    rw [← Matrix.mul_assoc, h1]
    simp only [Matrix.mul_assoc]
    rw [← Matrix.mul_assoc T⁻¹, Matrix.nonsing_inv_mul _ hu, Matrix.one_mul]
  have hg : glsCoef (T * C * Tᵀ) (T * L) (T.mulVec f) = glsCoef C L f := by
    unfold glsCoef
    rw [h2]
    congr 1
    rw [Matrix.mulVec_mulVec, Matrix.mulVec_mulVec, Matrix.mulVec_mulVec, h1]
    simp only [Matrix.mul_assoc]
    rw [Matrix.nonsing_inv_mul _ hu, Matrix.mul_one]
  have hr : ∀ v : Fin n → ℝ, T.mulVec v ⬝ᵥ (T * C * Tᵀ)⁻¹.mulVec (T.mulVec v) = v ⬝ᵥ C⁻¹.mulVec v := by
    intro v
    rw [hI, Matrix.mulVec_mulVec]
    simp only [Matrix.mul_assoc]
    rw [Matrix.nonsing_inv_mul _ hu, Matrix.mul_one, ← Matrix.vecMul_transpose T v, ← Matrix.dotProduct_mulVec,
      Matrix.mulVec_mulVec, ← Matrix.mul_assoc, Matrix.mul_nonsing_inv _ hut, Matrix.one_mul]
  unfold margLL
  rw [hg, h2, Matrix.det_mul, Matrix.det_mul, Matrix.det_transpose, hT, one_mul, mul_one, ← Matrix.mulVec_mulVec,
    ← Matrix.mulVec_sub, hr]

/-- An independent measurement without trend adds its own term. -/
theorem margLL_decouple {n q : ℕ} (D : Matrix (Fin (n + 1)) (Fin (n + 1)) ℝ) (L : Matrix (Fin (n + 1)) (Fin q) ℝ)
    (f : Fin (n + 1) → ℝ) (i : Fin (n + 1)) {s : ℝ} (hs : 0 < s) (hii : D i i = s)
    (hr : ∀ j, D i (i.succAbove j) = 0) (hc : ∀ j, D (i.succAbove j) i = 0) (hL : ∀ c, L i c = 0)
    (hD : (D.submatrix i.succAbove i.succAbove).PosDef) :
    margLL D L f = margLL (D.submatrix i.succAbove i.succAbove) (L.submatrix i.succAbove id) (f ∘ i.succAbove) -
      1 / 2 * (f i ^ 2 / s) - 1 / 2 * Real.log s := by
  set D' := D.submatrix i.succAbove i.succAbove with hD'
  have hu : IsUnit D'.det := isUnit_iff_ne_zero.2 hD.det_pos.ne'
  have hdet : D.det = s * D'.det := by
    rw [Matrix.det_succ_row D i, Fin.sum_univ_succAbove _ i, hii]
    rw [Finset.sum_eq_zero fun j _ => by rw [hr j]; ring]
    have : (-1 : ℝ) ^ ((i : ℕ) + (i : ℕ)) = 1 := by rw [← two_mul, pow_mul]; norm_num
    rw [this, add_zero, one_mul]
  let E : Matrix (Fin (n + 1)) (Fin (n + 1)) ℝ := Matrix.of fun a b =>
    Fin.insertNth (α := fun _ => ℝ) i (Fin.insertNth (α := fun _ => ℝ) i (1 / s) (fun _ => 0) b)
      (fun a' => Fin.insertNth (α := fun _ => ℝ) i 0 (fun b' => D'⁻¹ a' b') b) a
  have e1 : E i i = 1 / s := by simp [E]
  have e2 : ∀ b, E i (i.succAbove b) = 0 := fun b => by simp [E]
  have e3 : ∀ a, E (i.succAbove a) i = 0 := fun a => by simp [E]
  have e4 : ∀ a b, E (i.succAbove a) (i.succAbove b) = D'⁻¹ a b := fun a b => by simp [E]
  have hI : D⁻¹ = E := by
    refine Matrix.inv_eq_right_inv ?_
    ext a b
    rw [Matrix.mul_apply, Fin.sum_univ_succAbove _ i]
    rcases Fin.eq_self_or_eq_succAbove i a with ha | ⟨a, rfl⟩ <;> rcases Fin.eq_self_or_eq_succAbove i b with hb | ⟨b, rfl⟩
    · rw [ha, hb, hii, e1, Finset.sum_eq_zero fun j _ => by rw [hr j, zero_mul], Matrix.one_apply_eq]
      field_simp; ring
    · rw [ha, hii, e2, Finset.sum_eq_zero fun j _ => by rw [hr j, zero_mul], Matrix.one_apply_ne (Fin.succAbove_ne i b).symm]
      ring
    · rw [hb, hc, Finset.sum_eq_zero fun j _ => by rw [e3 j, mul_zero], Matrix.one_apply_ne (Fin.succAbove_ne i a)]
      ring
    · rw [hc, zero_mul, zero_add]
      have := congrFun (congrFun (Matrix.mul_nonsing_inv D' hu) a) b
      rw [Matrix.mul_apply] at this
      simp only [e4]
      rw [← show D' = D.submatrix i.succAbove i.succAbove from rfl] at *
      refine (Finset.sum_congr rfl fun j _ => ?_).trans (this.trans ?_)
      · rfl
      · simp only [Matrix.one_apply, Fin.succAbove_right_inj]
  have hb : ∀ u v : Fin (n + 1) → ℝ, u ⬝ᵥ E.mulVec v =
      u i * v i / s + (u ∘ i.succAbove) ⬝ᵥ D'⁻¹.mulVec (v ∘ i.succAbove) := by
    intro u v
    have hv1 : E.mulVec v i = v i / s := by
      simp only [Matrix.mulVec, dotProduct]
      rw [Fin.sum_univ_succAbove _ i, e1, Finset.sum_eq_zero fun j _ => by rw [e2 j, zero_mul]]
      ring
    have hv2 : ∀ a, E.mulVec v (i.succAbove a) = D'⁻¹.mulVec (v ∘ i.succAbove) a := by
      intro a
      simp only [Matrix.mulVec, dotProduct]
      rw [Fin.sum_univ_succAbove _ i, e3, zero_mul, zero_add]
      exact Finset.sum_congr rfl fun j _ => by rw [e4]; rfl
    simp only [dotProduct]
    rw [Fin.sum_univ_succAbove _ i, hv1]
    simp only [hv2, Function.comp_apply]
    ring
  set L' := L.submatrix i.succAbove id with hL'
  have hM : Lᵀ * (E * L) = L'ᵀ * (D'⁻¹ * L') := by
    ext a b
    have := hb (fun x => L x a) (fun x => L x b)
    simp only [hL, zero_mul, zero_div, zero_add] at this
    exact this
  have hv : Lᵀ.mulVec (E.mulVec f) = L'ᵀ.mulVec (D'⁻¹.mulVec (f ∘ i.succAbove)) := by
    ext a
    have := hb (fun x => L x a) f
    simp only [hL, zero_mul, zero_div, zero_add] at this
    exact this
  have hg : glsCoef D L f = glsCoef D' L' (f ∘ i.succAbove) := by
    unfold glsCoef
    rw [hI, hM, hv]
  unfold margLL
  rw [hg, hI, hM, hb, hdet, Real.log_mul hs.ne' hD.det_pos.ne']
  have h0 : L.mulVec (glsCoef D' L' (f ∘ i.succAbove)) i = 0 := by
    simp only [Matrix.mulVec, dotProduct, hL, zero_mul, Finset.sum_const_zero]
  have h1 : (f - L.mulVec (glsCoef D' L' (f ∘ i.succAbove))) ∘ i.succAbove =
      f ∘ i.succAbove - L'.mulVec (glsCoef D' L' (f ∘ i.succAbove)) := rfl
  rw [h1, Pi.sub_apply, h0]
  ring

/-- Index of the data with point `P` left out. -/
def skipAt (P p : ℕ) : ℕ := if p < P then p else p + 1

theorem skipAt_succAbove {n : ℕ} (P : Fin (n + 1)) (p : Fin n) : ((P.succAbove p : Fin (n + 1)) : ℕ) = skipAt P p := by
  unfold skipAt Fin.succAbove
  by_cases h : (p : ℕ) < P
  · rw [if_pos (by simpa [Fin.lt_def] using h), if_pos h]; rfl
  · rw [if_neg (by simpa [Fin.lt_def] using h), if_neg h]; rfl

/-- The map that takes the two measurements `i`, `j` to their difference and `j + w (i - j)`. -/
noncomputable def mergeMap {n : ℕ} (i j : Fin n) (w : ℝ) : Matrix (Fin n) (Fin n) ℝ :=
  Matrix.transvection j i w * Matrix.transvection i j (-1)

theorem mergeMap_det {n : ℕ} {i j : Fin n} (h : i ≠ j) (w : ℝ) : (mergeMap i j w).det = 1 := by
  rw [mergeMap, Matrix.det_mul, Matrix.det_transvection_of_ne _ _ h.symm, Matrix.det_transvection_of_ne _ _ h, one_mul]

theorem mergeMap_apply {n m : ℕ} {i j : Fin n} (h : i ≠ j) (w : ℝ) (M : Matrix (Fin n) (Fin m) ℝ) (p : Fin n) (c : Fin m) :
    (mergeMap i j w * M) p c = if p = i then M i c - M j c else if p = j then M j c + w * (M i c - M j c) else M p c := by
  rw [mergeMap, Matrix.mul_assoc]
  by_cases hj : p = j
  · subst hj
    rw [Matrix.transvection_mul_apply_same, Matrix.transvection_mul_apply_of_ne _ _ _ _ h.symm,
      Matrix.transvection_mul_apply_same, if_neg h.symm, if_pos rfl]
    ring
  · rw [Matrix.transvection_mul_apply_of_ne _ _ _ _ hj]
    by_cases hi : p = i
    · subst hi
      rw [Matrix.transvection_mul_apply_same, if_pos rfl]
      ring
    · rw [Matrix.transvection_mul_apply_of_ne _ _ _ _ hi, if_neg hi, if_neg hj]

theorem mergeMap_mulVec {n : ℕ} {i j : Fin n} (h : i ≠ j) (w : ℝ) (f : Fin n → ℝ) (p : Fin n) :
    (mergeMap i j w).mulVec f p = if p = i then f i - f j else if p = j then f j + w * (f i - f j) else f p :=
  mergeMap_apply h w (Matrix.of fun a (_ : Fin 1) => f a) p 0

theorem mergeMap_congr {n : ℕ} {i j : Fin n} (h : i ≠ j) (w : ℝ) (C : Matrix (Fin n) (Fin n) ℝ) (p r : Fin n) :
    (mergeMap i j w * C * (mergeMap i j w)ᵀ) p r =
      (fun g : Fin n → ℝ => if p = i then g i - g j else if p = j then g j + w * (g i - g j) else g p) (fun a =>
        if r = i then C a i - C a j else if r = j then C a j + w * (C a i - C a j) else C a r) := by
  have hc : ∀ a, (C * (mergeMap i j w)ᵀ) a r =
      if r = i then C a i - C a j else if r = j then C a j + w * (C a i - C a j) else C a r := by
    intro a
    have := mergeMap_apply h w Cᵀ r a
    rw [← Matrix.transpose_apply (mergeMap i j w * Cᵀ), Matrix.transpose_mul, Matrix.transpose_transpose] at this
    exact this
  rw [Matrix.mul_assoc, mergeMap_apply h]
  simp only [hc]

/-- Two independent measurements of one quantity at one time: replacing them by their average, weighted with the inverse
variances, changes the likelihood by a number made of the two values and their errors only. -/
theorem margLLN_merge (n q P : ℕ) (hP : P < n) (S L : ℕ → ℕ → ℝ) (N f : ℕ → ℝ) (C C' : ℕ → ℕ → ℝ) (L' : ℕ → ℕ → ℝ)
    (f' : ℕ → ℝ) (h0 : 0 < N P) (h1 : 0 < N (P + 1))
    (hC : ∀ p ≤ n, ∀ r ≤ n, C p r = S p r + if p = r then N p else 0)
    (hS1 : ∀ r ≤ n, S P r = S (P + 1) r) (hS2 : ∀ r ≤ n, S r P = S r (P + 1))
    (hC' : ∀ p < n, ∀ r < n, C' p r = S (skipAt P p) (skipAt P r) + if p = r then
      (if p = P then N P * N (P + 1) / (N P + N (P + 1)) else N (skipAt P p)) else 0)
    (hL : ∀ c < q, L P c = L (P + 1) c) (hL' : ∀ p < n, ∀ c < q, L' p c = L (skipAt P p) c)
    (hf' : ∀ p < n, f' p = if p = P then (N (P + 1) * f P + N P * f (P + 1)) / (N P + N (P + 1)) else f (skipAt P p))
    (hpd : (Matrix.of fun i j : Fin (n + 1) => C i j).PosDef) :
    (Matrix.of fun i j : Fin n => C' i j).PosDef ∧
    margLLN (n + 1) q C L f = margLLN n q C' L' f' - 1 / 2 * ((f P - f (P + 1)) ^ 2 / (N P + N (P + 1))) -
      1 / 2 * Real.log (N P + N (P + 1)) := by
  set s := N P + N (P + 1) with hs
  have hs0 : 0 < s := by positivity
  let i : Fin (n + 1) := ⟨P, by omega⟩
  let j : Fin (n + 1) := ⟨P + 1, by omega⟩
  have hij : i ≠ j := by simp [i, j, Fin.ext_iff]
  set w := N (P + 1) / s with hw
  set Cm : Matrix (Fin (n + 1)) (Fin (n + 1)) ℝ := Matrix.of fun i j => C i j with hCm
  set D := mergeMap i j w * Cm * (mergeMap i j w)ᵀ with hD
  have hdet := mergeMap_det hij w
  have hD' := mergeMap_congr hij w Cm
  have hCe : ∀ a b : Fin (n + 1), Cm a b = S a b + if a = b then N a else 0 := by
    intro a b
    rw [hCm, Matrix.of_apply, hC a (by omega) b (by omega)]
    simp only [Fin.ext_iff]
  have hSi : ∀ a : Fin (n + 1), S i a = S j a := fun a => hS1 a (by omega)
  have hSj : ∀ a : Fin (n + 1), S a i = S a j := fun a => hS2 a (by omega)
  have hNi : N i = N P := rfl
  have hNj : N j = N (P + 1) := rfl
  have hii : D i i = s := by
    rw [hD, hD']
    simp only [if_true, hCe, hSi, hSj, hij, hij.symm, if_false, hNi, hNj, hs]
    ring
  have hsk : ∀ p : Fin n, i.succAbove p ≠ i := fun p => Fin.succAbove_ne i p
  have hr : ∀ p, D i (i.succAbove p) = 0 := by
    intro p
    rw [hD, hD']
    simp only [if_true, hsk p, if_false]
    by_cases hp : i.succAbove p = j
    · simp only [hp, if_true, hCe, hSi, hSj, hij, hij.symm, if_false, hNi, hNj, hw]
      field_simp
      rw [hs]; ring
    · have hp' : j ≠ i.succAbove p := fun h => hp h.symm
      simp only [hp, if_false, hCe, hSi, (hsk p).symm, hp']
      ring
  have hcl : ∀ p, D (i.succAbove p) i = 0 := by
    intro p
    rw [hD, hD']
    simp only [if_true, hsk p, if_false]
    by_cases hp : i.succAbove p = j
    · simp only [hp, if_true, hCe, hSi, hSj, hij, hij.symm, if_false, hNi, hNj, hw]
      field_simp
      rw [hs]; ring
    · simp only [hp, if_false, hCe, hSj, hsk p]
      ring
  have hjp : ∀ p : Fin n, i.succAbove p = j ↔ (p : ℕ) = P := by
    intro p
    rw [Fin.ext_iff, skipAt_succAbove]
    show skipAt P p = P + 1 ↔ _
    unfold skipAt
    split <;> omega
  have hsub : D.submatrix i.succAbove i.succAbove = Matrix.of fun i j : Fin n => C' i j := by
    ext p r
    rw [Matrix.submatrix_apply, Matrix.of_apply, hC' p p.2 r r.2, hD, hD']
    have e1 : S (skipAt P p) (skipAt P r) = S (i.succAbove p) (i.succAbove r) := by
      rw [skipAt_succAbove, skipAt_succAbove]
    have e2 : N (skipAt P p) = N (i.succAbove p) := by rw [skipAt_succAbove]
    rw [e1, e2]
    simp only [hsk, if_false, ← hjp, Fin.val_inj]
    by_cases hp : i.succAbove p = j <;> by_cases hr : i.succAbove r = j
    · have : p = r := by
        have := hp.trans hr.symm
        exact Fin.succAbove_right_injective this
      subst this
      simp only [hp, if_true, hCe, hSi, hSj, hij, hij.symm, if_false, hNi, hNj, hw]
      field_simp
      rw [hs]; ring
    · have hne : p ≠ r := fun h => hr (h ▸ hp)
      have hr' : j ≠ i.succAbove r := fun h => hr h.symm
      simp only [hp, hr, hne, if_true, if_false, hCe, hSi, (hsk r).symm, hr']
      ring
    · have hne : p ≠ r := fun h => hp (h ▸ hr)
      simp only [hp, hr, hne, if_true, if_false, hCe, hSj, hsk p]
      ring
    · simp only [hp, hr, if_false, hCe, Fin.succAbove_right_inj]
  have hpD : D.PosDef := by
    have := hpd.mul_mul_conjTranspose_same (B := mergeMap i j w) (by
      refine Matrix.vecMul_injective_of_isUnit ?_
      rw [Matrix.isUnit_iff_isUnit_det, hdet]
      exact isUnit_one)
    rwa [Matrix.conjTranspose_eq_transpose_of_trivial] at this
  have hpS : (D.submatrix i.succAbove i.succAbove).PosDef := hpD.submatrix Fin.succAbove_right_injective
  refine ⟨hsub ▸ hpS, ?_⟩
  set Lm : Matrix (Fin (n + 1)) (Fin q) ℝ := Matrix.of fun i j => L i j with hLm
  have hLi : ∀ c : Fin q, Lm i c = Lm j c := fun c => hL c c.2
  have := margLL_decouple D (mergeMap i j w * Lm) ((mergeMap i j w).mulVec fun a => f a) i hs0 hii hr hcl
    (fun c => by rw [mergeMap_apply hij, if_pos rfl, hLi]; ring) hpS
  rw [hD, margLL_data Cm Lm (fun a : Fin (n + 1) => f a) _ hdet, ← hD] at this
  unfold margLLN
  rw [this, hsub, mergeMap_mulVec hij, if_pos rfl]
  congr 3
  · ext p c
    rw [Matrix.submatrix_apply, id, mergeMap_apply hij, if_neg (hsk p), Matrix.of_apply, hL' p p.2 c c.2]
    have : Lm (i.succAbove p) c = L (skipAt P p) c := by
      rw [hLm, Matrix.of_apply, skipAt_succAbove]
    by_cases hp : i.succAbove p = j
    · rw [if_pos hp, hLi, ← this, hp]; ring
    · rw [if_neg hp, this]
  · funext p
    rw [Function.comp_apply, mergeMap_mulVec hij, if_neg (hsk p), hf' p p.2]
    by_cases hp : i.succAbove p = j
    · rw [if_pos hp, if_pos ((hjp p).1 hp), hw]
      show f (P + 1) + N (P + 1) / s * (f P - f (P + 1)) = _
      field_simp
      rw [hs]; ring
    · rw [if_neg hp, if_neg fun h => hp ((hjp p).2 h), skipAt_succAbove]

end Mica
