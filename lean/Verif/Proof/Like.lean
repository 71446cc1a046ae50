import Verif.Model.Like
import Verif.Model.Line
import Verif.Spec.Like
import Verif.Spec.Cov
import Verif.Proof.BlockInv
import Verif.Proof.Semisep
import Verif.Proof.OU
import Mathlib.LinearAlgebra.Vandermonde
import Mathlib.Tactic

/-! Helper lemmas about the likelihoods. -/

namespace Mica

open Matrix

section core
variable {n q : ℕ}

theorem trend_posDef {C : Matrix (Fin n) (Fin n) ℝ} {L : Matrix (Fin n) (Fin q) ℝ} (hC : C.PosDef)
    (hL : Function.Injective L.mulVec) : (Lᵀ * (C⁻¹ * L)).PosDef := by
  have := hC.inv.conjTranspose_mul_mul_same hL
  rwa [conjTranspose_eq_transpose_of_trivial, Matrix.mul_assoc] at this

theorem smul_inv_mat {C : Matrix (Fin n) (Fin n) ℝ} {s : ℝ} (hs : s ≠ 0) (hC : C.det ≠ 0) :
    (s • C)⁻¹ = s⁻¹ • C⁻¹ := by
  apply Matrix.inv_eq_right_inv
  rw [Matrix.smul_mul, Matrix.mul_smul, smul_smul, mul_inv_cancel₀ hs, one_smul,
    Matrix.mul_nonsing_inv _ (isUnit_iff_ne_zero.2 hC)]

theorem trend_smul {C : Matrix (Fin n) (Fin n) ℝ} (L : Matrix (Fin n) (Fin q) ℝ) {s : ℝ} (hs : s ≠ 0)
    (hC : C.det ≠ 0) : Lᵀ * ((s • C)⁻¹ * L) = s⁻¹ • (Lᵀ * (C⁻¹ * L)) := by
  rw [smul_inv_mat hs hC, Matrix.smul_mul, Matrix.mul_smul]

theorem glsCoef_smul {C : Matrix (Fin n) (Fin n) ℝ} {L : Matrix (Fin n) (Fin q) ℝ} (f : Fin n → ℝ)
    {s : ℝ} (hs : s ≠ 0) (hC : C.det ≠ 0) (hq : (Lᵀ * (C⁻¹ * L)).det ≠ 0) :
    glsCoef (s • C) L f = glsCoef C L f := by
  unfold glsCoef
  rw [trend_smul L hs hC, smul_inv_mat (inv_ne_zero hs) hq, smul_inv_mat hs hC]
  simp only [Matrix.smul_mulVec, Matrix.mulVec_smul, smul_smul, inv_inv,
    inv_mul_cancel₀ hs, one_smul]

/-- The likelihood in terms of the covariance in units of `sigma^2`. -/
theorem margLL_scale {PC : Matrix (Fin n) (Fin n) ℝ} {L : Matrix (Fin n) (Fin q) ℝ} (f : Fin n → ℝ)
    {sigma : ℝ} (hs : 0 < sigma) (hC : PC.PosDef) (hL : Function.Injective L.mulVec) :
    margLL ((sigma * sigma) • PC) L f =
      -(1 / 2) * ((f - L.mulVec (glsCoef PC L f)) ⬝ᵥ PC⁻¹.mulVec (f - L.mulVec (glsCoef PC L f))) /
        (sigma * sigma)
      - 1 / 2 * (Real.log PC.det + 2 * n * Real.log sigma)
      - 1 / 2 * (Real.log (Lᵀ * (PC⁻¹ * L)).det - 2 * q * Real.log sigma) := by
  have hss : sigma * sigma ≠ 0 := by positivity
  have hCd := hC.det_pos
  have hqd := (trend_posDef hC hL).det_pos
  unfold margLL
  rw [glsCoef_smul f hss hCd.ne' hqd.ne', trend_smul L hss hCd.ne', smul_inv_mat hss hCd.ne',
    Matrix.smul_mulVec, dotProduct_smul, Matrix.det_smul, Matrix.det_smul,
    Real.log_mul (by positivity) hCd.ne', Real.log_mul (by positivity) hqd.ne',
    Real.log_pow, Real.log_pow, Real.log_inv, Real.log_mul hs.ne' hs.ne']
  simp only [Fintype.card_fin, smul_eq_mul]
  field_simp
  ring

theorem quad_nonpos {PC : Matrix (Fin n) (Fin n) ℝ} (hC : PC.PosDef) (y : Fin n → ℝ) {sigma : ℝ}
    (hs : 0 < sigma) : ¬ 0 < -(1 / 2) * (y ⬝ᵥ PC⁻¹.mulVec y) / (sigma * sigma) := by
  have : 0 ≤ y ⬝ᵥ PC⁻¹.mulVec y := by
    have := hC.inv.posSemidef.dotProduct_mulVec_nonneg y
    simpa using this
  have h2 : 0 ≤ (y ⬝ᵥ PC⁻¹.mulVec y) / (sigma * sigma) := by positivity
  intro h
  have : -(1 / 2) * (y ⬝ᵥ PC⁻¹.mulVec y) / (sigma * sigma) =
    -(1 / 2) * ((y ⬝ᵥ PC⁻¹.mulVec y) / (sigma * sigma)) := by ring
  linarith

theorem luInv_posDef {A : Matrix (Fin n) (Fin n) ℝ} (hA : A.PosDef) : luInv A = .ok A⁻¹ := by
  rw [luInv, if_neg hA.det_pos.ne']

theorem lndet3_posDef {A : Matrix (Fin n) (Fin n) ℝ} (hA : A.PosDef) :
    lndet3 A = .ok (Real.log A.det, 1) := by
  rw [lndet3, if_neg hA.det_pos.ne', if_pos hA.det_pos, abs_of_pos hA.det_pos]

variable {PC : Matrix (Fin n) (Fin n) ℝ} {L : Matrix (Fin n) (Fin q) ℝ} (f : Fin n → ℝ) {sigma : ℝ}

theorem lineTerm1_eq (hs : 0 < sigma) (hC : PC.PosDef) (hL : Function.Injective L.mulVec) :
    lineTerm1 PC L f sigma = .ok (some (margLL ((sigma * sigma) • PC) L f)) := by
  have hq := trend_posDef hC hL
  have hy : (PC⁻¹ * L)ᵀ.mulVec f = Lᵀ.mulVec (PC⁻¹.mulVec f) := by
    rw [Matrix.transpose_mul, inv_symm (posDef_symm hC), Matrix.mulVec_mulVec]
  have hq' : glsCoef PC L f = (Lᵀ * (PC⁻¹ * L))⁻¹.mulVec (Lᵀ.mulVec (PC⁻¹.mulVec f)) := rfl
  simp only [lineTerm1, luInv_posDef hC, Res.ok_bind, luInv_posDef hq, lndet3_posDef hC,
    lndet3_posDef hq, hy, ← hq']
  rw [if_neg (quad_nonpos hC _ hs), if_neg (by decide), if_neg (by decide), margLL_scale f hs hC hL]

theorem lineTerm2_eq (hs : 0 < sigma) (hC : PC.PosDef) (hL : Function.Injective L.mulVec) :
    lineTerm2 PC L f sigma = .ok (some (margLL ((sigma * sigma) • PC) L f)) := by
  have hq := trend_posDef hC hL
  have hq' : glsCoef PC L f = (Lᵀ * (PC⁻¹ * L))⁻¹.mulVec (Lᵀ.mulVec (PC⁻¹.mulVec f)) := rfl
  simp only [lineTerm2, luInv_posDef hC, Res.ok_bind, luInv_posDef hq, lndet3_posDef hC,
    lndet3_posDef hq, quadOf, ← hq']
  rw [if_neg (quad_nonpos hC _ hs), if_neg (by decide), if_neg (by decide), margLL_scale f hs hC hL]

theorem lineTerm3_eq (hs : 0 < sigma) (hC : PC.PosDef) (hL : Function.Injective L.mulVec) :
    lineTerm3 PC L f sigma = .ok (some (margLL ((sigma * sigma) • PC) L f)) := by
  have hq := trend_posDef hC hL
  have hq' : glsCoef PC L f = (Lᵀ * (PC⁻¹ * L))⁻¹.mulVec (Lᵀ.mulVec (PC⁻¹.mulVec f)) := rfl
  simp only [lineTerm3, inverseSymat_eq (posDef_symm hC), inverseSymat_eq (posDef_symm hq),
    lndetSymat_posDef hC, lndetSymat_posDef hq, signSymat_posDef hC, signSymat_posDef hq,
    upperSym_of_symm (posDef_symm hC), upperSym_of_symm (posDef_symm hq), hC.det_pos.ne', hq.det_pos.ne',
    quadOf, ← hq']
  rw [if_neg (by simp), if_neg (by simp), if_neg (quad_nonpos hC _ hs), margLL_scale f hs hC hL]
  congr 2
  ring

end core

/-! ### Filling the continuum matrix -/

theorem runWrites_append (a b : List (ℕ × ℝ)) (mem : ℕ → ℝ) :
    runWrites (a ++ b) mem = runWrites b (runWrites a mem) := by
  simp [runWrites]

theorem runWrites_notMem (ws : List (ℕ × ℝ)) (mem : ℕ → ℝ) (a : ℕ) (h : ∀ w ∈ ws, w.1 ≠ a) :
    runWrites ws mem a = mem a := by
  induction ws generalizing mem with
  | nil => rfl
  | cons w ws ih =>
    have := ih (Function.update mem w.1 w.2) fun x hx => h x (List.mem_cons_of_mem _ hx)
    rw [runWrites, List.foldl_cons]
    rw [runWrites] at this
    rw [this, Function.update_of_ne (h w (by simp)).symm]

/-- If every write puts the value `V` of its address there, a written address holds `V`. -/
theorem runWrites_eq (ws : List (ℕ × ℝ)) (mem : ℕ → ℝ) (V : ℕ → ℝ) (hV : ∀ w ∈ ws, w.2 = V w.1)
    (a : ℕ) (ha : ∃ w ∈ ws, w.1 = a) : runWrites ws mem a = V a := by
  induction ws generalizing mem with
  | nil => obtain ⟨w, hw, _⟩ := ha; simp at hw
  | cons w ws ih =>
    rw [runWrites, List.foldl_cons, ← runWrites]
    by_cases h : ∃ x ∈ ws, x.1 = a
    · exact ih _ (fun x hx => hV x (List.mem_cons_of_mem _ hx)) h
    · push Not at h
      rw [runWrites_notMem _ _ _ h]
      obtain ⟨x, hx, hxa⟩ := ha
      rcases List.mem_cons.1 hx with rfl | hx
      · rw [← hxa, Function.update_self]; exact hV x (by simp)
      · exact absurd hxa (h x hx)

theorem addr_div {n r c : ℕ} (hc : c < n) : (r * n + c) / n = r := by
  rw [Nat.add_comm, Nat.add_mul_div_right _ _ (by omega), Nat.div_eq_of_lt hc, zero_add]

theorem addr_mod {n r c : ℕ} (hc : c < n) : (r * n + c) % n = c := by
  rw [Nat.add_comm, Nat.add_mul_mod_self_right, Nat.mod_eq_of_lt hc]

/-- The matrix filled by `set_covar_Pmat_data`. -/
theorem conPmat_eq (sigma tau syserr : ℝ) (d : LC) (mem : ℕ → ℝ) :
    matOf (runWrites (conWrites sigma tau 1 syserr d) mem) d.n d.n =
      drwCov 1 (1 / tau) (fun i => d.t i)
        (fun i => (d.fe i * d.fe i + syserr * syserr) / (sigma * sigma)) := by
  ext i j
  let V : ℕ → ℝ := fun a => 1 * Real.exp (-(1 / tau) * |d.t (a / d.n) - d.t (a % d.n)|) +
    if a / d.n = a % d.n then (d.fe (a / d.n) * d.fe (a / d.n) + syserr * syserr) / (sigma * sigma) else 0
  have hmain : runWrites (conWrites sigma tau 1 syserr d) mem (i * d.n + j) = V (i * d.n + j) := by
    apply runWrites_eq
    · intro w hw
      simp only [conWrites, List.mem_flatMap, List.mem_append, List.mem_range,
        List.mem_cons, List.not_mem_nil, or_false] at hw
      obtain ⟨a, ha, hw⟩ := hw
      rcases hw with ⟨b, hb, hw⟩ | hw
      · have hbn : b < d.n := by omega
        rcases hw with rfl | rfl
        · simp only [V, addr_div hbn, addr_mod hbn, show a ≠ b by omega, if_false, Real.rpow_one]
          rw [one_mul, add_zero]; congr 1; ring
        · simp only [V, addr_div ha, addr_mod ha, show b ≠ a by omega, if_false, Real.rpow_one]
          rw [one_mul, add_zero, abs_sub_comm]; congr 1; ring
      · subst hw
        simp [V, addr_div ha, addr_mod ha]
    · simp only [conWrites, List.mem_flatMap, List.mem_append, List.mem_range,
        List.mem_cons, List.not_mem_nil, or_false]
      rcases Nat.lt_trichotomy i j with h | h | h
      · exact ⟨_, ⟨j, j.2, Or.inl ⟨i, h, Or.inr rfl⟩⟩, rfl⟩
      · exact ⟨_, ⟨i, i.2, Or.inr rfl⟩, by rw [h]⟩
      · exact ⟨_, ⟨i, i.2, Or.inl ⟨j, h, Or.inl rfl⟩⟩, rfl⟩
  rw [matOf, hmain]
  simp only [V, addr_div j.2, addr_mod j.2, drwCov, Fin.ext_iff]

/-! ### Positive definiteness -/

theorem drwCov_posDef {n : ℕ} {a c : ℝ} (ha : 0 < a) (hc : 0 < c) (t N : Fin n → ℝ)
    (hN : ∀ i, 0 < N i) : (drwCov a c t N).PosDef := by
  have hpsd := ouCov_posSemidef hc (fun i => MeasureTheory.Measure.dirac (t i))
  have e : drwCov a c t N = diagonal N +
      a • (Matrix.of fun i j => ouCov c (MeasureTheory.Measure.dirac (t i)) (MeasureTheory.Measure.dirac (t j))) := by
    ext i j
    simp only [drwCov, ouCov_dirac, Matrix.add_apply, Matrix.smul_apply, Matrix.of_apply, smul_eq_mul,
      diagonal_apply]
    ring
  rw [e]
  exact (Matrix.PosDef.diagonal hN).add_posSemidef (hpsd.smul ha.le)

theorem drwCov_posSemidef {n : ℕ} {a c : ℝ} (ha : 0 ≤ a) (hc : 0 < c) (t N : Fin n → ℝ)
    (hN : ∀ i, 0 ≤ N i) : (drwCov a c t N).PosSemidef := by
  have hpsd := ouCov_posSemidef hc (fun i => MeasureTheory.Measure.dirac (t i))
  have e : drwCov a c t N = diagonal N +
      a • (Matrix.of fun i j => ouCov c (MeasureTheory.Measure.dirac (t i)) (MeasureTheory.Measure.dirac (t j))) := by
    ext i j
    simp only [drwCov, ouCov_dirac, Matrix.add_apply, Matrix.smul_apply, Matrix.of_apply, smul_eq_mul,
      diagonal_apply]
    ring
  rw [e]
  exact (Matrix.PosSemidef.diagonal hN).add (hpsd.smul ha)

theorem drwCov_smul {n : ℕ} (s c : ℝ) (t N : Fin n → ℝ) (hs : s ≠ 0) :
    s • drwCov 1 c t (fun i => N i / s) = drwCov s c t N := by
  ext i j
  simp only [drwCov, Matrix.smul_apply, smul_eq_mul]
  split
  · field_simp
  · ring

/-- With enough distinct times the trend matrix has full rank. -/
theorem trendMat_injective (t : ℕ → ℝ) (n nq : ℕ) (e : Fin nq → Fin n)
    (he : Function.Injective fun k => t (e k)) : Function.Injective (trendMat t n nq).mulVec := by
  intro x y hxy
  have hv : (Matrix.vandermonde fun k => t (e k)).mulVec x = (Matrix.vandermonde fun k => t (e k)).mulVec y := by
    ext k
    have := congrFun hxy (e k)
    simp only [Matrix.mulVec, dotProduct, trendMat, Matrix.vandermonde_apply] at this ⊢
    have hpow : ∀ j : Fin nq, (if (j : ℕ) = 0 then (1 : ℝ) else t (e k) ^ (j : ℕ)) = t (e k) ^ (j : ℕ) := by
      intro j
      split
      · rename_i h; rw [h, pow_zero]
      · rfl
    simpa only [hpow] using this
  have hu : IsUnit (Matrix.vandermonde fun k => t (e k)) := by
    rw [Matrix.isUnit_iff_isUnit_det]
    exact isUnit_iff_ne_zero.2 (Matrix.det_vandermonde_ne_zero_iff.2 he)
  exact Matrix.mulVec_injective_of_isUnit hu hv

theorem pmTau_pos (pm : ℕ → ℝ) (idx : ℕ) : 0 < pmTau pm idx := Real.exp_pos _

theorem pmSigma_pos (pm : ℕ → ℝ) (idx : ℕ) : 0 < pmSigma pm idx :=
  mul_pos (Real.exp_pos _) (Real.sqrt_pos.2 (pmTau_pos _ _))

/-- What is needed of the continuum data: times in order, and noise or distinct times. -/
def ConOK (d : LC) (syserr : ℝ) : Prop :=
  (∀ i, i + 1 < d.n → d.t i ≤ d.t (i + 1)) ∧
  ((∀ i < d.n, 0 < d.fe i * d.fe i + syserr * syserr) ∨ ∀ i, i + 1 < d.n → d.t i < d.t (i + 1))

/-- There are at least `nq` distinct times. -/
def EnoughTimes (d : LC) (nq : ℕ) : Prop :=
  ∃ e : Fin nq → Fin d.n, Function.Injective fun k => d.t (e k)

theorem ssC_posDef {d : LC} {syserr a c : ℝ} (ha : 0 < a) (hc : 0 < c) (h : ConOK d syserr) :
    (ssC d.t a c d.fe syserr d.n).PosDef := by
  have hpos := fun i hi => (ss_pos (sigma := d.fe) (syserr := syserr) ha hc h.1 h.2 i hi).2.2
  have hpsd : (ssC d.t a c d.fe syserr d.n).PosSemidef :=
    drwCov_posSemidef ha.le hc _ _ fun i => add_nonneg (mul_self_nonneg _) (mul_self_nonneg _)
  refine hpsd.posDef_iff_det_ne_zero.2 ?_
  rw [ssC_det h.1 fun i hi => (hpos i hi).ne']
  exact (Finset.prod_pos fun (i : Fin d.n) _ => hpos i i.2).ne'

theorem conTerm_eq (nq : ℕ) (d : LC) (pm : ℕ → ℝ) (idx : ℕ) (mem : ℕ → ℝ)
    (hd : ConOK d (pmSyserr pm idx d.em)) (hq : EnoughTimes d nq) :
    conTerm nq d pm idx mem = .ok (some (margLL (ssC d.t (pmSigma pm idx * pmSigma pm idx) (1 / pmTau pm idx)
      d.fe (pmSyserr pm idx d.em) d.n) (trendMat d.t d.n nq) (fun i => d.f i))) := by
  obtain ⟨e, he⟩ := hq
  have hL := trendMat_injective d.t d.n nq e he
  have hs := pmSigma_pos pm idx
  have ht : 0 < 1 / pmTau pm idx := one_div_pos.2 (pmTau_pos pm idx)
  have hsc := drwCov_smul (pmSigma pm idx * pmSigma pm idx) (1 / pmTau pm idx) (fun i : Fin d.n => d.t i)
    (fun i => d.fe i * d.fe i + pmSyserr pm idx d.em * pmSyserr pm idx d.em) (by positivity)
  have hpdC := ssC_posDef (a := pmSigma pm idx * pmSigma pm idx) (by positivity) ht hd
  have hC : (drwCov 1 (1 / pmTau pm idx) (fun i : Fin d.n => d.t i) (fun i =>
      (d.fe i * d.fe i + pmSyserr pm idx d.em * pmSyserr pm idx d.em) /
        (pmSigma pm idx * pmSigma pm idx))).PosDef := by
    have h2 := hpdC.smul (show 0 < (pmSigma pm idx * pmSigma pm idx)⁻¹ by positivity)
    have e2 : ssC d.t (pmSigma pm idx * pmSigma pm idx) (1 / pmTau pm idx)
      d.fe (pmSyserr pm idx d.em) d.n = drwCov (pmSigma pm idx * pmSigma pm idx) (1 / pmTau pm idx)
        (fun i : Fin d.n => d.t i)
        (fun i => d.fe i * d.fe i + pmSyserr pm idx d.em * pmSyserr pm idx d.em) := rfl
    rw [e2, ← hsc, smul_smul, inv_mul_cancel₀ (by positivity), one_smul] at h2
    exact h2
  have hqd := trend_posDef hC hL
  have e2 : ssC d.t (pmSigma pm idx * pmSigma pm idx) (1 / pmTau pm idx)
      d.fe (pmSyserr pm idx d.em) d.n = _ := hsc.symm
  rw [e2, margLL_scale _ hs hC hL]
  simp only [conTerm, conPmat_eq, luInv_posDef hC, Res.ok_bind, luInv_posDef hqd, lndet3_posDef hC,
    lndet3_posDef hqd]
  rw [if_neg (by decide), if_neg (by decide)]
  congr 2
  simp only [glsCoef]
  ring

theorem conTermSemi_eq (nq : ℕ) (d : LC) (pm : ℕ → ℝ) (idx : ℕ)
    (hd : ConOK d (pmSyserr pm idx d.em)) (hq : EnoughTimes d nq) :
    conTermSemi nq d pm idx = some (margLL (ssC d.t (pmSigma pm idx * pmSigma pm idx) (1 / pmTau pm idx)
      d.fe (pmSyserr pm idx d.em) d.n) (trendMat d.t d.n nq) (fun i => d.f i)) := by
  obtain ⟨e, he⟩ := hq
  have hL := trendMat_injective d.t d.n nq e he
  have hs := pmSigma_pos pm idx
  have ht : 0 < 1 / pmTau pm idx := one_div_pos.2 (pmTau_pos pm idx)
  have ha : 0 < pmSigma pm idx * pmSigma pm idx := by positivity
  have hpos := fun i hi => (ss_pos (sigma := d.fe) (syserr := pmSyserr pm idx d.em) ha ht hd.1 hd.2 i hi).2.2
  have hne := fun i hi => (hpos i hi).ne'
  have hC := ssC_posDef ha ht hd
  set C := ssC d.t (pmSigma pm idx * pmSigma pm idx) (1 / pmTau pm idx) d.fe (pmSyserr pm idx d.em) d.n
    with hCdef
  have hCC : C⁻¹ * C = 1 := Matrix.nonsing_inv_mul _ (isUnit_iff_ne_zero.2 hC.det_pos.ne')
  have hsol : ∀ y : ℕ → ℝ, (fun i : Fin d.n => ssSolve y (ssW d.t (pmSigma pm idx * pmSigma pm idx)
      (1 / pmTau pm idx) d.fe (pmSyserr pm idx d.em)) (ssD d.t (pmSigma pm idx * pmSigma pm idx)
      (1 / pmTau pm idx) d.fe (pmSyserr pm idx d.em)) (ssPhi d.t (1 / pmTau pm idx)) d.n
      (pmSigma pm idx * pmSigma pm idx) i) = C⁻¹.mulVec fun i : Fin d.n => y i := by
    intro y
    have := ssSolve_spec hd.1 hne y
    rw [← hCdef] at this
    rw [← this, Matrix.mulVec_mulVec, hCC, Matrix.one_mulVec]
  have hyb : (fun (i : Fin d.n) (j : Fin nq) => ssSolveMat (fun i j => if j = 0 then (1 : ℝ) else d.t i ^ j)
      (ssW d.t (pmSigma pm idx * pmSigma pm idx)
      (1 / pmTau pm idx) d.fe (pmSyserr pm idx d.em)) (ssD d.t (pmSigma pm idx * pmSigma pm idx)
      (1 / pmTau pm idx) d.fe (pmSyserr pm idx d.em)) (ssPhi d.t (1 / pmTau pm idx)) d.n
      (pmSigma pm idx * pmSigma pm idx) i j) = C⁻¹ * trendMat d.t d.n nq := by
    ext i j
    exact congrFun (hsol fun i => if (j : ℕ) = 0 then (1 : ℝ) else d.t i ^ (j : ℕ)) i
  have hqd := trend_posDef hC hL
  have hyq : (C⁻¹ * trendMat d.t d.n nq)ᵀ.mulVec (fun i : Fin d.n => d.f i) =
      (trendMat d.t d.n nq)ᵀ.mulVec (C⁻¹.mulVec fun i : Fin d.n => d.f i) := by
    rw [Matrix.transpose_mul, inv_symm (posDef_symm hC), Matrix.mulVec_mulVec]
  have hld : ssLndet (ssD d.t (pmSigma pm idx * pmSigma pm idx) (1 / pmTau pm idx) d.fe
      (pmSyserr pm idx d.em)) d.n = Real.log C.det := by
    rw [ssLndet_eq _ hpos, hCdef, ssC_det hd.1 hne]
  have hy : ∀ q : Fin nq → ℝ, (-1 : ℝ) • (trendMat d.t d.n nq).mulVec q +
      (1 : ℝ) • (fun i : Fin d.n => d.f i) = (fun i : Fin d.n => d.f i) - (trendMat d.t d.n nq).mulVec q := by
    intro q
    rw [neg_smul, one_smul, one_smul]; abel
  simp only [conTermSemi, hyb, hyq, hld, inverseSymat_eq (posDef_symm hqd), lndetSymat_posDef hqd,
    upperSym_of_symm (posDef_symm hqd), hqd.det_pos.ne', if_false, hy, hsol]
  simp only [margLL, glsCoef, Fin.is_lt, dite_true]
  congr 1
  ring

end Mica
