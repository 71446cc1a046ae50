import Verif.Proof.Recon

/-! Helper lemmas about the reconstruction of the continuum. -/

namespace Mica

open Matrix

theorem umat_at (tau : ℝ) (d : LC) (m : ℕ) (trec : ℕ → ℝ) (mem : ℕ → ℝ) {i j : ℕ} (hi : i < m) (hj : j < d.n) :
    runWrites (umatWrites tau 1 d m trec) mem (i * d.n + j) = Real.exp (-(1 / tau) * |trec i - d.t j|) := by
  let V : ℕ → ℝ := fun a => Real.exp (-(1 / tau) * |trec (a / d.n) - d.t (a % d.n)|)
  have hmain : runWrites (umatWrites tau 1 d m trec) mem (i * d.n + j) = V (i * d.n + j) := by
    apply runWrites_eq
    · intro w hw
      simp only [umatWrites, List.mem_flatMap, List.mem_map, List.mem_range] at hw
      obtain ⟨a, _, b, hb, rfl⟩ := hw
      simp only [V, addr_div hb, addr_mod hb, Real.rpow_one]
      congr 1; ring
    · simp only [umatWrites, List.mem_flatMap, List.mem_map, List.mem_range]
      exact ⟨_, ⟨i, hi, j, hj, rfl⟩, rfl⟩
  rw [hmain]
  simp only [V, addr_div hj, addr_mod hj]

theorem umat_eq (tau : ℝ) (d : LC) (m : ℕ) (trec : ℕ → ℝ) (mem : ℕ → ℝ) :
    matOf (runWrites (umatWrites tau 1 d m trec) mem) m d.n =
      fun (i : Fin m) (j : Fin d.n) => Real.exp (-(1 / tau) * |trec i - d.t j|) := by
  ext i j
  exact umat_at tau d m trec mem i.2 j.2

/-- The covariance of the continuum data in units of `sigma²`. -/
noncomputable def conPC (sigma tau syserr : ℝ) (d : LC) : Matrix (Fin d.n) (Fin d.n) ℝ :=
  drwCov 1 (1 / tau) (fun i => d.t i) (fun i => (d.fe i * d.fe i + syserr * syserr) / (sigma * sigma))

/-- The covariance of reconstruction and data in units of `sigma²`. -/
noncomputable def conU (tau : ℝ) (d : LC) (m : ℕ) (trec : ℕ → ℝ) : Matrix (Fin m) (Fin d.n) ℝ :=
  fun i j => Real.exp (-(1 / tau) * |trec i - d.t j|)

section con
variable {sigma tau syserr : ℝ} {d : LC} {nq m : ℕ} {trec : ℕ → ℝ}

theorem conPC_smul (hs : 0 < sigma) :
    (sigma * sigma) • conPC sigma tau syserr d = ssC d.t (sigma * sigma) (1 / tau) d.fe syserr d.n :=
  drwCov_smul (sigma * sigma) (1 / tau) (fun i : Fin d.n => d.t i)
    (fun i => d.fe i * d.fe i + syserr * syserr) (by positivity)

theorem conPC_posDef (hs : 0 < sigma) (ht : 0 < tau) (hd : ConOK d syserr) : (conPC sigma tau syserr d).PosDef := by
  have h := (ssC_posDef (a := sigma * sigma) (by positivity) (one_div_pos.2 ht) hd).smul
    (show 0 < (sigma * sigma)⁻¹ by positivity)
  rwa [← conPC_smul hs, smul_smul, inv_mul_cancel₀ (by positivity), one_smul] at h

theorem trend_inj (hq : EnoughTimes d nq) : Function.Injective (trendMat d.t d.n nq).mulVec := by
  obtain ⟨e, he⟩ := hq
  exact trendMat_injective d.t d.n nq e he

theorem conRec_eq (hs : 0 < sigma) (ht : 0 < tau) (hd : ConOK d syserr) (hq : EnoughTimes d nq) (memP memU : ℕ → ℝ) :
    conRec nq sigma tau syserr d m trec memP memU = .ok (blupRecon (conPC sigma tau syserr d) (conU tau d m trec)
      (fun _ => 1) (trendMat d.t d.n nq) (trendMat trec m nq) (fun i => d.f i) sigma) := by
  have hC := conPC_posDef hs ht hd
  have hL := trend_inj hq
  have hqd := trend_posDef hC hL
  have hP : matOf (runWrites (conWrites sigma tau 1 syserr d) memP) d.n d.n = conPC sigma tau syserr d :=
    conPmat_eq _ _ _ _ _
  have hU : matOf (runWrites (umatWrites tau 1 d m trec) memU) m d.n = conU tau d m trec := umat_eq _ _ _ _ _
  simp only [conRec, hP, hU, luInv_posDef hC, luInv_posDef hqd, Res.ok_bind]
  congr 1
  unfold blupRecon
  rw [recon_val hC]
  simp only [recon_err hC hL]
  rfl

theorem conRecSemi_eq (hs : 0 < sigma) (ht : 0 < tau) (hd : ConOK d syserr) (hq : EnoughTimes d nq) (memU : ℕ → ℝ) :
    conRecSemi nq sigma tau syserr d m trec memU = .ok (blupRecon (conPC sigma tau syserr d) (conU tau d m trec)
      (fun _ => 1) (trendMat d.t d.n nq) (trendMat trec m nq) (fun i => d.f i) sigma) := by
  have hP := conPC_posDef hs ht hd
  have hL := trend_inj hq
  have hs2 : 0 < sigma * sigma := by positivity
  have ht' : 0 < 1 / tau := one_div_pos.2 ht
  have hU : matOf (runWrites (umatWrites tau 1 d m trec) memU) m d.n = conU tau d m trec := umat_eq _ _ _ _ _
  have hpos := fun i hi => (ss_pos (sigma := d.fe) (syserr := syserr) hs2 ht' hd.1 hd.2 i hi).2.2
  have hne := fun i hi => (hpos i hi).ne'
  have hC := ssC_posDef hs2 ht' hd
  set PC := conPC sigma tau syserr d with hPdef
  set L := trendMat d.t d.n nq with hLdef
  have hCsm : ssC d.t (sigma * sigma) (1 / tau) d.fe syserr d.n = (sigma * sigma) • PC := (conPC_smul hs).symm
  have hCinv : ((sigma * sigma) • PC)⁻¹ = (sigma * sigma)⁻¹ • PC⁻¹ := smul_inv_mat hs2.ne' hP.det_pos.ne'
  have hsol : ∀ y : ℕ → ℝ, (fun i : Fin d.n => ssSolve y (ssW d.t (sigma * sigma) (1 / tau) d.fe syserr)
      (ssD d.t (sigma * sigma) (1 / tau) d.fe syserr) (ssPhi d.t (1 / tau)) d.n (sigma * sigma) i) =
      (sigma * sigma)⁻¹ • PC⁻¹.mulVec fun i : Fin d.n => y i := by
    intro y
    have := ssSolve_spec hd.1 hne y
    rw [← Matrix.smul_mulVec, ← hCinv, ← hCsm, ← this, Matrix.mulVec_mulVec,
      Matrix.nonsing_inv_mul _ (isUnit_iff_ne_zero.2 hC.det_pos.ne'), Matrix.one_mulVec]
  have hyb : (fun (i : Fin d.n) (j : Fin nq) => ssSolveMat (fun i j => if j = 0 then (1 : ℝ) else d.t i ^ j)
      (ssW d.t (sigma * sigma) (1 / tau) d.fe syserr) (ssD d.t (sigma * sigma) (1 / tau) d.fe syserr)
      (ssPhi d.t (1 / tau)) d.n (sigma * sigma) i j) = (sigma * sigma)⁻¹ • (PC⁻¹ * L) := by
    ext i j
    exact congrFun (hsol fun i => if (j : ℕ) = 0 then (1 : ℝ) else d.t i ^ (j : ℕ)) i
  have hpe : (fun (i : Fin d.n) (j : Fin m) => ssSolve (fun i => runWrites (umatWrites tau 1 d m trec) memU (i + j * d.n))
      (ssW d.t (sigma * sigma) (1 / tau) d.fe syserr) (ssD d.t (sigma * sigma) (1 / tau) d.fe syserr)
      (ssPhi d.t (1 / tau)) d.n (sigma * sigma) i) = (sigma * sigma)⁻¹ • (PC⁻¹ * (conU tau d m trec)ᵀ) := by
    ext i j
    have h := congrFun (hsol fun i => runWrites (umatWrites tau 1 d m trec) memU (i + j * d.n)) i
    refine h.trans ?_
    have : (fun i : Fin d.n => runWrites (umatWrites tau 1 d m trec) memU (i + j * d.n)) = (conU tau d m trec) j := by
      ext k
      rw [Nat.add_comm, umat_at tau d m trec memU j.2 k.2]
      rfl
    rw [this]
    rfl
  have hqd := trend_posDef hP hL
  have hq2 : (Lᵀ * ((sigma * sigma)⁻¹ • (PC⁻¹ * L))) = (sigma * sigma)⁻¹ • (Lᵀ * (PC⁻¹ * L)) := by
    rw [Matrix.mul_smul]
  have hlu : luInv ((sigma * sigma)⁻¹ • (Lᵀ * (PC⁻¹ * L))) = .ok ((sigma * sigma) • (Lᵀ * (PC⁻¹ * L))⁻¹) := by
    rw [luInv_posDef (hqd.smul (inv_pos.2 hs2)), smul_inv_mat (inv_ne_zero hs2.ne') hqd.det_pos.ne', inv_inv]
  have hy : ((sigma * sigma) • (Lᵀ * (PC⁻¹ * L))⁻¹).mulVec (((sigma * sigma)⁻¹ • (PC⁻¹ * L))ᵀ.mulVec fun i : Fin d.n => d.f i) =
      glsCoef PC L (fun i => d.f i) := by
    rw [Matrix.transpose_smul, Matrix.transpose_mul, inv_symm (posDef_symm hP), Matrix.smul_mulVec, Matrix.smul_mulVec,
      Matrix.mulVec_smul, smul_smul, mul_inv_cancel₀ hs2.ne', one_smul, ← Matrix.mulVec_mulVec]
    rfl
  have hU1 : (sigma * sigma) • ((sigma * sigma)⁻¹ • (PC⁻¹ * (conU tau d m trec)ᵀ))ᵀ = conU tau d m trec * PC⁻¹ := by
    rw [Matrix.transpose_smul, smul_smul, mul_inv_cancel₀ hs2.ne', one_smul, Matrix.transpose_mul,
      Matrix.transpose_transpose, inv_symm (posDef_symm hP)]
  have hU2 : (sigma * sigma) • (conU tau d m trec * ((sigma * sigma)⁻¹ • (PC⁻¹ * (conU tau d m trec)ᵀ))) =
      conU tau d m trec * PC⁻¹ * (conU tau d m trec)ᵀ := by
    rw [Matrix.mul_smul, smul_smul, mul_inv_cancel₀ hs2.ne', one_smul, Matrix.mul_assoc]
  have hf : ∀ y, (sigma * sigma) • ((sigma * sigma)⁻¹ • (PC⁻¹ * (conU tau d m trec)ᵀ))ᵀ.mulVec y =
      (conU tau d m trec).mulVec (PC⁻¹.mulVec y) := by
    intro y
    rw [← Matrix.smul_mulVec, hU1, Matrix.mulVec_mulVec]
  have hX0 : (sigma * sigma) • (((sigma * sigma)⁻¹ • (PC⁻¹ * (conU tau d m trec)ᵀ))ᵀ * L) =
      conU tau d m trec * PC⁻¹ * L := by
    rw [← Matrix.smul_mul, hU1]
  have hX : (1 / (sigma * sigma)) • ((conU tau d m trec * PC⁻¹ * L - trendMat trec m nq) *
      (sigma * sigma) • (Lᵀ * (PC⁻¹ * L))⁻¹) = (conU tau d m trec * PC⁻¹ * L - trendMat trec m nq) *
      (Lᵀ * (PC⁻¹ * L))⁻¹ := by
    rw [Matrix.mul_smul, smul_smul, one_div, inv_mul_cancel₀ hs2.ne', one_smul]
  simp only [conRecSemi, hyb, hpe, hU]
  rw [← hLdef, hq2, hlu]
  simp only [Res.ok_bind, hy, hf, hX0, hU2, neg_one_smul, one_smul, ← sub_eq_add_neg, hX]
  congr 1
  unfold blupRecon
  rw [recon_val hP]
  simp only [recon_err hP hL]
  ext i : 2
  · rfl
  · simp only [neg_add_eq_sub]
    rw [add_comm]
  · simp only [Matrix.sub_apply]
    congr 2
    ring

end con
end Mica
