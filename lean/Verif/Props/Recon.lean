import Verif.Proof.ReconCon
import Verif.Proof.ReconLine
import Verif.Props.Kernel

/-! # C38: reconstructions are best linear unbiased predictions -/

namespace Mica

open Matrix

/-- The powers of the times. -/
def powMat {n : ℕ} (t : Fin n → ℝ) (nq : ℕ) : Matrix (Fin n) (Fin nq) ℝ := fun i j => t i ^ (j : ℕ)

theorem trendMat_pow (t : ℕ → ℝ) (n nq : ℕ) : trendMat t n nq = powMat (fun i : Fin n => t i) nq := by
  ext i j
  simp only [trendMat, powMat]
  split
  · rename_i h; rw [h, pow_zero]
  · rfl

theorem err_scale {x sigma : ℝ} (hx : 0 ≤ x) (hs : 0 < sigma) :
    ((cSqrt x).map fun s => sigma * s) = some (Real.sqrt (sigma ^ 2 * x)) := by
  rw [cSqrt, if_neg (not_lt.2 hx), Option.map_some, Real.sqrt_mul (sq_nonneg _), Real.sqrt_sq hs.le]

/-- Covariance of the continuum data: damped random walk of variance `sigma^2` and time scale `tau`, and
noise. -/
noncomputable def conDataCov (sigma tau syserr : ℝ) (d : LC) : Matrix (Fin d.n) (Fin d.n) ℝ :=
  drwCov (sigma ^ 2) (1 / tau) (fun i => d.t i) fun i => d.fe i ^ 2 + syserr ^ 2

theorem conDataCov_eq {sigma tau syserr : ℝ} (d : LC) (hs : 0 < sigma) :
    conDataCov sigma tau syserr d = sigma ^ 2 • conPC sigma tau syserr d := by
  rw [sq sigma, conPC_smul hs, ssC, conDataCov]
  simp only [sq]

/-- The covariances of the continuum at time `x` with the data. -/
noncomputable def conCross (sigma tau : ℝ) (d : LC) (x : ℝ) : Fin d.n → ℝ :=
  fun j => sigma ^ 2 * Real.exp (-|x - d.t j| / tau)

theorem conCross_eq (sigma tau : ℝ) (d : LC) (m : ℕ) (trec : ℕ → ℝ) (i : Fin m) :
    conCross sigma tau d (trec i) = sigma ^ 2 • conU tau d m trec i := by
  ext j
  simp only [conCross, conU, Pi.smul_apply, smul_eq_mul]
  congr 2; ring

theorem con_predErr_nonneg {sigma tau syserr : ℝ} (ht : 0 < tau) (d : LC) (m : ℕ) (trec : ℕ → ℝ)
    (i : Fin m) (w : Fin d.n → ℝ) : 0 ≤ predErr (conPC sigma tau syserr d) (conU tau d m trec i) 1 w := by
  let T : Fin (d.n + 1) → ℝ := Fin.cons (trec i) fun j => d.t j
  refine predErr_nonneg (drwCov 1 (1 / tau) T 0) (drwCov_posSemidef zero_le_one (one_div_pos.2 ht) _ _ fun _ => le_rfl)
    ?_ ?_ ?_ (fun i => (d.fe i * d.fe i + syserr * syserr) / (sigma * sigma)) (fun i => ?_) ?_ w
  · simp [drwCov]
  · intro j; simp [drwCov, T, conU]
  · intro j; simp [drwCov, T, conU, abs_sub_comm]
  · exact div_nonneg (add_nonneg (mul_self_nonneg _) (mul_self_nonneg _)) (mul_self_nonneg _)
  · intro i j; simp [conPC, drwCov, T]

/-- C38: for all data and parameters both reconstructions of the continuum return, at each of the times
`trec`, the best linear unbiased prediction (a fixed linear function of the fluxes) and its standard error
(a number, not NaN), and the least-squares trend coefficients. -/
theorem C38_con {nq m : ℕ} {sigma tau syserr : ℝ} {d : LC} {trec : ℕ → ℝ} (hs : 0 < sigma) (ht : 0 < tau)
    (hd : ConOK d syserr) (hq : EnoughTimes d nq) :
    ∃ W : Fin m → Fin d.n → ℝ,
      (∀ i : Fin m, IsBlup (conDataCov sigma tau syserr d) (powMat (fun i : Fin d.n => d.t i) nq) (conCross sigma tau d (trec i))
        (fun j => trec i ^ (j : ℕ)) (sigma ^ 2) (W i)) ∧
      ∀ (f memP memU memU' : ℕ → ℝ), ∃ r : Recon nq m,
        conRec nq sigma tau syserr { d with f := f } m trec memP memU = .ok r ∧
        conRecSemi nq sigma tau syserr { d with f := f } m trec memU' = .ok r ∧
        (∀ i, r.val i = W i ⬝ᵥ fun j : Fin d.n => f j) ∧
        (∀ i : Fin m, 0 ≤ predErr (conDataCov sigma tau syserr d) (conCross sigma tau d (trec i)) (sigma ^ 2) (W i) ∧
          r.err i = some (Real.sqrt (predErr (conDataCov sigma tau syserr d) (conCross sigma tau d (trec i)) (sigma ^ 2) (W i)))) ∧
        r.coef = glsCoef (conDataCov sigma tau syserr d) (powMat (fun i : Fin d.n => d.t i) nq) fun j => f j := by
  have hC := conPC_posDef hs ht hd
  have hL := trend_inj hq
  have hs2 : 0 < sigma ^ 2 := by positivity
  refine ⟨fun i => blupW (conPC sigma tau syserr d) (trendMat d.t d.n nq) (conU tau d m trec i) (trendMat trec m nq i),
    fun i => ?_, fun f memP memU memU' => ⟨_, conRec_eq (d := { d with f := f }) hs ht hd hq memP memU,
      conRecSemi_eq (d := { d with f := f }) hs ht hd hq memU', fun i => rfl, fun i => ?_, ?_⟩⟩
  · have := isBlup_scaled hC hL (conU tau d m trec i) (trendMat trec m nq i) 1 hs2
    rw [← conDataCov_eq d hs, ← conCross_eq, mul_one, trendMat_pow trec] at this
    rw [← trendMat_pow d.t, trendMat_pow trec]
    exact this
  · have h0 := con_predErr_nonneg (sigma := sigma) (syserr := syserr) ht d m trec i (blupW (conPC sigma tau syserr d)
      (trendMat d.t d.n nq) (conU tau d m trec i) (trendMat trec m nq i))
    have h1 := predErr_smul (conPC sigma tau syserr d) (conU tau d m trec i) 1 (sigma ^ 2) (blupW (conPC sigma tau syserr d)
      (trendMat d.t d.n nq) (conU tau d m trec i) (trendMat trec m nq i))
    rw [← conDataCov_eq d hs, ← conCross_eq, mul_one] at h1
    rw [h1]
    exact ⟨by positivity, err_scale h0 hs⟩
  · rw [conDataCov_eq d hs, ← trendMat_pow, glsCoef_smul _ hs2.ne' hC.det_pos.ne' (trend_posDef hC hL).det_pos.ne']
    rfl

/-- C38: data that are a polynomial of degree below `nq` are continued exactly. -/
theorem C38_con_trend {nq m : ℕ} {sigma tau syserr : ℝ} {d : LC} {trec : ℕ → ℝ} (hs : 0 < sigma) (ht : 0 < tau)
    (hd : ConOK d syserr) (hq : EnoughTimes d nq) (p : Fin nq → ℝ)
    (hf : ∀ i < d.n, d.f i = ∑ j, p j * d.t i ^ (j : ℕ)) (memU : ℕ → ℝ) :
    ∃ r : Recon nq m, conRecSemi nq sigma tau syserr d m trec memU = .ok r ∧
      ∀ i : Fin m, r.val i = ∑ j, p j * trec i ^ (j : ℕ) := by
  obtain ⟨W, hW, h⟩ := C38_con (m := m) (trec := trec) hs ht hd hq
  obtain ⟨r, _, h2, h3, _⟩ := h d.f memU memU memU
  refine ⟨r, h2, fun i => ?_⟩
  have h4 := (hW i).1 p
  rw [h3]
  have e1 : (fun j : Fin d.n => d.f j) = (powMat (fun i : Fin d.n => d.t i) nq).mulVec p := by
    ext j
    rw [hf j j.2]
    simp only [Matrix.mulVec, dotProduct, powMat, mul_comm]
  rw [e1, h4]
  simp only [dotProduct, mul_comm]

/-- C38: at the time of a data point without noise the reconstruction is that point, with error zero. -/
theorem C38_con_exact {nq m : ℕ} {sigma tau : ℝ} {d : LC} {trec : ℕ → ℝ} (hs : 0 < sigma) (ht : 0 < tau)
    (hd : ConOK d 0) (hq : EnoughTimes d nq) (i : Fin m) (k : Fin d.n) (hfe : d.fe k = 0) (htk : trec i = d.t k)
    (memU : ℕ → ℝ) :
    ∃ r : Recon nq m, conRecSemi nq sigma tau 0 d m trec memU = .ok r ∧ r.val i = d.f k ∧ r.err i = some 0 := by
  have hC := conPC_posDef hs ht hd
  have hw : blupW (conPC sigma tau 0 d) (trendMat d.t d.n nq) (conU tau d m trec i) (trendMat trec m nq i) =
      Pi.single k 1 := by
    apply blupW_copy hC
    · ext j
      simp only [conU, conPC, Matrix.mulVec_single_one, Matrix.col_apply, drwCov, htk]
      rw [abs_sub_comm]
      split
      · rename_i h; subst h; simp [hfe]
      · simp
    · ext j
      simp only [trendMat, htk]
  refine ⟨_, conRecSemi_eq hs ht hd hq memU, ?_, ?_⟩
  · simp only [blupRecon, hw]
    simp
  · simp only [blupRecon, hw]
    have : predErr (conPC sigma tau 0 d) (conU tau d m trec i) 1 (Pi.single k 1) = 0 := by
      simp [predErr, conU, conPC, drwCov, htk, hfe]
      norm_num
    rw [this, err_scale le_rfl hs]
    simp

/-! ### Lines -/

/-- The covariance of all data of a set, in absolute units. -/
noncomputable def setCov (K : Kernels) (pm : ℕ → ℝ) (idxc : ℕ) (idxl : ℕ → ℕ) (d : DSet) : Matrix (Fin d.nall) (Fin d.nall) ℝ :=
  pmSigma pm idxc ^ 2 • Matrix.of fun p q : Fin d.nall => covEntry K d pm idxc idxl (locate d.series p) (locate d.series q)

/-- The covariances of the point `x` (light curve and time) with all data of a set. -/
noncomputable def setCross (K : Kernels) (pm : ℕ → ℝ) (idxc : ℕ) (d : DSet) (x : ℕ × ℝ) : Fin d.nall → ℝ :=
  fun q => pmSigma pm idxc ^ 2 * pointCov K (pmTau pm idxc) x (d.pt q)

/-- The trend basis functions of all data of a set. -/
noncomputable def setTrend (nq : ℕ) (d : DSet) : Matrix (Fin d.nall) (Fin (nq * (1 + d.line.length))) ℝ :=
  fun q => trendAt nq _ (d.pt q)

theorem setTrend_eq (nq : ℕ) (d : DSet) : d.trend nq = setTrend nq d :=
  funext fun q => trendRow_pt d nq _ q.2

/-- C38 (partial: the data set has a line): for all data, parameters and covariance functions with a positive
definite data covariance the
three reconstructions of continuum and lines return the same: at each point the best linear unbiased
prediction, and as error the square root of its mean squared error (NaN if that were negative). -/
theorem C38_line_partial {K : Kernels} {nq : ℕ} {d R : DSet} {pm : ℕ → ℝ} {idxc : ℕ} {idxl : ℕ → ℕ}
    (hcon : ConOK d.con (pmSyserr pm idxc d.con.em)) (hC : (setCov K pm idxc idxl d).PosDef)
    (hL : ∀ a ∈ d.series, EnoughTimes a nq) (hne : d.line ≠ []) :
    ∃ W : Fin R.nall → Fin d.nall → ℝ,
      (∀ i : Fin R.nall, IsBlup (setCov K pm idxc idxl d) (setTrend nq d) (setCross K pm idxc d (R.pt i))
        (trendAt nq _ (R.pt i)) (pmSigma pm idxc ^ 2 * pointCov K (pmTau pm idxc) (R.pt i) (R.pt i)) (W i)) ∧
      ∀ (f : Fin d.nall → ℝ) (memP memU memA : ℕ → ℝ), ∃ r : Recon (nq * (1 + d.line.length)) R.nall,
        lineRecs K nq d R pm idxc idxl f memP memU memA = (.ok r, r, r) ∧
        (∀ i, r.val i = W i ⬝ᵥ f) ∧
        (∀ i, r.err i = cSqrt (predErr (setCov K pm idxc idxl d) (setCross K pm idxc d (R.pt i))
          (pmSigma pm idxc ^ 2 * pointCov K (pmTau pm idxc) (R.pt i) (R.pt i)) (W i))) ∧
        r.coef = glsCoef (setCov K pm idxc idxl d) (setTrend nq d) f := by
  have hs := pmSigma_pos pm idxc
  have hs2 : 0 < pmSigma pm idxc ^ 2 := by positivity
  have hCov : setCov K pm idxc idxl d = pmSigma pm idxc ^ 2 • d.cov K pm idxc idxl := rfl
  have hC' : (d.cov K pm idxc idxl).PosDef := by
    have := hC.smul (inv_pos.2 hs2)
    rwa [hCov, smul_smul, inv_mul_cancel₀ hs2.ne', one_smul] at this
  have hLi := trend_injective d nq hL
  have hcr : ∀ x, setCross K pm idxc d x = pmSigma pm idxc ^ 2 • fun q : Fin d.nall => pointCov K (pmTau pm idxc) x (d.pt q) :=
    fun x => rfl
  refine ⟨fun i => blupW (d.cov K pm idxc idxl) (d.trend nq)
    (fun q : Fin d.nall => pointCov K (pmTau pm idxc) (R.pt i) (d.pt q)) (trendAt nq (nq * (1 + d.line.length)) (R.pt i)),
    fun i => ?_, fun f memP memU memA => ⟨_, lineRecs_eq K d R pm idxc idxl nq f hcon hC' hL hne memP memU memA, fun i => rfl,
      fun i => ?_, ?_⟩⟩
  · rw [hCov, ← setTrend_eq, hcr]
    exact isBlup_scaled hC' hLi _ _ _ hs2
  · rw [hCov, hcr, predErr_smul]
    simp only [lineBlup, blupRecon]
    generalize predErr _ _ _ _ = x
    rcases lt_or_ge x 0 with hx | hx
    · rw [cSqrt, if_pos hx, cSqrt, if_pos (mul_neg_of_pos_of_neg hs2 hx)]; rfl
    · rw [err_scale hx hs, cSqrt, if_neg (not_lt.2 (by positivity))]
  · rw [hCov, ← setTrend_eq, glsCoef_smul _ hs2.ne' hC'.det_pos.ne' (trend_posDef hC' hLi).det_pos.ne']
    rfl

theorem line_predErr_nonneg {e : KEnv} {d R : DSet} (h : e.Far d.line.length) (hR : R.line.length ≤ d.line.length)
    (i : Fin R.nall) (w : Fin d.nall → ℝ) :
    0 ≤ predErr (setCov e.kernels e.pm e.idxc e.idxl d) (setCross e.kernels e.pm e.idxc d (R.pt i))
      (pmSigma e.pm e.idxc ^ 2 * pointCov e.kernels e.taud (R.pt i) (R.pt i)) w := by
  have hCov : setCov e.kernels e.pm e.idxc e.idxl d = pmSigma e.pm e.idxc ^ 2 • d.cov e.kernels e.pm e.idxc e.idxl := rfl
  have hcr : setCross e.kernels e.pm e.idxc d (R.pt i) =
      pmSigma e.pm e.idxc ^ 2 • fun q : Fin d.nall => pointCov e.kernels e.taud (R.pt i) (d.pt q) := rfl
  rw [hCov, hcr, predErr_smul]
  refine mul_nonneg (sq_nonneg _) ?_
  let x : Fin (d.nall + 1) → ℕ × ℝ := Fin.cons (R.pt i) fun q => d.pt q
  have hi : (R.pt i).1 ≤ d.line.length := (pt_le R i.2).trans hR
  have hx : ∀ p, (x p).1 ≤ d.line.length := by
    intro p
    refine Fin.cases ?_ (fun q => ?_) p
    · exact hi
    · simp only [x, Fin.cons_succ]; exact pt_le d q.2
  refine predErr_nonneg _ (pointCov_posSemidef h x hx) ?_ ?_ ?_
    (fun q => noiseVar d e.pm e.idxc e.idxl (locate d.series q)) (fun q => noiseVar_nonneg _ _ _ _ _) ?_ w
  · simp [x]
  · intro q; simp [x]
  · intro q
    simp only [x, Matrix.of_apply, Fin.cons_zero, Fin.cons_succ]
    rw [pointCov_comm h (pt_le d q.2) hi]
  · intro p q
    rw [cov_pointCov d h]
    simp [x]

/-- C38 (partial: the data set has a line; widths within the band around the time scale are excluded, where the
code replaces formulas by their limits): with the transfer functions of the code the
reported errors of continuum and lines are numbers, not NaN. -/
theorem C38_line_error_partial {e : KEnv} {nq : ℕ} {d R : DSet} (h : e.Far d.line.length) (hR : R.line.length ≤ d.line.length)
    (hcon : ConOK d.con (pmSyserr e.pm e.idxc d.con.em)) (hC : (setCov e.kernels e.pm e.idxc e.idxl d).PosDef)
    (hL : ∀ a ∈ d.series, EnoughTimes a nq) (hne : d.line ≠ []) (f : Fin d.nall → ℝ) (memP memU memA : ℕ → ℝ) :
    ∃ r : Recon (nq * (1 + d.line.length)) R.nall,
      lineRecs e.kernels nq d R e.pm e.idxc e.idxl f memP memU memA = (.ok r, r, r) ∧
      ∀ i, ∃ v, r.err i = some v ∧ 0 ≤ v := by
  obtain ⟨W, _, hr⟩ := C38_line_partial (R := R) hcon hC hL hne
  obtain ⟨r, h1, _, h3, _⟩ := hr f memP memU memA
  refine ⟨r, h1, fun i => ?_⟩
  have h0 := line_predErr_nonneg h hR i (W i)
  rw [show e.taud = pmTau e.pm e.idxc from rfl] at h0
  rw [h3, cSqrt, if_neg (not_lt.2 h0)]
  exact ⟨_, rfl, Real.sqrt_nonneg _⟩

/-- C38 (partial: the data set has a line): light curves that are polynomials of degree below `nq`, each with its own coefficients, are
continued exactly. -/
theorem C38_line_trend_partial {K : Kernels} {nq : ℕ} {d R : DSet} {pm : ℕ → ℝ} {idxc : ℕ} {idxl : ℕ → ℕ}
    (hcon : ConOK d.con (pmSyserr pm idxc d.con.em)) (hC : (setCov K pm idxc idxl d).PosDef)
    (hL : ∀ a ∈ d.series, EnoughTimes a nq) (hne : d.line ≠ []) (hR : R.line.length ≤ d.line.length) (p : ℕ → ℕ → ℝ) (f : Fin d.nall → ℝ)
    (hf : ∀ q : Fin d.nall, f q = ∑ j ∈ Finset.range nq, p (d.pt q).1 j * (d.pt q).2 ^ j) (memP memU memA : ℕ → ℝ) :
    ∃ r : Recon (nq * (1 + d.line.length)) R.nall,
      lineRecs K nq d R pm idxc idxl f memP memU memA = (.ok r, r, r) ∧
      ∀ i : Fin R.nall, r.val i = ∑ j ∈ Finset.range nq, p (R.pt i).1 j * (R.pt i).2 ^ j := by
  obtain ⟨W, hW, hr⟩ := C38_line_partial (R := R) hcon hC hL hne
  obtain ⟨r, h1, h2, _⟩ := hr f memP memU memA
  refine ⟨r, h1, fun i => ?_⟩
  let pv : Fin (nq * (1 + d.line.length)) → ℝ := fun c => p (c / nq) (c % nq)
  have key : ∀ x : ℕ × ℝ, x.1 ≤ d.line.length →
      trendAt nq (nq * (1 + d.line.length)) x ⬝ᵥ pv = ∑ j ∈ Finset.range nq, p x.1 j * x.2 ^ j := by
    intro x hx
    have hb : x.1 * nq + nq ≤ nq * (1 + d.line.length) := by
      calc x.1 * nq + nq = nq * (x.1 + 1) := by ring
        _ ≤ _ := Nat.mul_le_mul_left _ (by omega)
    have e : ∀ c : Fin (nq * (1 + d.line.length)), trendAt nq (nq * (1 + d.line.length)) x c * pv c =
        (if x.1 * nq ≤ (c : ℕ) ∧ (c : ℕ) < x.1 * nq + nq then (fun k => x.2 ^ k) (c - x.1 * nq) else 0) * pv c := by
      intro c
      have h0 : 0 < nq := by
        rcases Nat.eq_zero_or_pos nq with h0 | h0
        · have h5 : nq * (1 + d.line.length) = 0 := by rw [h0, zero_mul]
          have := c.2; omega
        · exact h0
      have h5 := Nat.div_add_mod (c : ℕ) nq
      have h6 := Nat.mod_lt (c : ℕ) h0
      rw [Nat.mul_comm] at h5
      congr 1
      simp only [trendAt]
      by_cases hc : (c : ℕ) / nq = x.1
      · rw [hc] at h5
        rw [if_pos hc, if_pos ⟨by omega, by omega⟩]
        congr 1; omega
      · rw [if_neg hc, if_neg]
        rintro ⟨h7, h8⟩
        exact hc (Nat.div_eq_of_lt_le h7 (by rw [Nat.add_mul, one_mul]; exact h8))
    rw [dotProduct, Finset.sum_congr rfl fun c _ => e c, sum_block _ nq _ hb, Finset.sum_range]
    refine Finset.sum_congr rfl fun j _ => ?_
    have hj := j.2
    have d1 : (x.1 * nq + (j : ℕ)) / nq = x.1 := addr_div hj
    have d2 : (x.1 * nq + (j : ℕ)) % nq = j := addr_mod hj
    change x.2 ^ (j : ℕ) * p ((x.1 * nq + (j : ℕ)) / nq) ((x.1 * nq + (j : ℕ)) % nq) = _
    rw [d1, d2, mul_comm]
  have hfv : f = (setTrend nq d).mulVec pv := by
    ext q
    rw [hf q, ← key _ (pt_le d q.2)]
    rfl
  rw [h2, hfv, (hW i).1 pv, key _ ((pt_le R i.2).trans hR)]

/-- C38 (partial: as above): where a point of the same light curve has been observed without noise the reconstruction of
continuum and lines is that point, with error zero. -/
theorem C38_line_exact_partial {e : KEnv} {nq : ℕ} {d R : DSet} (h : e.Far d.line.length)
    (hcon : ConOK d.con (pmSyserr e.pm e.idxc d.con.em)) (hC : (setCov e.kernels e.pm e.idxc e.idxl d).PosDef)
    (hL : ∀ a ∈ d.series, EnoughTimes a nq) (hne : d.line ≠ []) (f : Fin d.nall → ℝ) (memP memU memA : ℕ → ℝ)
    (i : Fin R.nall) (k : Fin d.nall) (hik : R.pt i = d.pt k)
    (hk : noiseVar d e.pm e.idxc e.idxl (locate d.series k) = 0) :
    ∃ r : Recon (nq * (1 + d.line.length)) R.nall,
      lineRecs e.kernels nq d R e.pm e.idxc e.idxl f memP memU memA = (.ok r, r, r) ∧
      r.val i = f k ∧ r.err i = some 0 := by
  have hs := pmSigma_pos e.pm e.idxc
  have hs2 : 0 < pmSigma e.pm e.idxc ^ 2 := by positivity
  have hCov : setCov e.kernels e.pm e.idxc e.idxl d = pmSigma e.pm e.idxc ^ 2 • d.cov e.kernels e.pm e.idxc e.idxl := rfl
  have hC' : (d.cov e.kernels e.pm e.idxc e.idxl).PosDef := by
    have := hC.smul (inv_pos.2 hs2)
    rwa [hCov, smul_smul, inv_mul_cancel₀ hs2.ne', one_smul] at this
  have hcol : (fun q : Fin d.nall => pointCov e.kernels e.taud (R.pt i) (d.pt q)) =
      (d.cov e.kernels e.pm e.idxc e.idxl).mulVec (Pi.single k 1) := by
    ext q
    rw [Matrix.mulVec_single_one, Matrix.col_apply, cov_pointCov d h, hik, pointCov_comm h (pt_le d k.2) (pt_le d q.2)]
    split
    · rename_i hh; rw [hh, hk, add_zero]
    · rw [add_zero]
  have hw : blupW (d.cov e.kernels e.pm e.idxc e.idxl) (d.trend nq)
      (fun q : Fin d.nall => pointCov e.kernels e.taud (R.pt i) (d.pt q)) (trendAt nq (nq * (1 + d.line.length)) (R.pt i)) =
      Pi.single k 1 := by
    apply blupW_copy hC' _ _ _ hcol
    rw [setTrend_eq, setTrend, hik]
  refine ⟨_, lineRecs_eq e.kernels d R e.pm e.idxc e.idxl nq f hcon hC' hL hne memP memU memA, ?_, ?_⟩
  · change blupW (d.cov e.kernels e.pm e.idxc e.idxl) (d.trend nq)
      (fun q : Fin d.nall => pointCov e.kernels e.taud (R.pt i) (d.pt q)) (trendAt nq (nq * (1 + d.line.length)) (R.pt i)) ⬝ᵥ f = f k
    rw [hw]; simp
  · change Option.map (fun s => pmSigma e.pm e.idxc * s) (cSqrt (predErr (d.cov e.kernels e.pm e.idxc e.idxl)
      (fun q : Fin d.nall => pointCov e.kernels e.taud (R.pt i) (d.pt q)) (pointCov e.kernels e.taud (R.pt i) (R.pt i))
      (blupW (d.cov e.kernels e.pm e.idxc e.idxl) (d.trend nq)
      (fun q : Fin d.nall => pointCov e.kernels e.taud (R.pt i) (d.pt q))
      (trendAt nq (nq * (1 + d.line.length)) (R.pt i))))) = some 0
    rw [hw]
    have h0 : predErr (d.cov e.kernels e.pm e.idxc e.idxl)
      (fun q : Fin d.nall => pointCov e.kernels e.taud (R.pt i) (d.pt q)) (pointCov e.kernels e.taud (R.pt i) (R.pt i))
      (Pi.single k 1) = 0 := by
      have hkk := cov_pointCov d h k k
      rw [if_pos rfl, hk, add_zero] at hkk
      simp only [predErr, single_dotProduct, one_mul, Matrix.mulVec_single_one, Matrix.col_apply, hik, hkk]
      ring
    rw [h0, err_scale le_rfl hs]
    simp

/-! ### The hypotheses can be met -/

/-- Three continuum points, two of them at the same time, linear trend, reconstructed at any times. -/
example (trec : ℕ → ℝ) : ∃ r : Recon 2 7, conRecSemi 2 3 5 (1 / 2) exCon 7 trec (fun _ => 0) = .ok r ∧
    ∀ i, ∃ v, r.err i = some v := by
  obtain ⟨W, _, h⟩ := C38_con (nq := 2) (m := 7) (trec := trec) (sigma := 3) (tau := 5) (by norm_num) (by norm_num)
    (exCon_ok (1 / 2)) exCon_times
  obtain ⟨r, _, h2, _, h4, _⟩ := h exCon.f (fun _ => 0) (fun _ => 0) (fun _ => 0)
  exact ⟨r, h2, fun i => ⟨_, (h4 i).2⟩⟩

/-- Two noise-free points, constant trend: the second is reproduced. -/
example : ∃ r : Recon 1 2, conRecSemi 1 3 5 0 ⟨2, fun i => i, fun i => i + 7, fun _ => 0, 0⟩ 2 (fun i => i) (fun _ => 0) = .ok r ∧
    r.val 1 = 8 ∧ r.err 1 = some 0 := by
  have := C38_con_exact (nq := 1) (m := 2) (sigma := 3) (tau := 5) (d := ⟨2, fun i => i, fun i => i + 7, fun _ => 0, 0⟩)
    (trec := fun i => i) (by norm_num) (by norm_num) ⟨fun i _ => by simp, Or.inr fun i _ => by simp⟩
    ⟨fun _ => ⟨0, by norm_num⟩, fun x y _ => Subsingleton.elim (α := Fin 1) x y⟩ 1 ⟨1, by norm_num⟩ rfl rfl (fun _ => 0)
  obtain ⟨r, h1, h2, h3⟩ := this
  refine ⟨r, h1, ?_, h3⟩
  rw [h2]; norm_num

/-- One line seen through the mixture of three components: with noise the errors are numbers. -/
example (R : DSet) (hR : R.line.length = 1) (f : Fin exSet.nall → ℝ) :
    ∃ r : Recon (1 * (1 + exSet.line.length)) R.nall,
      lineRecs mixEnv.kernels 1 exSet R mixEnv.pm mixEnv.idxc mixEnv.idxl f (fun _ => 0) (fun _ => 0) (fun _ => 0) = (.ok r, r, r) ∧
      ∀ i, ∃ v, r.err i = some v ∧ 0 ≤ v := by
  have hC := (C30_pd_partial mixEnv exSet (fun _ => 0) (mixEnv_far _) ⟨fun i _ => by simp only [exSet]; positivity,
    fun j a ha i _ => by
      rcases j with _ | j
      · have := Option.some.inj ha
        rw [← this]; positivity
      · simp [exSet] at ha⟩).1
  rw [PCarr_eq] at hC
  have hs := pmSigma_pos mixEnv.pm mixEnv.idxc
  refine C38_line_error_partial (mixEnv_far _) (by rw [hR]; simp [exSet]) ⟨fun i hi => ?_, Or.inr fun i hi => ?_⟩
    (hC.smul (by positivity)) (fun a ha => ?_) (by simp [exSet]) f _ _ _
  · simp [exSet] at hi
  · simp [exSet] at hi
  · refine ⟨fun _ => ⟨0, ?_⟩, fun x y _ => Subsingleton.elim (α := Fin 1) x y⟩
    simp only [DSet.series, exSet, List.mem_cons, List.not_mem_nil, or_false] at ha
    rcases ha with rfl | rfl <;> norm_num

/-- One continuum point without noise and one line point with noise. -/
noncomputable def exExact : DSet :=
  ⟨⟨1, fun _ => 0, fun _ => 3, fun _ => 0, 0⟩, [⟨1, fun _ => 0, fun _ => 5, fun _ => 1, 1⟩]⟩

theorem exExact_posDef : (exExact.cov mixEnv.kernels mixEnv.pm mixEnv.idxc mixEnv.idxl).PosDef := by
  have hpsd := sigIdeal_posSemidef mixEnv exExact (fun p : Fin exExact.nall => locate exExact.series p)
  rw [cov_split exExact (mixEnv_far _)]
  have hn : exExact.nall = 2 := rfl
  have l0 : locate exExact.series 0 = (0, 0) := by simp [locate, exExact, DSet.series]
  have l1 : locate exExact.series 1 = (1, 0) := by simp [locate, exExact, DSet.series]
  have n0 : noiseVar exExact mixEnv.pm mixEnv.idxc mixEnv.idxl (0, 0) = 0 := by
    simp [noiseVar, exExact, DSet.ser, DSet.series, pmSyserr]
  have n1 : 0 < noiseVar exExact mixEnv.pm mixEnv.idxc mixEnv.idxl (1, 0) := by
    have := pmSigma_pos mixEnv.pm mixEnv.idxc
    simp only [noiseVar, exExact, DSet.ser, DSet.series, List.getD_cons_succ, List.getD_cons_zero]
    positivity
  set A : Matrix (Fin exExact.nall) (Fin exExact.nall) ℝ :=
    Matrix.of fun p q : Fin exExact.nall => sigIdeal mixEnv exExact (locate exExact.series p) (locate exExact.series q) with hA
  have hA00 : A (0 : Fin 2) (0 : Fin 2) = 1 := by
    change sigIdeal mixEnv exExact (locate exExact.series 0) (locate exExact.series 0) = 1
    rw [l0, sigIdeal_cc]; simp
  have hD := Matrix.PosSemidef.diagonal (d := fun p : Fin exExact.nall => noiseVar exExact mixEnv.pm mixEnv.idxc mixEnv.idxl
    (locate exExact.series p)) fun p => noiseVar_nonneg _ _ _ _ _
  refine Matrix.PosDef.of_dotProduct_mulVec_pos (hpsd.add hD).1 fun {x} hx => ?_
  have e1 : star x ⬝ᵥ (A + Matrix.diagonal fun p : Fin exExact.nall => noiseVar exExact mixEnv.pm mixEnv.idxc mixEnv.idxl
      (locate exExact.series p)).mulVec x = x ⬝ᵥ A.mulVec x +
      noiseVar exExact mixEnv.pm mixEnv.idxc mixEnv.idxl (1, 0) * x (1 : Fin 2) ^ 2 := by
    rw [Matrix.add_mulVec, dotProduct_add, star_trivial]
    congr 1
    rw [show (x ⬝ᵥ (Matrix.diagonal fun p : Fin exExact.nall => noiseVar exExact mixEnv.pm mixEnv.idxc mixEnv.idxl
      (locate exExact.series p)).mulVec x) = ∑ p : Fin 2, x p * (noiseVar exExact mixEnv.pm mixEnv.idxc mixEnv.idxl
      (locate exExact.series p) * x p) from Finset.sum_congr rfl fun p _ => by rw [Matrix.mulVec_diagonal]]
    rw [Fin.sum_univ_two]
    simp only [Fin.val_zero, Fin.val_one, l0, l1, n0]
    ring
  have h0 : 0 ≤ x ⬝ᵥ A.mulVec x := by simpa using hpsd.dotProduct_mulVec_nonneg x
  rw [e1]
  by_cases h1 : x (1 : Fin 2) = 0
  · have e2 : x ⬝ᵥ A.mulVec x = x (0 : Fin 2) ^ 2 := by
      change ∑ p : Fin 2, x p * ∑ q : Fin 2, A p q * x q = _
      simp only [Fin.sum_univ_two]
      rw [h1]
      have := hA00
      rw [this]; ring
    have h2 : x (0 : Fin 2) ≠ 0 := by
      intro h2
      apply hx
      funext p
      have hp : p = (0 : Fin 2) ∨ p = (1 : Fin 2) := by
        have : ∀ p : Fin 2, p = 0 ∨ p = 1 := by decide
        exact this p
      rcases hp with rfl | rfl
      · exact h2
      · exact h1
    rw [e2, h1]; positivity
  · have : 0 < noiseVar exExact mixEnv.pm mixEnv.idxc mixEnv.idxl (1, 0) * x (1 : Fin 2) ^ 2 := by positivity
    linarith

example (f : Fin exExact.nall → ℝ) : ∃ r : Recon (1 * (1 + exExact.line.length)) exExact.nall,
    lineRecs mixEnv.kernels 1 exExact exExact mixEnv.pm mixEnv.idxc mixEnv.idxl f (fun _ => 0) (fun _ => 0) (fun _ => 0) =
      (.ok r, r, r) ∧ r.val (0 : Fin 2) = f (0 : Fin 2) ∧ r.err (0 : Fin 2) = some 0 := by
  have hs := pmSigma_pos mixEnv.pm mixEnv.idxc
  refine C38_line_exact_partial (mixEnv_far _) ⟨fun i hi => ?_, Or.inr fun i hi => ?_⟩
    (exExact_posDef.smul (by positivity)) (fun a ha => ?_) (by simp [exExact]) f _ _ _ _ _ rfl ?_
  · simp [exExact] at hi
  · simp [exExact] at hi
  · refine ⟨fun _ => ⟨0, ?_⟩, fun x y _ => Subsingleton.elim (α := Fin 1) x y⟩
    simp only [DSet.series, exExact, List.mem_cons, List.not_mem_nil, or_false] at ha
    rcases ha with rfl | rfl <;> norm_num
  · change noiseVar exExact mixEnv.pm mixEnv.idxc mixEnv.idxl (locate exExact.series 0) = 0
    rw [show locate exExact.series 0 = (0, 0) by simp [locate, exExact, DSet.series]]
    simp [noiseVar, exExact, DSet.ser, DSet.series, pmSyserr]

/-! ### A data set without lines -/

/-- One point, variance `c` of the array taken for the inverse covariance, everything else 1. -/
theorem rec3_one {c : ℝ} (hc : c ≠ 0) {IPC L U A Lrec : Matrix (Fin 1) (Fin 1) ℝ} (hI : IPC 0 0 = c) (hL : L 0 0 = 1)
    (hU : U 0 0 = 1) (hA : A 0 0 = 1) (hR : Lrec 0 0 = 1) :
    A 0 0 + ((1 : ℝ) • ((((1 : ℝ) • (U * IPC * L) + (-1 : ℝ) • Lrec) * inverseSymat (Lᵀ * (IPC * L))) *
      ((1 : ℝ) • (U * IPC * L) + (-1 : ℝ) • Lrec)ᵀ) + (-1 : ℝ) • (U * IPC * Uᵀ)) 0 0 = 1 + ((c - 1) ^ 2 / c - c) := by
  have e1 : IPC = Matrix.diagonal fun _ => c := by
    ext i j; rw [Subsingleton.elim i 0, Subsingleton.elim j 0, hI, Matrix.diagonal_apply_eq]
  have e2 : L = 1 := by
    ext i j; rw [Subsingleton.elim i 0, Subsingleton.elim j 0, hL, Matrix.one_apply_eq]
  have e3 : U = 1 := by
    ext i j; rw [Subsingleton.elim i 0, Subsingleton.elim j 0, hU, Matrix.one_apply_eq]
  have e4 : Lrec = 1 := by
    ext i j; rw [Subsingleton.elim i 0, Subsingleton.elim j 0, hR, Matrix.one_apply_eq]
  have hinv : (Matrix.diagonal fun _ => c : Matrix (Fin 1) (Fin 1) ℝ)⁻¹ = Matrix.diagonal fun _ => c⁻¹ :=
    Matrix.inv_eq_right_inv (by rw [Matrix.diagonal_mul_diagonal, mul_inv_cancel₀ hc, Matrix.diagonal_one])
  rw [hA, e1, e2, e3, e4]
  simp only [Matrix.one_mul, Matrix.mul_one, Matrix.transpose_one, one_smul]
  rw [inverseSymat_eq (Matrix.diagonal_transpose _), hinv]
  simp only [Matrix.add_apply, Matrix.smul_apply, Matrix.diagonal_apply_eq, Matrix.mul_apply, Finset.univ_unique,
    Finset.sum_singleton, Fin.default_eq_zero, Matrix.transpose_apply, Matrix.one_apply_eq, smul_eq_mul]
  field_simp
  ring

theorem rec2_one {c : ℝ} (hc : c ≠ 0) {IPC L U A Lrec : Matrix (Fin 1) (Fin 1) ℝ} (hI : IPC 0 0 = c) (hL : L 0 0 = 1)
    (hU : U 0 0 = 1) (hA : A 0 0 = 1) (hR : Lrec 0 0 = 1) :
    A 0 0 - (U * IPC * Uᵀ) 0 0 + (((U * IPC * L - Lrec) * inverseSymat (Lᵀ * (IPC * L))) * (U * IPC * L - Lrec)ᵀ) 0 0 =
      1 + ((c - 1) ^ 2 / c - c) := by
  have := rec3_one hc hI hL hU hA hR
  rw [Matrix.add_apply, Matrix.smul_apply, Matrix.smul_apply, one_smul, one_smul, neg_one_smul, neg_one_smul,
    ← sub_eq_add_neg, ← sub_eq_add_neg, ← add_sub_assoc, add_sub_right_comm] at this
  exact this

/-- C38 fails for a data set without lines: reconstructing a single continuum point of variance 2 at its own
time, the variant in use takes the square root of a negative number, while the second variant reports the
error 1 of the observation. -/
theorem C38_no_line (f : Fin exNoLine.nall → ℝ) (memP memU memA : ℕ → ℝ) :
    LineDataOK exEnv [exNoLine] ∧
    (lineRecs (exEnv.K 0) 1 exNoLine exNoLine exEnv.pm (exEnv.idxc 0) (exEnv.idxl 0) f memP memU memA).2.1.err (0 : Fin 1) =
      some 1 ∧
    (lineRecs (exEnv.K 0) 1 exNoLine exNoLine exEnv.pm (exEnv.idxc 0) (exEnv.idxl 0) f memP memU memA).2.2.err (0 : Fin 1) =
      none := by
  have hs : pmSigma exEnv.pm (exEnv.idxc 0) = 1 := by simp [pmSigma, pmTau, exEnv]
  have l0 : locate exNoLine.series 0 = (0, 0) := by simp [locate, exNoLine, DSet.series]
  have hpt : exNoLine.pt 0 = (0, 0) := by
    rw [DSet.pt, l0]; rfl
  have hU : DSet.US (exEnv.K 0) exNoLine exNoLine exEnv.pm (exEnv.idxc 0) memU (0 : Fin 1) (0 : Fin 1) = 1 := by
    rw [US_eq]
    change pointCov _ _ (exNoLine.pt 0) (exNoLine.pt 0) = 1
    rw [hpt]; simp [pointCov]
  have hA : DSet.AS (exEnv.K 0) exNoLine exEnv.pm (exEnv.idxc 0) memA (0 : Fin 1) (0 : Fin 1) = 1 := by
    have := AS_diag (exEnv.K 0) exNoLine exEnv.pm (exEnv.idxc 0) memA (0 : Fin 1)
    rw [this]
    change pointCov _ _ (exNoLine.pt 0) (exNoLine.pt 0) = 1
    rw [hpt]; simp [pointCov]
  have hL : exNoLine.trend 1 (0 : Fin 1) (0 : Fin 1) = 1 := by
    simp [DSet.trend, trendRow, exNoLine, DSet.series]
  have hR : exNoLine.trendRec 1 (1 * (1 + exNoLine.line.length)) (0 : Fin 1) (0 : Fin 1) = 1 := by
    simp [DSet.trendRec, trendRow, exNoLine, DSet.series]
  have hP : exNoLine.PCseq (exEnv.K 0) exEnv.pm (exEnv.idxc 0) (exEnv.idxl 0) memP =
      (Matrix.diagonal fun _ => 2 : Matrix (Fin exNoLine.nall) (Fin exNoLine.nall) ℝ) := by
    rw [PCseq_eq, exNoLine_cov]
  have hinv : (Matrix.diagonal fun _ => 2 : Matrix (Fin 1) (Fin 1) ℝ)⁻¹ = Matrix.diagonal fun _ => 1 / 2 :=
    Matrix.inv_eq_right_inv (by rw [Matrix.diagonal_mul_diagonal]; norm_num)
  refine ⟨exNoLine_ok, ?_, ?_⟩
  · have key := rec2_one (c := 1 / 2) (by norm_num)
      (IPC := inverseSymat (exNoLine.PCseq (exEnv.K 0) exEnv.pm (exEnv.idxc 0) (exEnv.idxl 0) memP))
      (L := exNoLine.trend 1) (by
        rw [hP]
        exact congrFun (congrFun ((inverseSymat_eq (Matrix.diagonal_transpose _)).trans hinv) 0) 0) hL hU hA hR
    refine (congrArg (fun x => (cSqrt x).map fun s => pmSigma exEnv.pm (exEnv.idxc 0) * s) key).trans ?_
    rw [hs]
    norm_num [cSqrt]
  · have key := rec3_one (c := 2) two_ne_zero
      (IPC := block (arrayOf (exNoLine.PCseq (exEnv.K 0) exEnv.pm (exEnv.idxc 0) (exEnv.idxl 0) memP)) 0 exNoLine.nall 0
        exNoLine.nall)
      (L := exNoLine.trend 1) (by rw [block_arrayOf, hP]; rfl) hL hU hA hR
    refine (congrArg (fun x => (cSqrt x).map fun s => pmSigma exEnv.pm (exEnv.idxc 0) * s) key).trans ?_
    norm_num [cSqrt]

end Mica
