import Verif.Proof.BandError3
import Verif.Props.Kernel

/-!
# Covariances close to the damping timescale: C135
-/

namespace Mica
open MeasureTheory Set Filter Topology Matrix

/-! ### One pair of components, any time difference -/

theorem expd_covLL_shift {t : ℝ} (ht : 0 < t) {a b : Comp} (hw : 0 < a.w) (hv : 0 < b.w) (D : ℝ) :
    covLL t (tfDens .exp a.c a.w) (tfDens .exp b.c b.w) D =
      covLL t (expd a.w) (expd b.w) (D - (a.c - a.w - (b.c - b.w))) := by
  rw [tfDens_exp, tfDens_exp, covLL_shift ht (expd_stretch.int hw) (expd_stretch.int hv)]

theorem gamd_covLL_shift {t : ℝ} (ht : 0 < t) {a b : Comp} (hw : 0 < a.w) (hv : 0 < b.w) (D : ℝ) :
    covLL t (tfDens .gamma a.c a.w) (tfDens .gamma b.c b.w) D =
      covLL t (gamd a.w) (gamd b.w) (D - (a.c - 2 * a.w - (b.c - 2 * b.w))) := by
  rw [tfDens_gamma, tfDens_gamma, covLL_shift ht (gamd_stretch.int hw) (gamd_stretch.int hv)]

theorem sllExpExp_near {t : ℝ} (ht : 0 < t) {a b : Comp} (hw : 0 < a.w) (hv : 0 < b.w) (Dt : ℝ) :
    |sllExpExp t a b Dt - a.f * b.f * covLL t (tfDens .exp a.c a.w) (tfDens .exp b.c b.w) Dt| ≤
      |a.f * b.f| * (4 * kEPS) := by
  by_cases hx : Dt - (a.c - a.w - (b.c - b.w)) ≤ 0
  · rw [expd_covLL_shift ht hw hv]
    exact sllExpExp_near0 ht hw hv hx
  · rw [sllExpExp_mirror t a b Dt (fun h => hx (by rw [h]; simp)), covLL_swap, expd_covLL_shift ht hv hw, mul_comm a.f]
    exact sllExpExp_near0 ht hv hw (by linarith [not_le.1 hx])

theorem sllGamGam_near {t : ℝ} (ht : 0 < t) {a b : Comp} (hw : 0 < a.w) (hv : 0 < b.w) (Dt : ℝ) :
    |sllGamGam t a b Dt - a.f * b.f * covLL t (tfDens .gamma a.c a.w) (tfDens .gamma b.c b.w) Dt| ≤
      |a.f * b.f| * (12 * kEPS) := by
  by_cases hx : Dt - (a.c - 2 * a.w - (b.c - 2 * b.w)) ≤ 0
  · rw [gamd_covLL_shift ht hw hv]
    exact sllGamGam_near0 ht hw hv hx
  · rw [sllGamGam_mirror t a b Dt (fun h => hx (by rw [h]; simp)), covLL_swap, gamd_covLL_shift ht hv hw, mul_comm a.f]
    exact sllGamGam_near0 ht hv hw (by linarith [not_le.1 hx])

theorem fpSlc_near (T : TF) {t : ℝ} (ht : 0 < t) {a : Comp} (hw : 0 < a.w) (Dt : ℝ) :
    |fpSlc T t a Dt - a.f * covLC t (tfDens T a.c a.w) Dt| ≤ |a.f| * (4 * kEPS) := by
  have hk := kEPS_pos
  have h0 : 0 ≤ |a.f| * (4 * kEPS) := by positivity
  cases T
  · rw [fpSlc_eq .gauss ht hw (by simp [FarC]), sub_self, abs_zero]; exact h0
  · rw [fpSlc_eq .tophat ht hw (by simp [FarC]), sub_self, abs_zero]; exact h0
  · exact slcGam_near ht hw Dt
  · exact (slcExp_near ht hw Dt).trans (mul_le_mul_of_nonneg_left (by linarith) (abs_nonneg _))

theorem fpSll_near (T T' : TF) {t : ℝ} (ht : 0 < t) {a b : Comp} (hw : 0 < a.w) (hv : 0 < b.w)
    (h : T = T' ∨ FarL T T' t a.w b.w) (Dt : ℝ) :
    |fpSll T T' t a b Dt - a.f * b.f * covLL t (tfDens T a.c a.w) (tfDens T' b.c b.w) Dt| ≤
      |a.f| * |b.f| * (12 * kEPS) := by
  have hk := kEPS_pos
  have h0 : 0 ≤ |a.f| * |b.f| * (12 * kEPS) := by positivity
  rcases h with rfl | h
  · rw [← abs_mul]
    cases T
    · rw [fpSll_eq .gauss .gauss ht hw hv (by simp [FarL]), sub_self, abs_zero]; positivity
    · rw [fpSll_eq .tophat .tophat ht hw hv (by simp [FarL]), sub_self, abs_zero]; positivity
    · exact sllGamGam_near ht hw hv Dt
    · exact (sllExpExp_near ht hw hv Dt).trans (mul_le_mul_of_nonneg_left (by linarith) (abs_nonneg _))
  · rw [fpSll_eq T T' ht hw hv h, sub_self, abs_zero]; exact h0

/-! ### All components -/

/-- Size of the response of line `j`: the sum of the absolute amplitudes of its components. -/
noncomputable def respSize (e : KEnv) (j : ℕ) : ℝ :=
  ∑ k ∈ Finset.range e.ng,
    |if e.lin then e.pm (e.idxl j + 1 + 3 * k) else Real.exp (e.pm (e.idxl j + 1 + 3 * k))|

theorem respSize_comp (e : KEnv) (j : ℕ) : respSize e j = ∑ k ∈ Finset.range e.ng, |(e.comp j k).f| := rfl

theorem respSize_nonneg (e : KEnv) (j : ℕ) : 0 ≤ respSize e j := Finset.sum_nonneg fun _ _ => abs_nonneg _

/-- Components of different types (mixture model only) are not in the band of the formula for their pair;
components of the same type are not restricted. -/
def KEnv.PairsOK (e : KEnv) (J : ℕ) : Prop :=
  ∀ j < J, ∀ k < e.ng, ∀ j' < J, ∀ k' < e.ng,
    e.typ k = e.typ k' ∨ FarL (e.typ k) (e.typ k') e.taud (e.comp j k).w (e.comp j' k').w

theorem KEnv.pairsOK_of_type (e : KEnv) (T : TF) (h : ∀ k < e.ng, e.typ k = T) (J : ℕ) : e.PairsOK J :=
  fun _ _ k hk _ _ k' hk' => Or.inl ((h k hk).trans (h k' hk').symm)

/-- C135, continuum with a line: for all widths, in the band around the damping timescale or not, for all
types and mixtures, the covariance computed by the code differs from the integral it stands for by at most
`4e-5` times the size of the response. -/
theorem C135_con_line (e : KEnv) (j : ℕ) (tcon tline : ℝ) :
    |e.slc tcon tline j - ∫ s, transfer e j s * Real.exp (-|tline - tcon - s| / e.taud)| ≤
      4 / 100000 * respSize e j := by
  change |_ - covLC e.taud (transfer e j) (tline - tcon)| ≤ _
  rw [covLC_transfer, KEnv.slc, foldl_add_range, zero_add, ← Finset.sum_sub_distrib, respSize_comp, Finset.mul_sum]
  refine (Finset.abs_sum_le_sum_abs _ _).trans (Finset.sum_le_sum fun k _ => ?_)
  refine (fpSlc_near _ e.taud_pos (e.w_pos j k) _).trans_eq ?_
  unfold kEPS; ring

theorem sll2_near {e : KEnv} {J : ℕ} (h : e.PairsOK J) {j l : ℕ} (hj : j < J) (hl : l < J) (t1 t2 : ℝ) :
    |e.sll2 t1 t2 j l - covLL e.taud (transfer e j) (transfer e l) (t1 - t2)| ≤
      12 / 100000 * (respSize e j * respSize e l) := by
  rw [covLL_transfer, KEnv.sll2, foldl_add_range2, zero_add, ← Finset.sum_sub_distrib, respSize_comp, respSize_comp,
    Finset.sum_mul_sum, Finset.mul_sum]
  refine (Finset.abs_sum_le_sum_abs _ _).trans (Finset.sum_le_sum fun k hk => ?_)
  rw [← Finset.sum_sub_distrib, Finset.mul_sum]
  refine (Finset.abs_sum_le_sum_abs _ _).trans (Finset.sum_le_sum fun k' hk' => ?_)
  refine (fpSll_near _ _ e.taud_pos (e.w_pos j k) (e.w_pos l k')
    (h j hj k (Finset.mem_range.1 hk) l hl k' (Finset.mem_range.1 hk')) _).trans_eq ?_
  unfold kEPS; ring

/-- C135, two lines: the covariance differs from the double integral by at most `1.2e-4` times the sizes of the
two responses. -/
theorem C135_lines (e : KEnv) (J : ℕ) (h : e.PairsOK J) (j l : ℕ) (hj : j < J) (hl : l < J) (t1 t2 : ℝ) :
    |e.sll2 t1 t2 j l - ∫ p : ℝ × ℝ, transfer e j p.1 * transfer e l p.2 *
        Real.exp (-|t1 - t2 - p.1 + p.2| / e.taud)| ≤ 12 / 100000 * (respSize e j * respSize e l) :=
  sll2_near h hj hl t1 t2

/-- C135, a line with itself. -/
theorem C135_line_self (e : KEnv) (J : ℕ) (h : e.PairsOK J) (j : ℕ) (hj : j < J) (t1 t2 : ℝ) :
    |e.sll t1 t2 j - ∫ p : ℝ × ℝ, transfer e j p.1 * transfer e j p.2 *
        Real.exp (-|t1 - t2 - p.1 + p.2| / e.taud)| ≤ 12 / 100000 * respSize e j ^ 2 := by
  rw [e.sll_eq_sll2, sq]
  exact sll2_near h hj hj t1 t2

/-! ### The whole matrix -/

theorem sigIdeal_cl_int (e : KEnv) (d : DSet) (s i m : ℕ) :
    sigIdeal e d (0, i) (s + 1, m) = covLC e.taud (transfer e s) ((d.ser (s + 1)).t m - (d.ser 0).t i) := by
  simp only [sigIdeal, Fintype.sum_option, ptA, ptM, if_true, zero_mul, Finset.sum_const_zero, add_zero, one_mul,
    Nat.add_eq_zero_iff, one_ne_zero, and_false, if_false, add_tsub_cancel_right, zero_add]
  rw [covLC_transfer, Finset.sum_range]
  refine Finset.sum_congr rfl fun k _ => ?_
  rw [ouCov_dirac_lagM (tfDens_integrable _ _ (e.w_pos _ _)) (tfDens_nonneg _ _ (e.w_pos _ _))]

theorem sigIdeal_ll_int (e : KEnv) (d : DSet) (s s' i m : ℕ) :
    sigIdeal e d (s + 1, i) (s' + 1, m) =
      covLL e.taud (transfer e s) (transfer e s') ((d.ser (s + 1)).t i - (d.ser (s' + 1)).t m) := by
  simp only [sigIdeal, Fintype.sum_option, ptA, ptM, zero_mul, mul_zero, Finset.sum_const_zero,
    Nat.add_eq_zero_iff, one_ne_zero, and_false, if_false, add_tsub_cancel_right, zero_add]
  rw [covLL_transfer, Finset.sum_range]
  refine Finset.sum_congr rfl fun k _ => ?_
  rw [Finset.sum_range]
  refine Finset.sum_congr rfl fun k' _ => ?_
  rw [ouCov_lagM_lagM (tfDens_integrable _ _ (e.w_pos _ _)) (tfDens_nonneg _ _ (e.w_pos _ _))
    (tfDens_integrable _ _ (e.w_pos _ _)) (tfDens_nonneg _ _ (e.w_pos _ _))]

/-- Every entry of the assembled signal covariance is close to that of the exact one. -/
theorem sigCov_near {e : KEnv} {J : ℕ} (h : e.PairsOK J) {A : ℝ} (hA : 1 ≤ A) (hr : ∀ j < J, respSize e j ≤ A)
    (d : DSet) (x y : ℕ × ℕ) (hx : x.1 ≤ J) (hy : y.1 ≤ J) :
    |sigCov e.kernels e.taud d x y - sigIdeal e d x y| ≤ 12 / 100000 * A ^ 2 := by
  have hcl : ∀ s < J, ∀ i m, |e.slc ((d.ser 0).t i) ((d.ser (s + 1)).t m) s - sigIdeal e d (0, i) (s + 1, m)| ≤
      12 / 100000 * A ^ 2 := by
    intro s hs i m
    rw [sigIdeal_cl_int]
    refine (C135_con_line e s _ _).trans ?_
    have := hr s hs
    nlinarith [respSize_nonneg e s]
  have hll : ∀ s < J, ∀ s' < J, ∀ i m, |e.sll2 ((d.ser (s + 1)).t i) ((d.ser (s' + 1)).t m) s s' -
      sigIdeal e d (s + 1, i) (s' + 1, m)| ≤ 12 / 100000 * A ^ 2 := by
    intro s hs s' hs' i m
    rw [sigIdeal_ll_int]
    refine (sll2_near h hs hs' _ _).trans ?_
    have := mul_le_mul (hr s hs) (hr s' hs') (respSize_nonneg e s') (by linarith)
    rw [sq]; linarith
  obtain ⟨s, i⟩ := x
  obtain ⟨s', m⟩ := y
  simp only at hx hy
  rcases s with _ | s <;> rcases s' with _ | s'
  · rw [sigIdeal_cc]; simp only [sigCov, sub_self, abs_zero]; positivity
  · exact hcl s' (by omega) i m
  · rw [sigIdeal_comm]; exact hcl s (by omega) m i
  · simp only [sigCov, KEnv.kernels]
    split
    · rename_i hss; subst hss
      split
      · rw [e.sll_eq_sll2]; exact hll s (by omega) s (by omega) i m
      · rw [e.sll_eq_sll2, sigIdeal_comm]; exact hll s (by omega) s (by omega) m i
    · split
      · exact hll s (by omega) s' (by omega) i m
      · rw [sigIdeal_comm]; exact hll s' (by omega) s (by omega) m i

theorem sigCov_comm (K : Kernels) (tau : ℝ) (d : DSet) (x y : ℕ × ℕ) : sigCov K tau d x y = sigCov K tau d y x := by
  obtain ⟨s, i⟩ := x
  obtain ⟨s', m⟩ := y
  rcases s with _ | s <;> rcases s' with _ | s'
  · simp only [sigCov, abs_sub_comm]
  · rfl
  · rfl
  · simp only [sigCov]
    rcases lt_trichotomy s s' with h | h | h
    · rw [if_neg h.ne, if_pos h, if_neg h.ne', if_neg h.not_gt]
    · subst h
      simp only [if_true]
      rcases lt_trichotomy i m with g | g | g
      · rw [if_neg (not_le.2 g), if_pos g.le]
      · subst g; rfl
      · rw [if_pos g.le, if_neg (not_le.2 g)]
    · rw [if_neg h.ne', if_neg h.not_gt, if_neg h.ne, if_pos h]

/-- A positive semi-definite matrix, changed by at most `ε` in every entry and with more than `n ε` added on the
diagonal, is positive definite. -/
theorem posDef_of_near {n : ℕ} {S C : Matrix (Fin n) (Fin n) ℝ} {N : Fin n → ℝ} {ε : ℝ} (hS : S.PosSemidef)
    (hC : ∀ p q, C p q = C q p) (hε : ∀ p q, |C p q - S p q| ≤ ε) (hN : ∀ p, n * ε < N p) :
    (C + Matrix.diagonal N).PosDef := by
  refine Matrix.PosDef.of_dotProduct_mulVec_pos ?_ fun x hx => ?_
  · ext p q
    simp only [Matrix.conjTranspose_apply, Matrix.add_apply, star_trivial]
    rw [hC, Matrix.diagonal_apply, Matrix.diagonal_apply]
    by_cases h : p = q
    · subst h; rfl
    · rw [if_neg h, if_neg (Ne.symm h)]
  have h1 := hS.dotProduct_mulVec_nonneg x
  have e1 : star x ⬝ᵥ (C + Matrix.diagonal N) *ᵥ x =
      star x ⬝ᵥ S *ᵥ x + ∑ p, ∑ q, (C p q - S p q) * (x p * x q) + ∑ p, N p * x p ^ 2 := by
    simp only [star_trivial, dotProduct, Matrix.mulVec, Matrix.add_apply, Matrix.diagonal_apply, Finset.mul_sum]
    rw [← Finset.sum_add_distrib, ← Finset.sum_add_distrib]
    refine Finset.sum_congr rfl fun p _ => ?_
    rw [← Finset.sum_add_distrib]
    have : N p * x p ^ 2 = ∑ q, x p * ((if p = q then N p else 0) * x q) := by
      simp only [ite_mul, zero_mul, mul_ite, mul_zero, Finset.sum_ite_eq, Finset.mem_univ, if_true]; ring
    rw [this, ← Finset.sum_add_distrib]
    refine Finset.sum_congr rfl fun q _ => ?_
    ring
  rw [e1]
  have h2 : |∑ p, ∑ q, (C p q - S p q) * (x p * x q)| ≤ n * ε * ∑ p, x p ^ 2 := by
    calc |∑ p, ∑ q, (C p q - S p q) * (x p * x q)| ≤ ∑ p, ∑ q, ε * ((x p ^ 2 + x q ^ 2) / 2) := by
          refine (Finset.abs_sum_le_sum_abs _ _).trans (Finset.sum_le_sum fun p _ => ?_)
          refine (Finset.abs_sum_le_sum_abs _ _).trans (Finset.sum_le_sum fun q _ => ?_)
          rw [abs_mul]
          refine mul_le_mul (hε p q) ?_ (abs_nonneg _) ((abs_nonneg _).trans (hε p q))
          rw [abs_mul]
          nlinarith [sq_nonneg (|x p| - |x q|), sq_abs (x p), sq_abs (x q)]
      _ = n * ε * ∑ p, x p ^ 2 := by
          simp only [← Finset.mul_sum, ← Finset.sum_div, Finset.sum_add_distrib, Finset.sum_const, Finset.card_univ,
            Fintype.card_fin, nsmul_eq_mul]
          ring
  have h3 : n * ε * ∑ p, x p ^ 2 < ∑ p, N p * x p ^ 2 := by
    rw [Finset.mul_sum]
    obtain ⟨p, hp⟩ := Function.ne_iff.1 hx
    refine Finset.sum_lt_sum (fun p _ => mul_le_mul_of_nonneg_right (hN p).le (sq_nonneg _)) ⟨p, Finset.mem_univ _, ?_⟩
    exact mul_lt_mul_of_pos_right (hN p) (by have : x p ≠ 0 := hp; positivity)
  linarith [(abs_le.1 h2).1]

/-- The noise of every point of a data set (measurement and systematic error together) has a variance above `v`
times that of the continuum variations. -/
def NoisyBy (v : ℝ) (e : KEnv) (d : DSet) : Prop :=
  (∀ i < d.con.n, v * pmSigma e.pm e.idxc ^ 2 < d.con.fe i ^ 2 + ((Real.exp (e.pm e.idxc) - 1) * d.con.em) ^ 2) ∧
  ∀ j a, d.line[j]? = some a → ∀ i < a.n,
    v * pmSigma e.pm e.idxc ^ 2 < a.fe i ^ 2 + ((Real.exp (e.pm (e.idxl j)) - 1) * a.em) ^ 2

theorem noiseVar_gt {v : ℝ} {e : KEnv} {d : DSet} (h : NoisyBy v e d) (p : ℕ) (hp : p < d.nall) :
    v < noiseVar d e.pm e.idxc e.idxl (locate d.series p) := by
  obtain ⟨a, ha, hb⟩ := locate_valid d.series p hp
  generalize locate d.series p = x at ha hb
  obtain ⟨s, i⟩ := x
  have hs := pmSigma_pos e.pm e.idxc
  have hser : d.ser s = a := by simp only [DSet.ser, List.getD, ha, Option.getD_some]
  unfold noiseVar
  simp only [hser]
  rw [lt_div_iff₀ (by positivity)]
  rcases s with _ | s
  · have : a = d.con := by simpa [DSet.series] using ha.symm
    subst this
    exact h.1 i hb
  · show v * pmSigma e.pm e.idxc ^ 2 < a.fe i ^ 2 + pmSyserr e.pm (e.idxl s) (d.ser (s + 1)).em ^ 2
    rw [hser]
    exact h.2 s a (by simpa [DSet.series] using ha) i hb

theorem cov_posDef_band {e : KEnv} {d : DSet} (h : e.PairsOK d.line.length) {A : ℝ} (hA : 1 ≤ A)
    (hr : ∀ j < d.line.length, respSize e j ≤ A)
    (hN : ∀ p < d.nall, d.nall * (12 / 100000 * A ^ 2) < noiseVar d e.pm e.idxc e.idxl (locate d.series p)) :
    (d.cov e.kernels e.pm e.idxc e.idxl).PosDef := by
  have := posDef_of_near (n := d.nall) (ε := 12 / 100000 * A ^ 2)
    (C := Matrix.of fun p q : Fin d.nall => sigCov e.kernels e.taud d (locate d.series p) (locate d.series q))
    (N := fun p => noiseVar d e.pm e.idxc e.idxl (locate d.series p))
    (sigIdeal_posSemidef e d fun p : Fin d.nall => locate d.series p)
    (fun p q => sigCov_comm _ _ _ _ _) (fun p q => ?_) fun p => hN p p.2
  · convert this using 1
    ext p q
    rw [DSet.cov, Matrix.of_apply, covEntry, Matrix.add_apply, Matrix.of_apply, Matrix.diagonal_apply]
    have : pmTau e.pm e.idxc = e.taud := rfl
    rw [this]
    congr 1
    by_cases hpq : p = q
    · subst hpq; simp
    · rw [if_neg hpq, if_neg]
      exact fun hh => hpq (Fin.ext (locate_inj _ _ _ p.2 q.2 hh))
  · have hp := locate_le d.series p p.2
    have hq := locate_le d.series q q.2
    simp only [DSet.series, List.length_cons] at hp hq
    exact sigCov_near h hA hr d _ _ (by simp only [DSet.series]; omega) (by simp only [DSet.series]; omega)

/-- The largest error of an entry of the matrix, times the number of points: with noise above this the matrix is
positive definite. -/
noncomputable def bandNoise (d : DSet) (A : ℝ) : ℝ := d.nall * (12 / 100000 * A ^ 2)

/-- C135, the matrix: whatever the widths, in the band or not, if no response has a size above `A ≥ 1` and every
point has noise of relative variance above `1.2e-4 A²` times the number of points, then the matrix the code
assembles is positive definite. -/
theorem C135_posdef (e : KEnv) (d : DSet) (mem : ℕ → ℝ) (A : ℝ) (hA : 1 ≤ A) (h : e.PairsOK d.line.length)
    (hr : ∀ j < d.line.length, respSize e j ≤ A) (hN : NoisyBy (bandNoise d A) e d) :
    (d.PCarr e.kernels e.pm e.idxc e.idxl mem).PosDef ∧
    (matOf (runWrites (lineWrites e.kernels d e.pm e.idxc e.idxl) mem) d.nall d.nall).PosDef := by
  have h := cov_posDef_band h hA hr fun p hp => noiseVar_gt hN p hp
  refine ⟨by rw [PCarr_eq]; exact h, ?_⟩
  convert h using 1
  ext p q
  exact runWrites_line e.kernels d e.pm e.idxc e.idxl mem p.2 q.2

/-- As `TransferOK`, with a noise level in place of the condition that no width is in the band. -/
def BandOK (e : LineEnv) (ds : List DSet) : Prop :=
  ∀ (k : ℕ) d, ds[k]? = some d → (∃ ng lin typ A, e.K k = (KEnv.mk ng lin typ e.pm (e.idxc k) (e.idxl k)).kernels ∧
      1 ≤ A ∧ (KEnv.mk ng lin typ e.pm (e.idxc k) (e.idxl k)).PairsOK d.line.length ∧
      (∀ j < d.line.length, respSize (KEnv.mk ng lin typ e.pm (e.idxc k) (e.idxl k)) j ≤ A) ∧
      NoisyBy (bandNoise d A) (KEnv.mk ng lin typ e.pm (e.idxc k) (e.idxl k)) d) ∧
    (∀ i, i + 1 < d.con.n → d.con.t i ≤ d.con.t (i + 1)) ∧ (∀ a ∈ d.series, EnoughTimes a e.nq)

theorem BandOK.lineDataOK {e : LineEnv} {ds : List DSet} (h : BandOK e ds) : LineDataOK e ds := by
  intro k d hd
  obtain ⟨⟨ng, lin, typ, A, hK, hA, hP, hr, hN⟩, ht, hE⟩ := h k d hd
  refine ⟨⟨ht, Or.inl fun i hi => ?_⟩, hE, ?_⟩
  · have h0 : 0 ≤ bandNoise d A * pmSigma e.pm (e.idxc k) ^ 2 := by unfold bandNoise; positivity
    have := h0.trans_lt (hN.1 i hi)
    simp only [sq] at this
    exact this
  · rw [hK]
    exact cov_posDef_band hP hA hr fun p hp => noiseVar_gt hN p hp

/-- C135, the likelihood: under the same conditions, with at least one line in every data set, all four line
likelihoods return one number, the logarithm of the normal density of the data integrated over the trend
coefficients with the matrix of the code. -/
theorem C135_likelihood (e : LineEnv) (ds : List DSet) (h : BandOK e ds) (hl : ∀ d ∈ ds, d.line ≠ []) :
    ∃ v, probLine1 e ds = .ok v ∧ probLine2 e ds = .ok v ∧ probLine3 e ds = .ok v ∧ probLine4 e ds = .ok v ∧
    v = (ds.mapIdx fun k d =>
      Real.log (∫ p, gaussDens (lineCov e k d) ((fun i : Fin d.nall => d.fall i) - (d.trend e.nq).mulVec p)) +
      ((d.nall : ℝ) - (e.nq * (1 + d.line.length) : ℕ)) / 2 * Real.log (2 * Real.pi)).sum := by
  obtain ⟨v, h1, h2, h3, h4⟩ := C26_line_partial e ds h.lineDataOK hl
  refine ⟨v, h1, h2, h3, h4, ?_⟩
  have := C27_line_partial e ds h.lineDataOK hl
  rw [h4] at this
  exact Res.ok.inj this

/-! ### Examples -/

example (J : ℕ) : bandEnv.PairsOK J := bandEnv.pairsOK_of_type .exp (fun _ _ => rfl) J

/-- The band is not excluded: its width is `5e-6` below the damping timescale, relatively. -/
example : |bandEnv.taud - (bandEnv.comp 0 0).w| / bandEnv.taud < kEPS ∧ bandEnv.taud ≠ (bandEnv.comp 0 0).w := by
  have ht : bandEnv.taud = 1 := by simp [KEnv.taud, bandEnv]
  have hw : (bandEnv.comp 0 0).w = 1 - 1 / 200000 := by
    have : (bandEnv.comp 0 0).w = Real.exp (Real.log (1 - 1 / 200000)) := by simp [KEnv.comp, compAt, bandEnv]
    rw [this, Real.exp_log (by norm_num)]
  rw [ht, hw]
  unfold kEPS
  norm_num [abs_lt]

theorem bandEnv_size : respSize bandEnv 0 ≤ 1 := by
  simp [respSize, bandEnv]

/-- Three points with noise of a tenth of the variations. -/
noncomputable def bandSet2 : DSet :=
  ⟨⟨1, fun _ => 0, fun _ => 0, fun _ => 1 / 10, 0⟩,
    [⟨2, fun i => if i = 0 then 0 else 2 / 10 ^ 6, fun _ => 0, fun _ => 1 / 10, 0⟩]⟩

theorem bandSet2_noisy : NoisyBy (bandNoise bandSet2 1) bandEnv bandSet2 := by
  have hn : bandSet2.nall = 3 := rfl
  have hs : pmSigma bandEnv.pm bandEnv.idxc = 1 := by simp [pmSigma, pmTau, bandEnv]
  refine ⟨fun i _ => ?_, fun j a ha i _ => ?_⟩
  · rw [bandNoise, hn, hs]; simp only [bandSet2]; norm_num
  · rcases j with _ | j
    · have := Option.some.inj ha
      rw [← this, bandNoise, hn, hs]; norm_num
    · simp [bandSet2] at ha

example (mem : ℕ → ℝ) : (bandSet2.PCarr bandEnv.kernels bandEnv.pm bandEnv.idxc bandEnv.idxl mem).PosDef :=
  (C135_posdef bandEnv bandSet2 mem 1 le_rfl (bandEnv.pairsOK_of_type .exp (fun _ _ => rfl) _)
    (fun j hj => by
      have : j = 0 := by simp [bandSet2] at hj; omega
      subst this; exact bandEnv_size) bandSet2_noisy).1

/-- One data set seen through a response in the band. -/
example : BandOK ⟨1, bandEnv.pm, fun _ => bandEnv.idxc, fun _ => bandEnv.idxl, fun _ => bandEnv.kernels, fun _ => 0⟩
    [bandSet2] := by
  intro k d hd
  have hk : k = 0 ∧ d = bandSet2 := by
    rcases k with _ | k <;> simp at hd
    exact ⟨rfl, hd.symm⟩
  obtain ⟨rfl, rfl⟩ := hk
  refine ⟨⟨1, false, bandEnv.typ, 1, rfl, le_rfl, bandEnv.pairsOK_of_type .exp (fun _ _ => rfl) _, fun j hj => ?_,
    bandSet2_noisy⟩, fun i hi => ?_, fun a ha => ?_⟩
  · have : j = 0 := by simp [bandSet2] at hj; omega
    subst this; exact bandEnv_size
  · simp [bandSet2] at hi
  · refine ⟨fun _ => ⟨0, ?_⟩, fun x y _ => Subsingleton.elim (α := Fin 1) x y⟩
    simp only [DSet.series, bandSet2, List.mem_cons, List.not_mem_nil, or_false] at ha
    rcases ha with rfl | rfl <;> norm_num

end Mica
