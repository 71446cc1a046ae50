import Verif.Proof.KernelGauss3
import Verif.Proof.OU
import Verif.Proof.Line

/-! Sums over components and positive semi-definiteness of the joint covariance. -/

namespace Mica
open MeasureTheory Set Filter Topology Matrix

/-! ### All types together -/

theorem tfDens_nonneg (T : TF) (c : ℝ) {w : ℝ} (hw : 0 < w) (s : ℝ) : 0 ≤ tfDens T c w s := by
  cases T
  · rw [tfDens_gauss]; exact (gaud_pos hw _).le
  · simp only [tfDens]; split <;> positivity
  · simp only [tfDens]
    split
    · have : 0 < s - (c - 2 * w) := by linarith
      positivity
    · exact le_rfl
  · simp only [tfDens]; split <;> positivity

theorem tfDens_integrable (T : TF) (c : ℝ) {w : ℝ} (hw : 0 < w) : Integrable (tfDens T c w) := by
  cases T
  · rw [tfDens_gauss]; exact (gaud_integrable hw).comp_sub_right c
  · rw [tfDens_tophat]; exact (topd_integrable w).comp_sub_right c
  · rw [tfDens_gamma]; exact (gamd_integrable hw).comp_sub_right _
  · rw [tfDens_exp]; exact (expd_integrable hw).comp_sub_right _

theorem tfDens_integral (T : TF) (c : ℝ) {w : ℝ} (hw : 0 < w) : ∫ s, tfDens T c w s = 1 := by
  cases T
  · rw [tfDens_gauss, integral_sub_right_eq_self (gaud w)]; exact gaud_integral hw
  · rw [tfDens_tophat, integral_sub_right_eq_self (topd w)]; exact topd_integral hw
  · rw [tfDens_gamma, integral_sub_right_eq_self (gamd w)]; exact gamd_integral hw
  · rw [tfDens_exp, integral_sub_right_eq_self (expd w)]; exact expd_integral hw

/-- The width of a component is not in the band where the code replaces the formula for the continuum-line
covariance by its limit. -/
def FarC (T : TF) (t w : ℝ) : Prop := T = .gamma ∨ T = .exp → FarRel t w

/-- The same for the covariance of two components: relative test between equal types, absolute test
between different types. -/
def FarL (T T' : TF) (t w w' : ℝ) : Prop :=
  if T = T' then T = .gamma ∨ T = .exp → FarRel t w ∧ FarRel t w'
  else (T = .gamma ∨ T = .exp → FarAbs t w) ∧ (T' = .gamma ∨ T' = .exp → FarAbs t w')

theorem fpSlc_eq (T : TF) {t : ℝ} (ht : 0 < t) {a : Comp} (hw : 0 < a.w) (hf : FarC T t a.w) (Dt : ℝ) :
    fpSlc T t a Dt = a.f * covLC t (tfDens T a.c a.w) Dt := by
  cases T
  · exact slcGau_eq ht hw Dt
  · exact slcTop_eq ht hw Dt
  · exact slcGam_eq ht hw (hf (Or.inl rfl)) Dt
  · exact slcExp_eq ht hw (hf (Or.inr rfl)) Dt

theorem fpSll_eq (T T' : TF) {t : ℝ} (ht : 0 < t) {a b : Comp} (hw : 0 < a.w) (hv : 0 < b.w)
    (hf : FarL T T' t a.w b.w) (Dt : ℝ) :
    fpSll T T' t a b Dt = a.f * b.f * covLL t (tfDens T a.c a.w) (tfDens T' b.c b.w) Dt := by
  have sw : ∀ {g : ℝ → Comp → Comp → ℝ → ℝ},
      (g t b a (-Dt) = b.f * a.f * covLL t (tfDens T' b.c b.w) (tfDens T a.c a.w) (-Dt)) →
      g t b a (-Dt) = a.f * b.f * covLL t (tfDens T a.c a.w) (tfDens T' b.c b.w) Dt := by
    intro g h
    rw [h, covLL_swap (tfDens T a.c a.w)]; ring
  cases T <;> cases T' <;> simp only [FarL, reduceCtorEq, if_true, if_false, or_true, true_or, or_self, false_implies,
    and_true, true_and, forall_const] at hf
  · exact sllGauGau_eq ht hw hv Dt
  · exact sllGauTop_eq ht hw hv Dt
  · exact sllGauGam_eq ht hw hv hf Dt
  · exact sllGauExp_eq ht hw hv hf Dt
  · exact sw (g := sllGauTop) (sllGauTop_eq ht hv hw _)
  · exact sllTopTop_eq ht hw hv Dt
  · exact sw (g := sllGamTop) (sllGamTop_eq ht hv hw hf _)
  · exact sw (g := sllExpTop) (sllExpTop_eq ht hv hw hf _)
  · exact sw (g := sllGauGam) (sllGauGam_eq ht hv hw hf _)
  · exact sllGamTop_eq ht hw hv hf Dt
  · exact sllGamGam_eq ht hw hv hf.1 hf.2 Dt
  · exact sw (g := sllExpGam) (sllExpGam_eq ht hv hw hf.2 hf.1 _)
  · exact sw (g := sllGauExp) (sllGauExp_eq ht hv hw hf _)
  · exact sllExpTop_eq ht hw hv hf Dt
  · exact sllExpGam_eq ht hw hv hf.1 hf.2 Dt
  · exact sllExpExp_eq ht hw hv hf.1 hf.2 Dt

/-! ### Sums -/

theorem foldl_add_range (g : ℕ → ℝ) (n : ℕ) (z : ℝ) : (List.range n).foldl (fun s k => s + g k) z = z + ∑ k ∈ Finset.range n, g k := by
  induction n with
  | zero => simp
  | succ n ih => rw [List.range_succ, List.foldl_append, ih, Finset.sum_range_succ]; simp [add_assoc]

theorem foldl_add_range2 (g : ℕ → ℕ → ℝ) (n m : ℕ) (z : ℝ) :
    (List.range n).foldl (fun s k => (List.range m).foldl (fun s l => s + g k l) s) z =
      z + ∑ k ∈ Finset.range n, ∑ l ∈ Finset.range m, g k l := by
  simp only [foldl_add_range]

theorem KEnv.taud_pos (e : KEnv) : 0 < e.taud := Real.exp_pos _
theorem KEnv.w_pos (e : KEnv) (j k : ℕ) : 0 < (e.comp j k).w := Real.exp_pos _

/-- No component of the lines below `J` is in the band of any formula it enters. -/
def KEnv.Far (e : KEnv) (J : ℕ) : Prop :=
  ∀ j < J, ∀ k < e.ng, FarC (e.typ k) e.taud (e.comp j k).w ∧
    ∀ j' < J, ∀ k' < e.ng, FarL (e.typ k) (e.typ k') e.taud (e.comp j k).w (e.comp j' k').w

theorem KEnv.slc_eq {e : KEnv} {J : ℕ} (h : e.Far J) {j : ℕ} (hj : j < J) (tcon tline : ℝ) :
    e.slc tcon tline j = ∑ k ∈ Finset.range e.ng,
      (e.comp j k).f * covLC e.taud (tfDens (e.typ k) (e.comp j k).c (e.comp j k).w) (tline - tcon) := by
  rw [KEnv.slc, foldl_add_range, zero_add]
  refine Finset.sum_congr rfl fun k hk => ?_
  exact fpSlc_eq _ e.taud_pos (e.w_pos j k) (h j hj k (Finset.mem_range.1 hk)).1 _

theorem KEnv.sll2_eq {e : KEnv} {J : ℕ} (h : e.Far J) {j l : ℕ} (hj : j < J) (hl : l < J) (t1 t2 : ℝ) :
    e.sll2 t1 t2 j l = ∑ k ∈ Finset.range e.ng, ∑ k' ∈ Finset.range e.ng,
      (e.comp j k).f * (e.comp l k').f * covLL e.taud (tfDens (e.typ k) (e.comp j k).c (e.comp j k).w)
        (tfDens (e.typ k') (e.comp l k').c (e.comp l k').w) (t1 - t2) := by
  rw [KEnv.sll2, foldl_add_range2, zero_add]
  refine Finset.sum_congr rfl fun k hk => Finset.sum_congr rfl fun k' hk' => ?_
  exact fpSll_eq _ _ e.taud_pos (e.w_pos j k) (e.w_pos l k')
    ((h j hj k (Finset.mem_range.1 hk)).2 l hl k' (Finset.mem_range.1 hk')) _

theorem KEnv.sll_eq_sll2 (e : KEnv) (t1 t2 : ℝ) (j : ℕ) : e.sll t1 t2 j = e.sll2 t1 t2 j j := rfl

/-! ### Averages of the process as measures -/

/-- Law of the emission time of what is seen at time `t` through a transfer function. -/
noncomputable def lagM (ψ : ℝ → ℝ) (t : ℝ) : Measure ℝ :=
  Measure.map (fun s => t - s) (volume.withDensity fun s => ENNReal.ofReal (ψ s))

theorem lagM_finite {ψ : ℝ → ℝ} (h : Integrable ψ) (t : ℝ) : IsFiniteMeasure (lagM ψ t) := by
  have := isFiniteMeasure_withDensity_ofReal h.2
  unfold lagM
  exact Measure.isFiniteMeasure_map _ _

theorem integral_dens {ψ : ℝ → ℝ} (h : Integrable ψ) (h0 : ∀ s, 0 ≤ ψ s) (g : ℝ → ℝ) :
    ∫ s, g s ∂(volume.withDensity fun s => ENNReal.ofReal (ψ s)) = ∫ s, ψ s * g s := by
  rw [integral_withDensity_eq_integral_toReal_smul₀ h.1.aemeasurable.ennreal_ofReal
    (Eventually.of_forall fun s => ENNReal.ofReal_lt_top)]
  refine integral_congr_ae (Eventually.of_forall fun s => ?_)
  simp only [ENNReal.toReal_ofReal (h0 s), smul_eq_mul]

theorem ouCov_dirac_lagM {tau : ℝ} {ψ : ℝ → ℝ} (h : Integrable ψ) (h0 : ∀ s, 0 ≤ ψ s) (u t : ℝ) :
    ouCov (1 / tau) (Measure.dirac u) (lagM ψ t) = covLC tau ψ (t - u) := by
  have := isFiniteMeasure_withDensity_ofReal h.2
  have := lagM_finite h t
  rw [ouCov, Measure.dirac_prod, integral_map (by fun_prop) (by fun_prop), lagM, integral_map (by fun_prop) (by fun_prop),
    integral_dens h h0, covLC]
  refine integral_congr_ae (Eventually.of_forall fun s => ?_)
  simp only
  rw [show u - (t - s) = -(t - u - s) by ring, abs_neg]
  congr 2; ring

theorem ouCov_lagM_lagM {tau : ℝ} {ψ φ : ℝ → ℝ} (h : Integrable ψ) (h0 : ∀ s, 0 ≤ ψ s)
    (h' : Integrable φ) (h0' : ∀ s, 0 ≤ φ s) (t1 t2 : ℝ) :
    ouCov (1 / tau) (lagM ψ t1) (lagM φ t2) = covLL tau ψ φ (t1 - t2) := by
  have := isFiniteMeasure_withDensity_ofReal h.2
  have := isFiniteMeasure_withDensity_ofReal h'.2
  rw [ouCov, lagM, lagM, Measure.map_prod_map _ _ (by fun_prop) (by fun_prop), integral_map (by fun_prop) (by fun_prop),
    prod_withDensity₀ h.1.aemeasurable.ennreal_ofReal h'.1.aemeasurable.ennreal_ofReal,
    integral_withDensity_eq_integral_toReal_smul₀, covLL, Measure.volume_eq_prod]
  · refine integral_congr_ae (Eventually.of_forall fun s => ?_)
    simp only [Prod.map_fst, Prod.map_snd, ENNReal.toReal_mul, ENNReal.toReal_ofReal (h0 _), ENNReal.toReal_ofReal (h0' _),
      smul_eq_mul]
    rw [show t1 - s.1 - (t2 - s.2) = t1 - t2 - s.1 + s.2 by ring]
    congr 2; ring
  · exact h.1.aemeasurable.ennreal_ofReal.comp_fst.mul h'.1.aemeasurable.ennreal_ofReal.comp_snd
  · exact Eventually.of_forall fun s => ENNReal.mul_lt_top ENNReal.ofReal_lt_top ENNReal.ofReal_lt_top

theorem ouCov_comm (c : ℝ) (μ ν : Measure ℝ) [IsFiniteMeasure μ] [IsFiniteMeasure ν] : ouCov c μ ν = ouCov c ν μ := by
  rw [ouCov, ouCov, ← integral_prod_swap]
  refine integral_congr_ae (Eventually.of_forall fun s => ?_)
  simp only [Prod.fst_swap, Prod.snd_swap]
  rw [abs_sub_comm]

/-- Covariances of linear combinations of averages are positive semi-definite. -/
theorem ouCov_comb_posSemidef {c : ℝ} (hc : 0 < c) {ι κ : Type*} [Fintype ι] [Fintype κ] [DecidableEq ι]
    (μ : ι → κ → Measure ℝ) [∀ i k, IsFiniteMeasure (μ i k)] (a : ι → κ → ℝ) :
    (Matrix.of fun i j => ∑ k, ∑ l, a i k * a j l * ouCov c (μ i k) (μ j l)).PosSemidef := by
  have hM := ouCov_posSemidef hc (ι := ι × κ) (fun z => μ z.1 z.2)
  let B : Matrix (ι × κ) ι ℝ := Matrix.of fun z i => if z.1 = i then a i z.2 else 0
  have := hM.conjTranspose_mul_mul_same B
  convert this using 1
  ext i j
  simp only [Matrix.mul_apply, Matrix.conjTranspose_apply, Matrix.of_apply, star_trivial, B, Fintype.sum_prod_type]
  simp only [ite_mul, zero_mul, mul_ite, mul_zero, Finset.sum_ite_irrel, Finset.sum_const_zero, Finset.sum_ite_eq', Finset.mem_univ, if_true,
    Finset.sum_mul]
  rw [Finset.sum_comm]
  refine Finset.sum_congr rfl fun k _ => Finset.sum_congr rfl fun l _ => ?_
  ring

/-! ### The joint covariance -/

/-- The averages entering the signal of a point: the process itself for the continuum, one average per
component for a line. -/
noncomputable def ptM (e : KEnv) (d : DSet) (x : ℕ × ℕ) : Option (Fin e.ng) → Measure ℝ
  | none => Measure.dirac ((d.ser x.1).t x.2)
  | some k => lagM (tfDens (e.typ k) (e.comp (x.1 - 1) k).c (e.comp (x.1 - 1) k).w) ((d.ser x.1).t x.2)

/-- Their coefficients. -/
noncomputable def ptA (e : KEnv) (x : ℕ × ℕ) : Option (Fin e.ng) → ℝ
  | none => if x.1 = 0 then 1 else 0
  | some k => if x.1 = 0 then 0 else (e.comp (x.1 - 1) k).f

instance (e : KEnv) (d : DSet) (x : ℕ × ℕ) (o : Option (Fin e.ng)) : IsFiniteMeasure (ptM e d x o) := by
  cases o
  · unfold ptM; infer_instance
  · exact lagM_finite (tfDens_integrable _ _ (e.w_pos _ _)) _

/-- Covariance of the signals of two points as it should be. -/
noncomputable def sigIdeal (e : KEnv) (d : DSet) (x y : ℕ × ℕ) : ℝ :=
  ∑ o, ∑ o', ptA e x o * ptA e y o' * ouCov (1 / e.taud) (ptM e d x o) (ptM e d y o')

theorem sigIdeal_comm (e : KEnv) (d : DSet) (x y : ℕ × ℕ) : sigIdeal e d x y = sigIdeal e d y x := by
  unfold sigIdeal
  rw [Finset.sum_comm]
  refine Finset.sum_congr rfl fun o _ => Finset.sum_congr rfl fun o' _ => ?_
  rw [ouCov_comm]; ring

theorem sigIdeal_cc (e : KEnv) (d : DSet) (i m : ℕ) :
    sigIdeal e d (0, i) (0, m) = Real.exp (-|(d.ser 0).t i - (d.ser 0).t m| / e.taud) := by
  simp only [sigIdeal, Fintype.sum_option, ptA, ptM, if_true, zero_mul, mul_zero, Finset.sum_const_zero, add_zero, one_mul]
  rw [ouCov_dirac]; congr 1; ring

theorem sigIdeal_cl {e : KEnv} {J : ℕ} (h : e.Far J) (d : DSet) {s : ℕ} (hs : s < J) (i m : ℕ) :
    sigIdeal e d (0, i) (s + 1, m) = e.slc ((d.ser 0).t i) ((d.ser (s + 1)).t m) s := by
  simp only [sigIdeal, Fintype.sum_option, ptA, ptM, if_true, zero_mul, Finset.sum_const_zero, add_zero, one_mul,
    Nat.add_eq_zero_iff, one_ne_zero, and_false, if_false, add_tsub_cancel_right, zero_add]
  rw [e.slc_eq h hs, Finset.sum_range]
  refine Finset.sum_congr rfl fun k _ => ?_
  rw [ouCov_dirac_lagM (tfDens_integrable _ _ (e.w_pos _ _)) (tfDens_nonneg _ _ (e.w_pos _ _))]

theorem sigIdeal_ll {e : KEnv} {J : ℕ} (h : e.Far J) (d : DSet) {s s' : ℕ} (hs : s < J) (hs' : s' < J) (i m : ℕ) :
    sigIdeal e d (s + 1, i) (s' + 1, m) = e.sll2 ((d.ser (s + 1)).t i) ((d.ser (s' + 1)).t m) s s' := by
  simp only [sigIdeal, Fintype.sum_option, ptA, ptM, zero_mul, mul_zero, Finset.sum_const_zero,
    Nat.add_eq_zero_iff, one_ne_zero, and_false, if_false, add_tsub_cancel_right, zero_add]
  rw [e.sll2_eq h hs hs', Finset.sum_range]
  refine Finset.sum_congr rfl fun k _ => ?_
  rw [Finset.sum_range]
  refine Finset.sum_congr rfl fun k' _ => ?_
  rw [ouCov_lagM_lagM (tfDens_integrable _ _ (e.w_pos _ _)) (tfDens_nonneg _ _ (e.w_pos _ _))
    (tfDens_integrable _ _ (e.w_pos _ _)) (tfDens_nonneg _ _ (e.w_pos _ _))]

/-- The assembled signal covariance is the ideal one. -/
theorem sigCov_ideal {e : KEnv} {J : ℕ} (h : e.Far J) (d : DSet) (x y : ℕ × ℕ) (hx : x.1 ≤ J) (hy : y.1 ≤ J) :
    sigCov e.kernels e.taud d x y = sigIdeal e d x y := by
  obtain ⟨s, i⟩ := x
  obtain ⟨s', m⟩ := y
  simp only at hx hy
  rcases s with _ | s <;> rcases s' with _ | s'
  · rw [sigIdeal_cc]; rfl
  · rw [sigIdeal_cl h d (by omega)]; rfl
  · rw [sigIdeal_comm, sigIdeal_cl h d (by omega)]; rfl
  · simp only [sigCov, KEnv.kernels]
    split
    · rename_i hss; subst hss
      split
      · rw [e.sll_eq_sll2, sigIdeal_ll h d (by omega) (by omega)]
      · rw [e.sll_eq_sll2, sigIdeal_comm, sigIdeal_ll h d (by omega) (by omega)]
    · split
      · rw [sigIdeal_ll h d (by omega) (by omega)]
      · rw [sigIdeal_comm, sigIdeal_ll h d (by omega) (by omega)]

theorem locate_le (l : List LC) (p : ℕ) (hp : p < totalN l) : (locate l p).1 < l.length := by
  induction l generalizing p with
  | nil => simp [totalN] at hp
  | cons a l ih =>
    rw [locate]
    split
    · simp
    · have := ih (p - a.n) (by simp only [totalN] at hp; omega)
      simpa using this

theorem locate_inj (l : List LC) (p q : ℕ) (hp : p < totalN l) (hq : q < totalN l) (h : locate l p = locate l q) : p = q := by
  induction l generalizing p q with
  | nil => simp [totalN] at hp
  | cons a l ih =>
    simp only [totalN] at hp hq
    simp only [locate] at h
    split at h <;> split at h <;> simp only [Prod.mk.injEq] at h
    · exact h.2
    · omega
    · omega
    · have := ih (p - a.n) (q - a.n) (by omega) (by omega) (Prod.ext (by omega) h.2)
      omega

theorem cov_split {e : KEnv} (d : DSet) (h : e.Far d.line.length) :
    d.cov e.kernels e.pm e.idxc e.idxl =
      Matrix.of (fun p q : Fin d.nall => sigIdeal e d (locate d.series p) (locate d.series q)) +
      Matrix.diagonal fun p : Fin d.nall => noiseVar d e.pm e.idxc e.idxl (locate d.series p) := by
  ext p q
  have hp := locate_le d.series p p.2
  have hq := locate_le d.series q q.2
  simp only [DSet.series, List.length_cons] at hp hq
  rw [DSet.cov, Matrix.of_apply, covEntry, Matrix.add_apply, Matrix.of_apply, Matrix.diagonal_apply]
  have : pmTau e.pm e.idxc = e.taud := rfl
  rw [this, sigCov_ideal h d _ _ (by simp only [DSet.series]; omega) (by simp only [DSet.series]; omega)]
  congr 1
  by_cases hpq : p = q
  · subst hpq; simp
  · rw [if_neg hpq, if_neg]
    exact fun hh => hpq (Fin.ext (locate_inj _ _ _ p.2 q.2 hh))

theorem noiseVar_nonneg (d : DSet) (pm : ℕ → ℝ) (idxc : ℕ) (idxl : ℕ → ℕ) (x : ℕ × ℕ) : 0 ≤ noiseVar d pm idxc idxl x := by
  unfold noiseVar; positivity

theorem sigIdeal_posSemidef (e : KEnv) (d : DSet) {n : ℕ} (x : Fin n → ℕ × ℕ) :
    (Matrix.of fun p q : Fin n => sigIdeal e d (x p) (x q)).PosSemidef :=
  ouCov_comb_posSemidef (one_div_pos.2 e.taud_pos) (fun p => ptM e d (x p)) (fun p => ptA e (x p))

end Mica
