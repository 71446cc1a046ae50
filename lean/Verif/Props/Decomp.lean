import Verif.Proof.Decomp
import Verif.Spec.Decomp
import Verif.Props.Recon

/-! # C80: the decomposition of the lines into components -/

namespace Mica

open Matrix

/-! ### Both kinds of decomposition -/

theorem fqAll_eq {e : KEnv} (hlin : e.lin = false) (j : ℕ) :
    fqAll e.pm (e.idxl j) e.ng = ∑ k ∈ Finset.range e.ng, (e.comp j k).f := by
  rw [fqAll, foldl_add_range, zero_add]
  refine Finset.sum_congr rfl fun k _ => ?_
  simp only [KEnv.comp, compAt, hlin]
  simp only [Bool.false_eq_true, if_false]
  rw [mul_comm]

theorem ptWeight_share (e : KEnv) (k : ℕ) (x : ℕ × ℝ) :
    ptWeight (fun j => trendWeight e.lin e.pm (e.idxl j) e.ng k) x = partShare e k x := by
  obtain ⟨s, t⟩ := x
  rcases s with _ | s
  · rfl
  · simp only [ptWeight, partShare, Nat.add_eq_zero_iff, one_ne_zero, and_false, if_false, add_tsub_cancel_right, trendWeight]
    cases hl : e.lin with
    | true => rfl
    | false =>
      simp only [Bool.false_eq_true, if_false, fqAll_eq hl]
      simp only [KEnv.comp, compAt, hl, Bool.false_eq_true, if_false]

theorem partShare_sum {e : KEnv} (hng : 0 < e.ng) {x : ℕ × ℝ} (hx : x.1 ≠ 0) :
    ∑ k ∈ Finset.range e.ng, partShare e k x = if e.lin then 0 else 1 := by
  obtain ⟨s, t⟩ := x
  rcases s with _ | s
  · exact absurd rfl hx
  · simp only [partShare]
    cases hl : e.lin with
    | true => simp
    | false =>
      simp only [Bool.false_eq_true, if_false]
      rw [← Finset.sum_div]
      refine div_self (ne_of_gt ?_)
      refine Finset.sum_pos (fun k _ => ?_) ⟨0, Finset.mem_range.2 hng⟩
      simp only [KEnv.comp, compAt, hl, Bool.false_eq_true, if_false]
      exact Real.exp_pos _

/-- What one call returns. -/
noncomputable def partRecon (e : KEnv) (S : SKernels) (k nq : ℕ) (d R : DSet) (f : Fin d.nall → ℝ) :
    Recon (nq * (1 + d.line.length)) R.nall :=
  let C := d.cov e.kernels e.pm e.idxc e.idxl
  ⟨glsCoef C (d.trend nq) f,
    fun i => (fun q : Fin d.nall => partPt e.kernels S.K e.taud (R.pt i) (d.pt q)) ⬝ᵥ
        C⁻¹.mulVec (f - (d.trend nq).mulVec (glsCoef C (d.trend nq) f)) +
      partShare e k (R.pt i) * (trendAt nq _ (R.pt i) ⬝ᵥ glsCoef C (d.trend nq) f),
    fun i => (cSqrt (partDiag S (R.pt i) - (fun q : Fin d.nall => partPt e.kernels S.K e.taud (R.pt i) (d.pt q)) ⬝ᵥ
        C⁻¹.mulVec (fun q : Fin d.nall => partPt e.kernels S.K e.taud (R.pt i) (d.pt q)))).map
      fun s => pmSigma e.pm e.idxc * s⟩

theorem decompWith_eq (e : KEnv) (S : SKernels) (k nq : ℕ) (d R : DSet) (f : Fin d.nall → ℝ)
    (hC : (d.cov e.kernels e.pm e.idxc e.idxl).PosDef) (hL : ∀ a ∈ d.series, EnoughTimes a nq) (memU memA : ℕ → ℝ) :
    decompWith e.kernels S e.lin e.ng k nq d R e.pm e.idxc e.idxl f (d.cov e.kernels e.pm e.idxc e.idxl) memU memA =
      .ok (partRecon e S k nq d R f) := by
  unfold decompWith
  refine (decompose_eq f _ hC (trend_injective d nq hL)).trans ?_
  rw [US_single_eq]
  have hT : ∀ i : Fin R.nall, (fun c : Fin (nq * (1 + d.line.length)) =>
      trendRowS nq (fun j => trendWeight e.lin e.pm (e.idxl j) e.ng k) R.series 0 i c) =
      partShare e k (R.pt i) • trendAt nq (nq * (1 + d.line.length)) (R.pt i) := by
    intro i
    rw [trendRowS_pt R nq _ _ i.2, ptWeight_share]
  simp only [AS_single_diag]
  unfold partRecon
  congr 2
  ext i
  have := hT i
  rw [show e.taud = pmTau e.pm e.idxc from rfl]
  congr 1
  rw [this, smul_dotProduct, smul_eq_mul]

theorem decompLine_eq (e : KEnv) (tf : TF) (k nq : ℕ) (d R : DSet) (f : Fin d.nall → ℝ)
    (hC : (d.cov e.kernels e.pm e.idxc e.idxl).PosDef) (hL : ∀ a ∈ d.series, EnoughTimes a nq) (memP memU memA : ℕ → ℝ) :
    decompLine e tf k nq d R f memP memU memA = .ok (partRecon e (e.single tf k) k nq d R f) := by
  rw [decompLine, PCseq_eq, decompWith_eq e _ _ _ _ _ _ hC hL]

theorem decompMix_eq (e : KEnv) (tf : TF) (k nq : ℕ) (d R : DSet) (f : Fin d.nall → ℝ)
    (hC : (d.cov e.kernels e.pm e.idxc e.idxl).PosDef) (hL : ∀ a ∈ d.series, EnoughTimes a nq) (memP memU memA : ℕ → ℝ) :
    decompMix e tf k nq d R f memP memU memA = .ok (partRecon e (e.singleMix tf k) k nq d R f) := by
  rw [decompMix, PCarr_eq, decompWith_eq e _ _ _ _ _ _ hC hL]

/-- The covariances of the components add up. -/
def Splits (e : KEnv) (S : ℕ → SKernels) (J : ℕ) : Prop :=
  ∀ j < J, (∀ t1 t2, ∑ k ∈ Finset.range e.ng, (S k).K.Slc t1 t2 j = e.slc t1 t2 j) ∧
    (∀ t1 t2, ∑ k ∈ Finset.range e.ng, (S k).K.Sll t1 t2 j = e.sll t1 t2 j) ∧
    ∀ l < J, ∀ t1 t2, ∑ k ∈ Finset.range e.ng, (S k).K.Sll2 t1 t2 j l = e.sll2 t1 t2 j l

theorem lineBlup_val {e : KEnv} {nq : ℕ} {d R : DSet} (hC : (d.cov e.kernels e.pm e.idxc e.idxl).PosDef)
    (f : Fin d.nall → ℝ) (i : Fin R.nall) : (lineBlup e.kernels nq d R e.pm e.idxc e.idxl f).val i =
      (fun q : Fin d.nall => pointCov e.kernels e.taud (R.pt i) (d.pt q)) ⬝ᵥ
        (d.cov e.kernels e.pm e.idxc e.idxl)⁻¹.mulVec (f - (d.trend nq).mulVec
          (glsCoef (d.cov e.kernels e.pm e.idxc e.idxl) (d.trend nq) f)) +
      trendAt nq _ (R.pt i) ⬝ᵥ glsCoef (d.cov e.kernels e.pm e.idxc e.idxl) (d.trend nq) f :=
  congrFun (recon_val (U := fun (p : Fin R.nall) (q : Fin d.nall) => pointCov e.kernels e.taud (R.pt p) (d.pt q))
    (Lrec := fun p : Fin R.nall => trendAt nq (nq * (1 + d.line.length)) (R.pt p)) (L := d.trend nq) hC f) i

theorem partRecon_sum {e : KEnv} {S : ℕ → SKernels} {nq : ℕ} {d R : DSet} (hS : Splits e S d.line.length)
    (hng : 0 < e.ng) (hR : R.line.length ≤ d.line.length) (hC : (d.cov e.kernels e.pm e.idxc e.idxl).PosDef)
    (f : Fin d.nall → ℝ) :
    (∀ k, (partRecon e (S k) k nq d R f).coef = (lineBlup e.kernels nq d R e.pm e.idxc e.idxl f).coef) ∧
    (∀ i : Fin R.nall, (R.pt i).1 = 0 → ∀ k,
      (partRecon e (S k) k nq d R f).val i = (lineBlup e.kernels nq d R e.pm e.idxc e.idxl f).val i) ∧
    ∀ i : Fin R.nall, (R.pt i).1 ≠ 0 → ∑ k ∈ Finset.range e.ng, (partRecon e (S k) k nq d R f).val i =
      (lineBlup e.kernels nq d R e.pm e.idxc e.idxl f).val i -
        (if e.lin then trendAt nq _ (R.pt i) ⬝ᵥ (lineBlup e.kernels nq d R e.pm e.idxc e.idxl f).coef else 0) := by
  have hval := fun i => lineBlup_val (e := e) (nq := nq) (d := d) (R := R) hC f i
  refine ⟨fun k => rfl, fun i hi k => ?_, fun i hi => ?_⟩
  · rw [hval]
    simp only [partRecon, partPt, hi, if_true]
    congr 1
    have : partShare e k (R.pt i) = 1 := by unfold partShare; rw [hi]
    rw [this, one_mul]
  · rw [hval]
    simp only [partRecon, Finset.sum_add_distrib, ← Finset.sum_mul, partShare_sum hng hi]
    have hrow : ∑ k ∈ Finset.range e.ng, (fun q : Fin d.nall => partPt e.kernels (S k).K e.taud (R.pt i) (d.pt q)) =
        fun q : Fin d.nall => pointCov e.kernels e.taud (R.pt i) (d.pt q) := by
      ext q
      rw [Finset.sum_apply]
      have h1 := (pt_le R i.2).trans hR
      have h2 := pt_le d q.2
      generalize R.pt i = x at hi h1 ⊢
      generalize d.pt q = y at h2 ⊢
      obtain ⟨s, t1⟩ := x
      obtain ⟨s', t2⟩ := y
      rcases s with _ | s
      · exact absurd rfl hi
      · simp only at h1 h2
        obtain ⟨ha, hb, hc⟩ := hS s (by omega)
        simp only [partPt, Nat.add_eq_zero_iff, one_ne_zero, and_false, if_false]
        rcases s' with _ | s'
        · exact ha _ _
        · simp only [pointCov]
          split
          · exact hb _ _
          · exact hc s' (by omega) _ _
    rw [← hrow, sum_dotProduct]
    have hcoef : (lineBlup e.kernels nq d R e.pm e.idxc e.idxl f).coef =
      glsCoef (d.cov e.kernels e.pm e.idxc e.idxl) (d.trend nq) f := rfl
    rw [hcoef]
    cases e.lin <;> simp

/-! ### One type of component -/

/-- None of the widths of the first `J` lines is in the bands around the damping timescale where the
functions of the decomposition or of the likelihood are replaced by limits. -/
def KEnv.FarDec (e : KEnv) (tf : TF) (J : ℕ) : Prop :=
  tf = .gamma ∨ tf = .exp → ∀ j < J, ∀ k < e.ng, FarRel e.taud (e.comp j k).w ∧ FarInv e.taud (e.comp j k).w

theorem fpSlcS_eq {e : KEnv} {tf : TF} {J j k : ℕ} (h : e.FarDec tf J) (hj : j < J) (hk : k < e.ng) (Dt : ℝ) :
    fpSlcS tf e.taud (e.comp j k) Dt = fpSlc tf e.taud (e.comp j k) Dt := by
  have h1 := fun ht => h ht j hj k hk
  cases tf
  · rfl
  · rfl
  · exact slcGamS_eq e.taud_pos (e.w_pos j k) (h1 (Or.inl rfl)).1 (h1 (Or.inl rfl)).2 Dt
  · exact slcExpS_eq e.taud_pos (e.w_pos j k) (h1 (Or.inr rfl)).1 (h1 (Or.inr rfl)).2 Dt

theorem fpSllS_eq {e : KEnv} {tf : TF} {J j k l m : ℕ} (h : e.FarDec tf J) (hj : j < J) (hk : k < e.ng) (hl : l < J)
    (hm : m < e.ng) (Dt : ℝ) :
    fpSllS tf e.taud (e.comp j k) (e.comp l m) Dt = fpSll tf tf e.taud (e.comp j k) (e.comp l m) Dt := by
  have h1 := fun ht => h ht j hj k hk
  have h2 := fun ht => h ht l hl m hm
  cases tf
  · rfl
  · rfl
  · exact sllGamS_eq e.taud_pos (e.w_pos j k) (e.w_pos l m) (h1 (Or.inl rfl)).1 (h1 (Or.inl rfl)).2 (h2 (Or.inl rfl)).1
      (h2 (Or.inl rfl)).2 Dt
  · exact sllExpS_eq e.taud_pos (e.w_pos j k) (e.w_pos l m) (h1 (Or.inr rfl)).1 (h1 (Or.inr rfl)).2 (h2 (Or.inr rfl)).1
      (h2 (Or.inr rfl)).2 Dt

theorem single_splits {e : KEnv} {tf : TF} {J : ℕ} (h : e.FarDec tf J) (ht : ∀ k < e.ng, e.typ k = tf) :
    Splits e (e.single tf) J := by
  intro j hj
  refine ⟨fun t1 t2 => ?_, fun t1 t2 => ?_, fun l hl t1 t2 => ?_⟩
  · rw [KEnv.slc, foldl_add_range, zero_add]
    refine Finset.sum_congr rfl fun k hk => ?_
    have hk := Finset.mem_range.1 hk
    simp only [KEnv.single, zero_add]
    rw [fpSlcS_eq h hj hk, ht k hk]
  · rw [KEnv.sll, foldl_add_range2, zero_add]
    refine Finset.sum_congr rfl fun k hk => ?_
    have hk := Finset.mem_range.1 hk
    simp only [KEnv.single, foldl_add_range, zero_add]
    refine Finset.sum_congr rfl fun k' hk' => ?_
    have hk' := Finset.mem_range.1 hk'
    rw [fpSllS_eq h hj hk hj hk', ht k hk, ht k' hk']
  · rw [KEnv.sll2, foldl_add_range2, zero_add]
    refine Finset.sum_congr rfl fun k hk => ?_
    have hk := Finset.mem_range.1 hk
    simp only [KEnv.single, foldl_add_range, zero_add]
    refine Finset.sum_congr rfl fun k' hk' => ?_
    have hk' := Finset.mem_range.1 hk'
    rw [fpSllS_eq h hj hk hl hk', ht k hk, ht k' hk']

theorem mix_splits (e : KEnv) (tf : TF) (J : ℕ) : Splits e (e.singleMix tf) J := by
  intro j hj
  refine ⟨fun t1 t2 => ?_, fun t1 t2 => ?_, fun l hl t1 t2 => ?_⟩
  · rw [KEnv.slc, foldl_add_range, zero_add]
    simp only [KEnv.singleMix, zero_add]
  · rw [KEnv.sll, foldl_add_range2, zero_add]
    simp only [KEnv.singleMix, foldl_add_range, zero_add]
  · rw [KEnv.sll2, foldl_add_range2, zero_add]
    simp only [KEnv.singleMix, foldl_add_range, zero_add]

/-- C80 (partial: for gamma and exponential components the widths are outside the bands; the data set has a
line): at any times, the components of a line into which it is decomposed add up to the reconstructed line, without its
trend if responses may be negative; the continuum and the trend coefficients returned with each component are
those of the reconstruction. -/
theorem C80_sum_partial {e : KEnv} {tf : TF} {nq : ℕ} {d R : DSet} (ht : ∀ k < e.ng, e.typ k = tf)
    (hfar : e.FarDec tf d.line.length) (hng : 0 < e.ng) (hR : R.line.length ≤ d.line.length)
    (hcon : ConOK d.con (pmSyserr e.pm e.idxc d.con.em)) (hC : (setCov e.kernels e.pm e.idxc e.idxl d).PosDef)
    (hL : ∀ a ∈ d.series, EnoughTimes a nq) (hne : d.line ≠ []) (f : Fin d.nall → ℝ) (memP memU memA : ℕ → ℝ)
    (memP' memU' memA' : ℕ → ℕ → ℝ) :
    ∃ (r : Recon (nq * (1 + d.line.length)) R.nall) (c : ℕ → Recon (nq * (1 + d.line.length)) R.nall),
      lineRecs e.kernels nq d R e.pm e.idxc e.idxl f memP memU memA = (.ok r, r, r) ∧
      (∀ k < e.ng, decompLine e tf k nq d R f (memP' k) (memU' k) (memA' k) = .ok (c k)) ∧
      (∀ k < e.ng, (c k).coef = r.coef) ∧
      (∀ i : Fin R.nall, (R.pt i).1 = 0 → ∀ k < e.ng, (c k).val i = r.val i) ∧
      ∀ i : Fin R.nall, (R.pt i).1 ≠ 0 → ∑ k ∈ Finset.range e.ng, (c k).val i =
        r.val i - (if e.lin then trendAt nq _ (R.pt i) ⬝ᵥ r.coef else 0) := by
  have hs2 : 0 < pmSigma e.pm e.idxc ^ 2 := by have := pmSigma_pos e.pm e.idxc; positivity
  have hC' : (d.cov e.kernels e.pm e.idxc e.idxl).PosDef := by
    have := hC.smul (inv_pos.2 hs2)
    rwa [show setCov e.kernels e.pm e.idxc e.idxl d = pmSigma e.pm e.idxc ^ 2 • d.cov e.kernels e.pm e.idxc e.idxl from rfl,
      smul_smul, inv_mul_cancel₀ hs2.ne', one_smul] at this
  obtain ⟨h1, h2, h3⟩ := partRecon_sum (nq := nq) (single_splits hfar ht) hng hR hC' f
  exact ⟨_, fun k => partRecon e (e.single tf k) k nq d R f,
    lineRecs_eq e.kernels d R e.pm e.idxc e.idxl nq f hcon hC' hL hne memP memU memA,
    fun k _ => decompLine_eq e tf k nq d R f hC' hL _ _ _, fun k _ => h1 k, fun i hi k _ => h2 i hi k, h3⟩

/-- C80 (partial: the data set has a line): the same for every mixture of types, with no condition on the
widths, whatever `TypeTF` says. -/
theorem C80_mixture_sum_partial {e : KEnv} (tf : TF) {nq : ℕ} {d R : DSet} (hng : 0 < e.ng) (hR : R.line.length ≤ d.line.length)
    (hcon : ConOK d.con (pmSyserr e.pm e.idxc d.con.em)) (hC : (setCov e.kernels e.pm e.idxc e.idxl d).PosDef)
    (hL : ∀ a ∈ d.series, EnoughTimes a nq) (hne : d.line ≠ []) (f : Fin d.nall → ℝ) (memP memU memA : ℕ → ℝ)
    (memP' memU' memA' : ℕ → ℕ → ℝ) :
    ∃ (r : Recon (nq * (1 + d.line.length)) R.nall) (c : ℕ → Recon (nq * (1 + d.line.length)) R.nall),
      lineRecs e.kernels nq d R e.pm e.idxc e.idxl f memP memU memA = (.ok r, r, r) ∧
      (∀ k < e.ng, decompMix e tf k nq d R f (memP' k) (memU' k) (memA' k) = .ok (c k)) ∧
      (∀ k < e.ng, (c k).coef = r.coef) ∧
      (∀ i : Fin R.nall, (R.pt i).1 = 0 → ∀ k < e.ng, (c k).val i = r.val i) ∧
      ∀ i : Fin R.nall, (R.pt i).1 ≠ 0 → ∑ k ∈ Finset.range e.ng, (c k).val i =
        r.val i - (if e.lin then trendAt nq _ (R.pt i) ⬝ᵥ r.coef else 0) := by
  have hs2 : 0 < pmSigma e.pm e.idxc ^ 2 := by have := pmSigma_pos e.pm e.idxc; positivity
  have hC' : (d.cov e.kernels e.pm e.idxc e.idxl).PosDef := by
    have := hC.smul (inv_pos.2 hs2)
    rwa [show setCov e.kernels e.pm e.idxc e.idxl d = pmSigma e.pm e.idxc ^ 2 • d.cov e.kernels e.pm e.idxc e.idxl from rfl,
      smul_smul, inv_mul_cancel₀ hs2.ne', one_smul] at this
  obtain ⟨h1, h2, h3⟩ := partRecon_sum (nq := nq) (mix_splits e tf d.line.length) hng hR hC' f
  exact ⟨_, fun k => partRecon e (e.singleMix tf k) k nq d R f,
    lineRecs_eq e.kernels d R e.pm e.idxc e.idxl nq f hcon hC' hL hne memP memU memA,
    fun k _ => decompMix_eq e tf k nq d R f hC' hL _ _ _, fun k _ => h1 k, fun i hi k _ => h2 i hi k, h3⟩

/-! ### What a component is -/

/-- Averages entering the signal of a point. -/
noncomputable def avM (e : KEnv) (x : ℕ × ℝ) : Option (Fin e.ng) → MeasureTheory.Measure ℝ
  | none => MeasureTheory.Measure.dirac x.2
  | some k => lagM (e.dens (x.1 - 1) k) x.2

noncomputable def avA (e : KEnv) (x : ℕ × ℝ) : Option (Fin e.ng) → ℝ
  | none => if x.1 = 0 then 1 else 0
  | some k => if x.1 = 0 then 0 else (e.comp (x.1 - 1) k).f

noncomputable def avAk (e : KEnv) (k : ℕ) (x : ℕ × ℝ) : Option (Fin e.ng) → ℝ
  | none => if x.1 = 0 then 1 else 0
  | some k' => if x.1 = 0 then 0 else if (k' : ℕ) = k then (e.comp (x.1 - 1) k').f else 0

instance (e : KEnv) (x : ℕ × ℝ) (o : Option (Fin e.ng)) : MeasureTheory.IsFiniteMeasure (avM e x o) := by
  cases o
  · unfold avM; infer_instance
  · exact lagM_finite (tfDens_integrable _ _ (e.w_pos _ _)) _

noncomputable def avCov (e : KEnv) (a b : ℕ × ℝ → Option (Fin e.ng) → ℝ) (x y : ℕ × ℝ) : ℝ :=
  ∑ o, ∑ o', a x o * b y o' * ouCov (1 / e.taud) (avM e x o) (avM e y o')

theorem avCov_comm (e : KEnv) (a b : ℕ × ℝ → Option (Fin e.ng) → ℝ) (x y : ℕ × ℝ) : avCov e a b x y = avCov e b a y x := by
  unfold avCov
  rw [Finset.sum_comm]
  refine Finset.sum_congr rfl fun o _ => Finset.sum_congr rfl fun o' _ => ?_
  rw [ouCov_comm]; ring

theorem avCov_dl (e : KEnv) (s k : ℕ) (u t : ℝ) :
    ouCov (1 / e.taud) (MeasureTheory.Measure.dirac u) (lagM (e.dens s k) t) = covLC e.taud (e.dens s k) (t - u) :=
  ouCov_dirac_lagM (tfDens_integrable _ _ (e.w_pos _ _)) (tfDens_nonneg _ _ (e.w_pos _ _)) _ _

theorem avCov_ll (e : KEnv) (s k s' k' : ℕ) (t t' : ℝ) :
    ouCov (1 / e.taud) (lagM (e.dens s k) t) (lagM (e.dens s' k') t') = covLL e.taud (e.dens s k) (e.dens s' k') (t - t') :=
  ouCov_lagM_lagM (tfDens_integrable _ _ (e.w_pos _ _)) (tfDens_nonneg _ _ (e.w_pos _ _))
    (tfDens_integrable _ _ (e.w_pos _ _)) (tfDens_nonneg _ _ (e.w_pos _ _)) _ _

theorem avCov_whole {e : KEnv} {J : ℕ} (h : e.Far J) {x y : ℕ × ℝ} (hx : x.1 ≤ J) (hy : y.1 ≤ J) :
    pointCov e.kernels e.taud x y = avCov e (avA e) (avA e) x y := by
  obtain ⟨s, t⟩ := x
  obtain ⟨s', t'⟩ := y
  simp only at hx hy
  have hcl : ∀ {s : ℕ}, s < J → ∀ t t' : ℝ, avCov e (avA e) (avA e) (0, t) (s + 1, t') = e.slc t t' s := by
    intro s hs t t'
    simp only [avCov, Fintype.sum_option, avA, avM, if_true, zero_mul, Finset.sum_const_zero, add_zero, one_mul,
      Nat.add_eq_zero_iff, one_ne_zero, and_false, if_false, add_tsub_cancel_right, zero_add, avCov_dl]
    rw [e.slc_eq h hs, Finset.sum_range]
    rfl
  rcases s with _ | s <;> rcases s' with _ | s'
  · simp only [avCov, Fintype.sum_option, avA, avM, if_true, zero_mul, mul_zero, Finset.sum_const_zero, add_zero, one_mul, pointCov]
    rw [ouCov_dirac]; congr 1; ring
  · rw [hcl (by omega)]; rfl
  · rw [avCov_comm, hcl (by omega)]; rfl
  · have : avCov e (avA e) (avA e) (s + 1, t) (s' + 1, t') = e.sll2 t t' s s' := by
      simp only [avCov, Fintype.sum_option, avA, avM, zero_mul, mul_zero, Finset.sum_const_zero,
        Nat.add_eq_zero_iff, one_ne_zero, and_false, if_false, add_tsub_cancel_right, zero_add, avCov_ll]
      rw [e.sll2_eq h (by omega) (by omega), Finset.sum_range]
      refine Finset.sum_congr rfl fun k _ => ?_
      rw [Finset.sum_range]
      rfl
    rw [this]
    simp only [pointCov, KEnv.kernels]
    split
    · rename_i hh; rw [hh, e.sll_eq_sll2]
    · rfl

theorem sum_pick {n k : ℕ} (hk : k < n) (g : Fin n → ℝ) (c : Fin n → ℝ) :
    ∑ k' : Fin n, (if (k' : ℕ) = k then c k' else 0) * g k' = c ⟨k, hk⟩ * g ⟨k, hk⟩ := by
  rw [Finset.sum_eq_single ⟨k, hk⟩]
  · simp
  · intro b _ hb
    rw [if_neg, zero_mul]
    intro hh; exact hb (Fin.ext hh)
  · intro hh; exact absurd (Finset.mem_univ _) hh

theorem avCov_part {e : KEnv} {k : ℕ} (hk : k < e.ng) (x y : ℕ × ℝ) :
    partCross e k x y = avCov e (avAk e k) (avA e) x y := by
  obtain ⟨s, t⟩ := x
  obtain ⟨s', t'⟩ := y
  rcases s with _ | s <;> rcases s' with _ | s'
  · simp only [avCov, Fintype.sum_option, avA, avAk, avM, if_true, zero_mul, mul_zero, Finset.sum_const_zero, add_zero, one_mul, partCross]
    rw [ouCov_dirac]; congr 1; ring
  · simp only [avCov, Fintype.sum_option, avA, avAk, avM, if_true, zero_mul, Finset.sum_const_zero, add_zero, one_mul,
      Nat.add_eq_zero_iff, one_ne_zero, and_false, if_false, add_tsub_cancel_right, zero_add, avCov_dl, partCross]
    rw [Finset.sum_range]
  · simp only [avCov, Fintype.sum_option, avA, avAk, avM, if_true, zero_mul, mul_zero, Finset.sum_const_zero, add_zero, mul_one,
      Nat.add_eq_zero_iff, one_ne_zero, and_false, if_false, add_tsub_cancel_right, zero_add, partCross]
    rw [sum_pick hk (fun k' => ouCov (1 / e.taud) (lagM (e.dens s k') t) (MeasureTheory.Measure.dirac t'))
      (fun k' => (e.comp s k').f)]
    simp only
    have := lagM_finite (tfDens_integrable (e.typ k) (e.comp s k).c (e.w_pos s k)) t
    rw [show e.dens s k = tfDens (e.typ k) (e.comp s k).c (e.comp s k).w from rfl, ouCov_comm]
    exact congrArg _ (avCov_dl e s k t' t).symm
  · simp only [avCov, Fintype.sum_option, avA, avAk, avM, zero_mul, mul_zero, Finset.sum_const_zero,
      Nat.add_eq_zero_iff, one_ne_zero, and_false, if_false, add_tsub_cancel_right, zero_add, avCov_ll, partCross]
    rw [Finset.sum_comm, Finset.sum_range]
    refine Finset.sum_congr rfl fun k' _ => ?_
    have := sum_pick hk (fun m => (e.comp s' k').f * covLL e.taud (e.dens s m) (e.dens s' k') (t - t'))
      (fun m => (e.comp s m).f)
    simp only [mul_assoc] at this ⊢
    rw [this]

theorem avCov_partVar {e : KEnv} {k : ℕ} (hk : k < e.ng) (x : ℕ × ℝ) :
    partVar e k x = avCov e (avAk e k) (avAk e k) x x := by
  obtain ⟨s, t⟩ := x
  rcases s with _ | s
  · simp only [avCov, Fintype.sum_option, avAk, avM, if_true, zero_mul, mul_zero, Finset.sum_const_zero, add_zero, one_mul, partVar]
    rw [ouCov_dirac]; simp
  · simp only [avCov, Fintype.sum_option, avAk, avM, zero_mul, mul_zero, Finset.sum_const_zero,
      Nat.add_eq_zero_iff, one_ne_zero, and_false, if_false, add_tsub_cancel_right, zero_add, avCov_ll, partVar, sub_self]
    simp only [mul_assoc, ← Finset.mul_sum]
    rw [sum_pick hk (fun k' : Fin e.ng => ∑ o' : Fin e.ng, (if (o' : ℕ) = k then (e.comp s o').f else 0) *
        covLL e.taud (e.dens s k') (e.dens s o') 0) (fun k' => (e.comp s k').f)]
    rw [sum_pick hk (fun k' : Fin e.ng => covLL e.taud (e.dens s k) (e.dens s k') 0) (fun k' => (e.comp s k').f)]

theorem part_predErr_nonneg {e : KEnv} {d : DSet} (h : e.Far d.line.length) {k : ℕ} (hk : k < e.ng)
    (x : ℕ × ℝ) (w : Fin d.nall → ℝ) :
    0 ≤ predErr (d.cov e.kernels e.pm e.idxc e.idxl) (fun q : Fin d.nall => partCross e k x (d.pt q)) (partVar e k x) w := by
  let P : Fin (d.nall + 1) → ℕ × ℝ := Fin.cons x fun q => d.pt q
  let a : Fin (d.nall + 1) → Option (Fin e.ng) → ℝ := Fin.cons (avAk e k x) fun q => avA e (d.pt q)
  have hM := ouCov_comb_posSemidef (one_div_pos.2 e.taud_pos) (fun p => avM e (P p)) a
  refine predErr_nonneg _ hM ?_ ?_ ?_
    (fun q => noiseVar d e.pm e.idxc e.idxl (locate d.series q)) (fun q => noiseVar_nonneg _ _ _ _ _) ?_ w
  · rw [avCov_partVar hk]; rfl
  · intro q; rw [avCov_part hk]; rfl
  · intro q
    rw [avCov_part hk, avCov_comm]; rfl
  · intro p q
    rw [cov_pointCov d h, avCov_whole h (pt_le d p.2) (pt_le d q.2)]
    rfl

/-- Covariances and variance of the functions of a component with the meaning they should have. -/
def Means (e : KEnv) (S : SKernels) (k J : ℕ) : Prop :=
  ∀ j < J, (∀ t1 t2, S.K.Slc t1 t2 j = (e.comp j k).f * covLC e.taud (e.dens j k) (t2 - t1)) ∧
    ∀ l < J, ∀ t1 t2, (if j = l then S.K.Sll t1 t2 j else S.K.Sll2 t1 t2 j l) = ∑ k' ∈ Finset.range e.ng,
      (e.comp j k).f * (e.comp l k').f * covLL e.taud (e.dens j k) (e.dens l k') (t1 - t2)

theorem partPt_eq {e : KEnv} {S : SKernels} {k J : ℕ} (h : e.Far J) (hS : Means e S k J) {x y : ℕ × ℝ}
    (hx : x.1 ≤ J) (hy : y.1 ≤ J) : partPt e.kernels S.K e.taud x y = partCross e k x y := by
  obtain ⟨s, t⟩ := x
  obtain ⟨s', t'⟩ := y
  simp only at hx hy
  rcases s with _ | s <;> rcases s' with _ | s'
  · rfl
  · exact e.slc_eq h (by omega) t t'
  · exact (hS s (by omega)).1 t' t
  · rw [show partCross e k (s + 1, t) (s' + 1, t') = _ from ((hS s (by omega)).2 s' (by omega) t t').symm]
    simp only [partPt, pointCov, Nat.add_eq_zero_iff, one_ne_zero, and_false, if_false]
    by_cases hh : s' = s
    · rw [if_pos hh, if_pos hh.symm]
    · rw [if_neg hh, if_neg (Ne.symm hh)]

theorem single_means {e : KEnv} {tf : TF} {J : ℕ} (h : e.Far J) (hd : e.FarDec tf J) (ht : ∀ k < e.ng, e.typ k = tf)
    {k : ℕ} (hk : k < e.ng) : Means e (e.single tf k) k J := by
  intro j hj
  refine ⟨fun t1 t2 => ?_, fun l hl t1 t2 => ?_⟩
  · simp only [KEnv.single, zero_add]
    rw [fpSlcS_eq hd hj hk, ← ht k hk, fpSlc_eq _ e.taud_pos (e.w_pos j k) (h j hj k hk).1]
    rfl
  · have : (if j = l then (e.single tf k).K.Sll t1 t2 j else (e.single tf k).K.Sll2 t1 t2 j l) = (e.single tf k).K.Sll2 t1 t2 j l := by
      split
      · rename_i hh; subst hh; rfl
      · rfl
    rw [this]
    simp only [KEnv.single, foldl_add_range, zero_add]
    refine Finset.sum_congr rfl fun k' hk' => ?_
    have hk' := Finset.mem_range.1 hk'
    have h2 := (h j hj k hk).2 l hl k' hk'
    rw [ht k hk, ht k' hk'] at h2
    rw [fpSllS_eq hd hj hk hl hk', fpSll_eq _ _ e.taud_pos (e.w_pos j k) (e.w_pos l k') h2]
    unfold KEnv.dens
    rw [ht k hk, ht k' hk']

theorem mix_means {e : KEnv} (tf : TF) {J : ℕ} (h : e.Far J) {k : ℕ} (hk : k < e.ng) : Means e (e.singleMix tf k) k J := by
  intro j hj
  refine ⟨fun t1 t2 => ?_, fun l hl t1 t2 => ?_⟩
  · simp only [KEnv.singleMix, zero_add]
    rw [fpSlc_eq _ e.taud_pos (e.w_pos j k) (h j hj k hk).1]
    rfl
  · have : (if j = l then (e.singleMix tf k).K.Sll t1 t2 j else (e.singleMix tf k).K.Sll2 t1 t2 j l) =
        (e.singleMix tf k).K.Sll2 t1 t2 j l := by
      split
      · rename_i hh; subst hh; rfl
      · rfl
    rw [this]
    simp only [KEnv.singleMix, foldl_add_range, zero_add]
    refine Finset.sum_congr rfl fun k' hk' => ?_
    have hk' := Finset.mem_range.1 hk'
    rw [fpSll_eq _ _ e.taud_pos (e.w_pos j k) (e.w_pos l k') ((h j hj k hk).2 l hl k' hk')]
    rfl

/-- Data, predicted quantity and weights in terms of covariances. -/
theorem partRecon_means {e : KEnv} {S : SKernels} {k nq : ℕ} {d R : DSet} (h : e.Far d.line.length)
    (hR : R.line.length ≤ d.line.length) (hC : (setCov e.kernels e.pm e.idxc e.idxl d).PosDef)
    (hL : ∀ a ∈ d.series, EnoughTimes a nq) (hk : k < e.ng) (hS : Means e S k d.line.length) :
    ∃ W : Fin R.nall → Fin d.nall → ℝ,
      (∀ (i : Fin R.nall) w, predErr (setCov e.kernels e.pm e.idxc e.idxl d) (fun q => pmSigma e.pm e.idxc ^ 2 * partCross e k (R.pt i) (d.pt q))
          (pmSigma e.pm e.idxc ^ 2 * partVar e k (R.pt i)) (W i) ≤
        predErr (setCov e.kernels e.pm e.idxc e.idxl d) (fun q => pmSigma e.pm e.idxc ^ 2 * partCross e k (R.pt i) (d.pt q))
          (pmSigma e.pm e.idxc ^ 2 * partVar e k (R.pt i)) w) ∧
      ∀ f : Fin d.nall → ℝ,
        (partRecon e S k nq d R f).coef = glsCoef (setCov e.kernels e.pm e.idxc e.idxl d) (setTrend nq d) f ∧
        (∀ i, (partRecon e S k nq d R f).val i = W i ⬝ᵥ (f - (setTrend nq d).mulVec (partRecon e S k nq d R f).coef) +
          partShare e k (R.pt i) * (trendAt nq _ (R.pt i) ⬝ᵥ (partRecon e S k nq d R f).coef)) ∧
        ∀ i : Fin R.nall, partDiag S (R.pt i) = partVar e k (R.pt i) →
          (partRecon e S k nq d R f).err i = some (Real.sqrt (predErr (setCov e.kernels e.pm e.idxc e.idxl d)
            (fun q => pmSigma e.pm e.idxc ^ 2 * partCross e k (R.pt i) (d.pt q))
            (pmSigma e.pm e.idxc ^ 2 * partVar e k (R.pt i)) (W i))) := by
  have hs := pmSigma_pos e.pm e.idxc
  have hs2 : 0 < pmSigma e.pm e.idxc ^ 2 := by positivity
  have hCov : setCov e.kernels e.pm e.idxc e.idxl d = pmSigma e.pm e.idxc ^ 2 • d.cov e.kernels e.pm e.idxc e.idxl := rfl
  have hC' : (d.cov e.kernels e.pm e.idxc e.idxl).PosDef := by
    have := hC.smul (inv_pos.2 hs2)
    rwa [hCov, smul_smul, inv_mul_cancel₀ hs2.ne', one_smul] at this
  have hpt : ∀ i : Fin R.nall, (fun q : Fin d.nall => partPt e.kernels S.K e.taud (R.pt i) (d.pt q)) =
      fun q : Fin d.nall => partCross e k (R.pt i) (d.pt q) :=
    fun i => funext fun q => partPt_eq h hS ((pt_le R i.2).trans hR) (pt_le d q.2)
  have hsc : ∀ i : Fin R.nall, (fun q : Fin d.nall => pmSigma e.pm e.idxc ^ 2 * partCross e k (R.pt i) (d.pt q)) =
      pmSigma e.pm e.idxc ^ 2 • fun q : Fin d.nall => partCross e k (R.pt i) (d.pt q) := fun i => rfl
  refine ⟨fun i => (d.cov e.kernels e.pm e.idxc e.idxl)⁻¹.mulVec fun q : Fin d.nall => partCross e k (R.pt i) (d.pt q),
    fun i w => ?_, fun f => ⟨?_, fun i => ?_, fun i hi => ?_⟩⟩
  · rw [hCov, hsc, predErr_smul, predErr_smul]
    refine mul_le_mul_of_nonneg_left ?_ hs2.le
    rw [predErr_known hC']
    simp only [sub_self, zero_dotProduct, add_zero]
    exact (predErr_least hC' _ _).2 ⟨w, rfl⟩
  · rw [hCov, ← setTrend_eq, glsCoef_smul _ hs2.ne' hC'.det_pos.ne'
      (trend_posDef hC' (trend_injective d nq hL)).det_pos.ne']
    rfl
  · simp only [partRecon, hpt]
    congr 1
    rw [setTrend_eq, dot_mulVec_transpose, inv_symm (posDef_symm hC'), dotProduct_comm]
  · simp only [partRecon, hpt, hi]
    rw [hCov, hsc, predErr_smul, predErr_known hC']
    simp only [sub_self, zero_dotProduct, add_zero]
    refine err_scale ?_ hs
    have := part_predErr_nonneg h hk (R.pt i)
      ((d.cov e.kernels e.pm e.idxc e.idxl)⁻¹.mulVec fun q : Fin d.nall => partCross e k (R.pt i) (d.pt q))
    rw [predErr_known hC'] at this
    simpa using this

theorem single_var {e : KEnv} {tf : TF} {J : ℕ} (h : e.Far J) (hd : e.FarDec tf J) (ht : ∀ k < e.ng, e.typ k = tf)
    {k : ℕ} (hk : k < e.ng) {x : ℕ × ℝ} (hx : x.1 ≤ J) : partDiag (e.single tf k) x = partVar e k x := by
  obtain ⟨s, t⟩ := x
  rcases s with _ | s
  · rfl
  · simp only at hx
    simp only [partDiag, partVar, KEnv.single, zero_add, sub_self]
    have h2 := (h s (by omega) k hk).2 s (by omega) k hk
    rw [ht k hk] at h2
    rw [fpSllS_eq hd (by omega) hk (by omega) hk, fpSll_eq _ _ e.taud_pos (e.w_pos s k) (e.w_pos s k) h2]
    unfold KEnv.dens
    rw [ht k hk]

/-- C80 (partial: widths outside the bands): what is returned for component `k` of a line is the best linear
prediction, from all light curves after their trends have been subtracted, of the response of the line through
this component alone, plus the share of the component in the trend of the line; the error is the square root of the mean squared error
of this prediction.  With it comes the continuum. -/
theorem C80_component_partial {e : KEnv} {tf : TF} {nq : ℕ} {d R : DSet} {k : ℕ} (hk : k < e.ng) (ht : ∀ k < e.ng, e.typ k = tf)
    (h : e.Far d.line.length) (hd : e.FarDec tf d.line.length) (hR : R.line.length ≤ d.line.length)
    (hC : (setCov e.kernels e.pm e.idxc e.idxl d).PosDef) (hL : ∀ a ∈ d.series, EnoughTimes a nq) :
    ∃ W : Fin R.nall → Fin d.nall → ℝ,
      (∀ (i : Fin R.nall) w, predErr (setCov e.kernels e.pm e.idxc e.idxl d)
          (fun q => pmSigma e.pm e.idxc ^ 2 * partCross e k (R.pt i) (d.pt q))
          (pmSigma e.pm e.idxc ^ 2 * partVar e k (R.pt i)) (W i) ≤
        predErr (setCov e.kernels e.pm e.idxc e.idxl d) (fun q => pmSigma e.pm e.idxc ^ 2 * partCross e k (R.pt i) (d.pt q))
          (pmSigma e.pm e.idxc ^ 2 * partVar e k (R.pt i)) w) ∧
      ∀ (f : Fin d.nall → ℝ) (memP memU memA : ℕ → ℝ), ∃ c : Recon (nq * (1 + d.line.length)) R.nall,
        decompLine e tf k nq d R f memP memU memA = .ok c ∧
        c.coef = glsCoef (setCov e.kernels e.pm e.idxc e.idxl d) (setTrend nq d) f ∧
        (∀ i, c.val i = W i ⬝ᵥ (f - (setTrend nq d).mulVec c.coef) + partShare e k (R.pt i) * (trendAt nq _ (R.pt i) ⬝ᵥ c.coef)) ∧
        ∀ i, c.err i = some (Real.sqrt (predErr (setCov e.kernels e.pm e.idxc e.idxl d)
            (fun q => pmSigma e.pm e.idxc ^ 2 * partCross e k (R.pt i) (d.pt q))
            (pmSigma e.pm e.idxc ^ 2 * partVar e k (R.pt i)) (W i))) := by
  have hs2 : 0 < pmSigma e.pm e.idxc ^ 2 := by have := pmSigma_pos e.pm e.idxc; positivity
  have hC' : (d.cov e.kernels e.pm e.idxc e.idxl).PosDef := by
    have := hC.smul (inv_pos.2 hs2)
    rwa [show setCov e.kernels e.pm e.idxc e.idxl d = pmSigma e.pm e.idxc ^ 2 • d.cov e.kernels e.pm e.idxc e.idxl from rfl,
      smul_smul, inv_mul_cancel₀ hs2.ne', one_smul] at this
  obtain ⟨W, h1, h2⟩ := partRecon_means (R := R) (nq := nq) h hR hC hL hk (single_means h hd ht hk)
  refine ⟨W, h1, fun f memP memU memA => ⟨_, decompLine_eq e tf k nq d R f hC' hL memP memU memA, (h2 f).1, (h2 f).2.1, fun i => ?_⟩⟩
  exact (h2 f).2.2 i (single_var h hd ht hk ((pt_le R i.2).trans hR))

/-- C80 (partial: widths outside the bands; the error only for components of the type `TypeTF` names): the same
for mixtures of types. -/
theorem C80_mixture_component_partial {e : KEnv} {tf : TF} {nq : ℕ} {d R : DSet} {k : ℕ} (hk : k < e.ng)
    (h : e.Far d.line.length) (hR : R.line.length ≤ d.line.length)
    (hC : (setCov e.kernels e.pm e.idxc e.idxl d).PosDef) (hL : ∀ a ∈ d.series, EnoughTimes a nq) :
    ∃ W : Fin R.nall → Fin d.nall → ℝ,
      (∀ (i : Fin R.nall) w, predErr (setCov e.kernels e.pm e.idxc e.idxl d)
          (fun q => pmSigma e.pm e.idxc ^ 2 * partCross e k (R.pt i) (d.pt q))
          (pmSigma e.pm e.idxc ^ 2 * partVar e k (R.pt i)) (W i) ≤
        predErr (setCov e.kernels e.pm e.idxc e.idxl d) (fun q => pmSigma e.pm e.idxc ^ 2 * partCross e k (R.pt i) (d.pt q))
          (pmSigma e.pm e.idxc ^ 2 * partVar e k (R.pt i)) w) ∧
      ∀ (f : Fin d.nall → ℝ) (memP memU memA : ℕ → ℝ), ∃ c : Recon (nq * (1 + d.line.length)) R.nall,
        decompMix e tf k nq d R f memP memU memA = .ok c ∧
        c.coef = glsCoef (setCov e.kernels e.pm e.idxc e.idxl d) (setTrend nq d) f ∧
        (∀ i, c.val i = W i ⬝ᵥ (f - (setTrend nq d).mulVec c.coef) + partShare e k (R.pt i) * (trendAt nq _ (R.pt i) ⬝ᵥ c.coef)) ∧
        ∀ i : Fin R.nall, ((R.pt i).1 ≠ 0 → e.typ k = tf ∧ (tf = .gamma ∨ tf = .exp → FarInv e.taud (e.comp ((R.pt i).1 - 1) k).w)) →
          c.err i = some (Real.sqrt (predErr (setCov e.kernels e.pm e.idxc e.idxl d)
            (fun q => pmSigma e.pm e.idxc ^ 2 * partCross e k (R.pt i) (d.pt q))
            (pmSigma e.pm e.idxc ^ 2 * partVar e k (R.pt i)) (W i))) := by
  have hs2 : 0 < pmSigma e.pm e.idxc ^ 2 := by have := pmSigma_pos e.pm e.idxc; positivity
  have hC' : (d.cov e.kernels e.pm e.idxc e.idxl).PosDef := by
    have := hC.smul (inv_pos.2 hs2)
    rwa [show setCov e.kernels e.pm e.idxc e.idxl d = pmSigma e.pm e.idxc ^ 2 • d.cov e.kernels e.pm e.idxc e.idxl from rfl,
      smul_smul, inv_mul_cancel₀ hs2.ne', one_smul] at this
  obtain ⟨W, h1, h2⟩ := partRecon_means (R := R) (nq := nq) h hR hC hL hk (mix_means tf h hk)
  refine ⟨W, h1, fun f memP memU memA => ⟨_, decompMix_eq e tf k nq d R f hC' hL memP memU memA, (h2 f).1, (h2 f).2.1, fun i hi => ?_⟩⟩
  refine (h2 f).2.2 i ?_
  have hx := (pt_le R i.2).trans hR
  generalize R.pt i = x at hi hx
  obtain ⟨s, t⟩ := x
  rcases s with _ | s
  · rfl
  · obtain ⟨ht, hF⟩ := hi (by simp)
    simp only at hx
    simp only [add_tsub_cancel_right] at hF
    simp only [partDiag, partVar, KEnv.singleMix, zero_add, sub_self]
    have h3 := (h s (by omega) k hk).2 s (by omega) k hk
    rw [ht] at h3
    have h4 := h3
    simp only [FarL, if_true] at h4
    have : fpSllS tf e.taud (e.comp s k) (e.comp s k) 0 = fpSll tf tf e.taud (e.comp s k) (e.comp s k) 0 := by
      cases tf
      · rfl
      · rfl
      · exact sllGamS_eq e.taud_pos (e.w_pos s k) (e.w_pos s k) (h4 (Or.inl rfl)).1 (hF (Or.inl rfl)) (h4 (Or.inl rfl)).1
          (hF (Or.inl rfl)) 0
      · exact sllExpS_eq e.taud_pos (e.w_pos s k) (e.w_pos s k) (h4 (Or.inr rfl)).1 (hF (Or.inr rfl)) (h4 (Or.inr rfl)).1
          (hF (Or.inr rfl)) 0
    rw [this, fpSll_eq _ _ e.taud_pos (e.w_pos s k) (e.w_pos s k) h3]
    unfold KEnv.dens
    rw [ht]

/-! ### Where it fails -/

/-- One top-hat of half width 2, damping timescale 1. -/
noncomputable def topEnv : KEnv := ⟨1, false, fun _ => .tophat, fun i => if i = 6 then Real.log 2 else 0, 0, fun _ => 3⟩

/-- One point of the continuum and one of the line. -/
noncomputable def twoPts : DSet := ⟨⟨1, fun _ => 0, fun _ => 0, fun _ => 1 / 10, 0⟩, [⟨1, fun _ => 0, fun _ => 0, fun _ => 1 / 10, 0⟩]⟩

/-- One time of the line. -/
noncomputable def onePt : DSet := ⟨⟨0, fun _ => 0, fun _ => 0, fun _ => 0, 0⟩, [⟨1, fun _ => 0, fun _ => 0, fun _ => 0, 0⟩]⟩

theorem topEnv_far (J : ℕ) : topEnv.Far J := by
  intro j _ k _
  exact ⟨fun h => by simp [topEnv] at h, fun j' _ k' _ => by simp [FarL, topEnv]⟩

theorem twoPts_times : ∀ a ∈ twoPts.series, EnoughTimes a 1 := by
  intro a ha
  refine ⟨fun _ => ⟨0, ?_⟩, fun x y _ => Subsingleton.elim (α := Fin 1) x y⟩
  simp only [DSet.series, twoPts, List.mem_cons, List.not_mem_nil, or_false] at ha
  rcases ha with rfl | rfl <;> norm_num

theorem twoPts_pd (e : KEnv) (h : e.Far 1) : (twoPts.cov e.kernels e.pm e.idxc e.idxl).PosDef := by
  refine cov_posDef h ⟨fun i _ => by simp only [twoPts]; norm_num, fun j a ha i _ => ?_⟩
  rcases j with _ | j
  · have := Option.some.inj ha
    rw [← this]; norm_num
  · simp [twoPts] at ha

/-- Mills' bound at 2. -/
theorem erfc_two : Real.exp 4 * erfc 2 ≤ 1 / (2 * Real.sqrt Real.pi) := by
  have hp : 0 < Real.sqrt Real.pi := Real.sqrt_pos.2 Real.pi_pos
  let g : ℝ → ℝ := fun x => 1 / (2 * Real.sqrt Real.pi) * Real.exp (-x ^ 2) - erfc x
  have hd : ∀ x, HasDerivAt g (1 / (2 * Real.sqrt Real.pi) * (Real.exp (-x ^ 2) * (-(2 * x))) +
      2 / Real.sqrt Real.pi * Real.exp (-x ^ 2)) x := by
    intro x
    have h1 : HasDerivAt (fun x : ℝ => Real.exp (-x ^ 2)) (Real.exp (-x ^ 2) * (-(2 * x))) x := by
      have := ((hasDerivAt_pow 2 x).neg).exp
      simpa using this
    have := (h1.const_mul (1 / (2 * Real.sqrt Real.pi))).sub (erfc_deriv x)
    rwa [sub_neg_eq_add] at this
  have ha : AntitoneOn g (Set.Ici 2) := by
    refine antitoneOn_of_deriv_nonpos (convex_Ici 2) (fun x _ => (hd x).continuousAt.continuousWithinAt)
      (fun x _ => (hd x).differentiableAt.differentiableWithinAt) fun x hx => ?_
    rw [interior_Ici] at hx
    have hx : 2 < x := hx
    rw [(hd x).deriv]
    have : 1 / (2 * Real.sqrt Real.pi) * (Real.exp (-x ^ 2) * (-(2 * x))) + 2 / Real.sqrt Real.pi * Real.exp (-x ^ 2) =
        Real.exp (-x ^ 2) / Real.sqrt Real.pi * (2 - x) := by
      field_simp; ring
    rw [this]
    exact mul_nonpos_of_nonneg_of_nonpos (by positivity) (by linarith)
  have hl : Filter.Tendsto g Filter.atTop (nhds (1 / (2 * Real.sqrt Real.pi) * 0 - 0)) := by
    refine (Filter.Tendsto.const_mul _ ?_).sub erfc_lim
    refine Real.tendsto_exp_atBot.comp (Filter.tendsto_neg_atTop_atBot.comp (Filter.tendsto_pow_atTop two_ne_zero))
  rw [mul_zero, sub_zero] at hl
  have h0 : 0 ≤ g 2 := le_of_tendsto hl (Filter.eventually_atTop.2 ⟨2, fun x hx => ha (Set.mem_Ici.2 le_rfl) hx hx⟩)
  simp only [g] at h0
  have h1 : erfc 2 ≤ 1 / (2 * Real.sqrt Real.pi) * Real.exp (-2 ^ 2) := by linarith
  calc Real.exp 4 * erfc 2 ≤ Real.exp 4 * (1 / (2 * Real.sqrt Real.pi) * Real.exp (-2 ^ 2)) := by gcongr
    _ = 1 / (2 * Real.sqrt Real.pi) * (Real.exp 4 * Real.exp (-2 ^ 2)) := by ring
    _ = _ := by rw [← Real.exp_add]; norm_num

theorem topEnv_comp : topEnv.comp 0 0 = ⟨1, 0, 2⟩ := by
  simp [KEnv.comp, compAt, topEnv, Real.exp_log]

theorem topEnv_taud : topEnv.taud = 1 := by simp [KEnv.taud, topEnv]

theorem topEnv_gauss : sllGauGau topEnv.taud (topEnv.comp 0 0) (topEnv.comp 0 0) 0 < 3 / 10 := by
  rw [topEnv_comp, topEnv_taud]
  have h8 : Real.sqrt (2 * 2 + 2 * 2) / Real.sqrt 2 = 2 := by
    rw [← Real.sqrt_div (by norm_num)]
    rw [show ((2 : ℝ) * 2 + 2 * 2) / 2 = 2 ^ 2 by norm_num, Real.sqrt_sq (by norm_num)]
  have hA : Real.sqrt (2 * 2 + 2 * 2) * Real.sqrt (2 * 2 + 2 * 2) = 8 := by rw [Real.mul_self_sqrt (by norm_num)]; norm_num
  simp only [sllGauGau, sub_self, zero_div, div_one, neg_zero, zero_sub, neg_neg, zero_add, h8, hA]
  have e1 : ∀ z : ℝ, Real.exp (logErfc z + 8 / 2) = Real.exp 4 * erfc z := by
    intro z; rw [add_comm, exp_logErfc]; norm_num
  rw [e1]
  have h1 := erfc_two
  have h2 : 1 / (2 * Real.sqrt Real.pi) < 3 / 10 := by
    have : 1.7 < Real.sqrt Real.pi := Real.lt_sqrt_of_sq_lt (by have := Real.pi_gt_three; norm_num; linarith)
    rw [div_lt_iff₀ (by positivity)]
    linarith
  linarith

theorem topEnv_top : 3 / 8 ≤ sllTopTop topEnv.taud (topEnv.comp 0 0) (topEnv.comp 0 0) 0 := by
  rw [topEnv_comp, topEnv_taud]
  have : sllTopTop 1 ⟨1, 0, 2⟩ ⟨1, 0, 2⟩ 0 = (Real.exp (-4) + 3) / 8 := by
    simp only [sllTopTop]
    norm_num
    ring
  rw [this]
  have := Real.exp_pos (-4)
  linarith

/-- The claim of `C80_component_partial` about errors fails for mixtures: the variance of a component is
computed as if it were of the type `TypeTF` names.  With `TypeTF` Gaussian the error of a line seen through a top-hat is the
root of a negative number, NaN. -/
theorem C80_mixture_error (f : Fin twoPts.nall → ℝ) (memP memU memA : ℕ → ℝ) :
    ∃ c : Recon (1 * (1 + twoPts.line.length)) onePt.nall,
      decompMix topEnv .gauss 0 1 twoPts onePt f memP memU memA = .ok c ∧ c.err ⟨0, by decide⟩ = none := by
  have hC := twoPts_pd topEnv (topEnv_far 1)
  refine ⟨_, decompMix_eq topEnv .gauss 0 1 twoPts onePt f hC twoPts_times memP memU memA, ?_⟩
  simp only [partRecon]
  rw [cSqrt, if_pos]
  · rfl
  have hpt : onePt.pt 0 = (1, 0) := by
    simp [DSet.pt, onePt, DSet.series, locate, DSet.ser]
  have hq1 : twoPts.pt 1 = (1, 0) := by
    simp [DSet.pt, twoPts, DSet.series, locate, DSet.ser]
  set C := twoPts.cov topEnv.kernels topEnv.pm topEnv.idxc topEnv.idxl with hCdef
  have hn : 1 < twoPts.nall := by decide
  set s : Fin twoPts.nall → ℝ := fun q => partPt topEnv.kernels (topEnv.singleMix .gauss 0).K topEnv.taud (onePt.pt 0) (twoPts.pt q) with hs
  have hleast := (predErr_least hC s (partDiag (topEnv.singleMix .gauss 0) (onePt.pt 0))).2 ⟨Pi.single ⟨1, hn⟩ 1, rfl⟩
  refine lt_of_le_of_lt hleast ?_
  have hV : s ⟨1, hn⟩ = sllTopTop topEnv.taud (topEnv.comp 0 0) (topEnv.comp 0 0) 0 := by
    simp only [hs, hpt, hq1, partPt, pointCov, one_ne_zero, if_false, if_true]
    simp [KEnv.singleMix, topEnv, fpSll]
  have hD : C ⟨1, hn⟩ ⟨1, hn⟩ = sllTopTop topEnv.taud (topEnv.comp 0 0) (topEnv.comp 0 0) 0 + 1 / 100 := by
    rw [hCdef, cov_pointCov twoPts (topEnv_far _)]
    simp only [hq1, if_true]
    have l1 : locate twoPts.series 1 = (1, 0) := by simp [locate, twoPts, DSet.series]
    rw [l1]
    have h3 : pointCov topEnv.kernels topEnv.taud (1, 0) (1, 0) = sllTopTop topEnv.taud (topEnv.comp 0 0) (topEnv.comp 0 0) 0 := by
      simp only [pointCov, if_true, KEnv.kernels, KEnv.sll, sub_self]
      rw [show List.range topEnv.ng = [0] from rfl]
      simp [fpSll, topEnv]
    rw [h3]
    congr 1
    simp [noiseVar, twoPts, DSet.ser, DSet.series, pmSyserr, pmSigma, pmTau, topEnv]
    norm_num
  have hA : partDiag (topEnv.singleMix .gauss 0) (onePt.pt 0) = sllGauGau topEnv.taud (topEnv.comp 0 0) (topEnv.comp 0 0) 0 := by
    rw [hpt]
    simp [partDiag, KEnv.singleMix, fpSllS]
  have h1 := topEnv_gauss
  have h2 := topEnv_top
  rw [predErr, hA, single_one_dotProduct, hV, Matrix.mulVec_single_one, single_one_dotProduct]
  have : C.col ⟨1, hn⟩ ⟨1, hn⟩ = C ⟨1, hn⟩ ⟨1, hn⟩ := rfl
  rw [this, hD]
  linarith

/-- Two exponential components of timescale 401, no delay, damping timescale 400. -/
noncomputable def rateEnv : KEnv :=
  ⟨2, false, fun _ => .exp, fun i => if i = 2 then Real.log 400 else if i = 6 ∨ i = 9 then Real.log 401
    else if i = 5 ∨ i = 8 then 401 else 0, 0, fun _ => 3⟩

/-- Two points of the continuum, one of the line. -/
noncomputable def threePts : DSet :=
  ⟨⟨2, fun i => 400 * i, fun _ => 0, fun _ => 1 / 10, 0⟩, [⟨1, fun _ => 400, fun _ => 0, fun _ => 1 / 10, 0⟩]⟩

/-- One time of the line. -/
noncomputable def atEnd : DSet := ⟨⟨0, fun _ => 0, fun _ => 0, fun _ => 0, 0⟩, [⟨1, fun _ => 400, fun _ => 0, fun _ => 0, 0⟩]⟩

theorem rateEnv_comp (j : ℕ) {k : ℕ} (hk : k < 2) : rateEnv.comp j k = ⟨1, 401, 401⟩ := by
  interval_cases k <;> simp [KEnv.comp, compAt, rateEnv, Real.exp_log]

theorem rateEnv_taud : rateEnv.taud = 400 := by simp [KEnv.taud, rateEnv, Real.exp_log]

theorem rateEnv_far (J : ℕ) : rateEnv.Far J := by
  have hr : FarRel 400 401 := Or.inr (by unfold kEPS; rw [abs_of_nonpos (by norm_num)]; norm_num)
  intro j _ k hk
  refine ⟨fun _ => ?_, fun j' _ k' hk' => ?_⟩
  · rw [rateEnv_comp j hk, rateEnv_taud]; exact hr
  · rw [rateEnv_comp j hk, rateEnv_comp j' hk', rateEnv_taud]
    simp only [FarL, rateEnv, if_true]
    exact fun _ => ⟨hr, hr⟩

theorem threePts_times : ∀ a ∈ threePts.series, EnoughTimes a 1 := by
  intro a ha
  refine ⟨fun _ => ⟨0, ?_⟩, fun x y _ => Subsingleton.elim (α := Fin 1) x y⟩
  simp only [DSet.series, threePts, List.mem_cons, List.not_mem_nil, or_false] at ha
  rcases ha with rfl | rfl <;> norm_num

theorem threePts_pd (e : KEnv) (h : e.Far 1) : (threePts.cov e.kernels e.pm e.idxc e.idxl).PosDef := by
  refine cov_posDef h ⟨fun i _ => by simp only [threePts]; norm_num, fun j a ha i _ => ?_⟩
  rcases j with _ | j
  · have := Option.some.inj ha
    rw [← this]; norm_num
  · simp [threePts] at ha

theorem band_zero : slcExpS 400 ⟨1, 401, 401⟩ 0 = slcExp 400 ⟨1, 401, 401⟩ 0 := by
  simp only [slcExpS, slcExp]
  norm_num

theorem band_late : slcExpS 400 ⟨1, 401, 401⟩ 400 < slcExp 400 ⟨1, 401, 401⟩ 400 := by
  have h1 : slcExpS 400 ⟨1, 401, 401⟩ 400 = Real.exp (-1) * (400 / 401 + 400 / 801) := by
    have : |((400 : ℝ) - 401) / 400 / 401| < kEPS := by
      unfold kEPS; rw [abs_of_nonpos (by norm_num)]; norm_num
    simp only [slcExpS, if_pos this]
    norm_num
    ring
  have h2 : slcExp 400 ⟨1, 401, 401⟩ 400 = Real.exp (-1) * (-400 + Real.exp (1 / 401) * (400 + 400 / 801)) := by
    have : ¬|((400 : ℝ) - 401) / 400| < kEPS := by
      unfold kEPS; rw [abs_of_nonpos (by norm_num)]; norm_num
    simp only [slcExp, if_neg this]
    have h3 : Real.exp (-400 / 401) = Real.exp (-1) * Real.exp (1 / 401) := by rw [← Real.exp_add]; norm_num
    norm_num at h3 ⊢
    rw [h3]
    ring
  rw [h1, h2]
  refine mul_lt_mul_of_pos_left ?_ (Real.exp_pos _)
  have h4 : (1 : ℝ) / 401 + 1 < Real.exp (1 / 401) := Real.add_one_lt_exp (by norm_num)
  nlinarith

/-- C80 fails in the band: two exponential components with a timescale within a quarter of a percent of the
damping timescale.  The likelihood and the reconstruction use the exact covariances, the decomposition their
limits for equal timescales, and the components do not add up to the line. -/
theorem C80_band : ∃ f : Fin threePts.nall → ℝ, ∀ memP memU memA memP' memU' memA' memP'' memU'' memA'' : ℕ → ℝ,
    ∃ r c0 c1 : Recon (1 * (1 + threePts.line.length)) atEnd.nall,
      lineRecs rateEnv.kernels 1 threePts atEnd rateEnv.pm rateEnv.idxc rateEnv.idxl f memP memU memA = (.ok r, r, r) ∧
      decompLine rateEnv .exp 0 1 threePts atEnd f memP' memU' memA' = .ok c0 ∧
      decompLine rateEnv .exp 1 1 threePts atEnd f memP'' memU'' memA'' = .ok c1 ∧
      c0.val ⟨0, by decide⟩ + c1.val ⟨0, by decide⟩ ≠ r.val ⟨0, by decide⟩ := by
  have hC := threePts_pd rateEnv (rateEnv_far 1)
  have hcon : ConOK threePts.con (pmSyserr rateEnv.pm rateEnv.idxc threePts.con.em) := by
    refine ⟨fun i _ => ?_, Or.inl fun i _ => ?_⟩
    · simp only [threePts]; push_cast; linarith
    · simp only [threePts, mul_zero, pmSyserr]; norm_num
  have hn : threePts.nall = 3 := rfl
  have h0 : 0 < threePts.nall := by decide
  have h1 : 1 < threePts.nall := by decide
  set C := threePts.cov rateEnv.kernels rateEnv.pm rateEnv.idxc rateEnv.idxl with hCdef
  set v : Fin threePts.nall → ℝ := Pi.single ⟨0, h0⟩ 1 - Pi.single ⟨1, h1⟩ 1 with hv
  have hLv : (threePts.trend 1)ᵀ.mulVec v = 0 := by
    rw [hv, Matrix.mulVec_sub, Matrix.mulVec_single_one, Matrix.mulVec_single_one]
    have : ∀ c, threePts.trend 1 ⟨0, h0⟩ c = threePts.trend 1 ⟨1, h1⟩ c := by
      intro c
      rw [setTrend_eq]
      simp [setTrend, trendAt, DSet.pt, threePts, DSet.series, locate, DSet.ser, Nat.mod_one]
      rfl
    ext c
    simp only [Pi.sub_apply, Pi.zero_apply, Matrix.col_apply, Matrix.transpose_apply]
    rw [this, sub_self]
  have hinv : C⁻¹.mulVec (C.mulVec v) = v := by
    rw [Matrix.mulVec_mulVec, Matrix.nonsing_inv_mul _ (isUnit_iff_ne_zero.2 hC.det_pos.ne'), Matrix.one_mulVec]
  have hcoef : glsCoef C (threePts.trend 1) (C.mulVec v) = 0 := by
    simp only [glsCoef, hinv, hLv, Matrix.mulVec_zero]
  refine ⟨C.mulVec v, fun memP memU memA memP' memU' memA' memP'' memU'' memA'' => ⟨_, _, _,
    lineRecs_eq rateEnv.kernels threePts atEnd rateEnv.pm rateEnv.idxc rateEnv.idxl 1 _ hcon hC threePts_times (by simp [threePts]) memP memU memA,
    decompLine_eq rateEnv .exp 0 1 threePts atEnd _ hC threePts_times memP' memU' memA',
    decompLine_eq rateEnv .exp 1 1 threePts atEnd _ hC threePts_times memP'' memU'' memA'', ?_⟩⟩
  rw [lineBlup_val hC]
  simp only [partRecon]
  rw [← hCdef, hcoef, Matrix.mulVec_zero, sub_zero, hinv, dotProduct_zero, mul_zero, mul_zero, add_zero, add_zero, add_zero]
  simp only [hv, dotProduct_sub, dotProduct_single_one]
  have hpt : atEnd.pt 0 = (1, 400) := by simp [DSet.pt, atEnd, DSet.series, locate, DSet.ser]
  have hq0 : threePts.pt 0 = (0, 0) := by simp [DSet.pt, threePts, DSet.series, locate, DSet.ser]
  have hq1 : threePts.pt 1 = (0, 400) := by simp [DSet.pt, threePts, DSet.series, locate, DSet.ser]
  have e1 : ∀ k < 2, ∀ t, partPt rateEnv.kernels (rateEnv.single .exp k).K rateEnv.taud (1, 400) (0, t) =
      slcExpS 400 ⟨1, 401, 401⟩ (400 - t) := by
    intro k hk t
    simp only [partPt, pointCov, one_ne_zero, if_false, KEnv.single, fpSlcS, rateEnv_comp 0 hk, rateEnv_taud, zero_add]
  have e2 : ∀ t, pointCov rateEnv.kernels rateEnv.taud (1, 400) (0, t) = 2 * slcExp 400 ⟨1, 401, 401⟩ (400 - t) := by
    intro t
    simp only [pointCov, KEnv.kernels, KEnv.slc]
    rw [show List.range rateEnv.ng = [0, 1] from rfl]
    simp only [List.foldl_cons, List.foldl_nil, rateEnv_comp 0 (show 0 < 2 by norm_num), rateEnv_comp 0 (show 1 < 2 by norm_num),
      rateEnv_taud, zero_add]
    exact (two_mul _).symm
  simp only [hpt, hq0, hq1, e1 0 (by norm_num), e1 1 (by norm_num), e2, sub_zero, sub_self, band_zero]
  have := band_late
  intro hh
  linarith

/-! ### Hypotheses are met -/

theorem twoPts_spd (e : KEnv) (h : e.Far 1) : (setCov e.kernels e.pm e.idxc e.idxl twoPts).PosDef := by
  have hs := pmSigma_pos e.pm e.idxc
  exact (twoPts_pd e h).smul (by positivity)

theorem twoPts_con (s : ℝ) : ConOK twoPts.con s := ⟨fun i hi => by simp [twoPts] at hi, Or.inr fun i hi => by simp [twoPts] at hi⟩

/-- Two gamma components of timescales 2 and 3. -/
noncomputable def gamEnv : KEnv :=
  ⟨2, false, fun _ => .gamma, fun i => if i = 6 then Real.log 2 else if i = 9 then Real.log 3 else 0, 0, fun _ => 3⟩

theorem gamEnv_dec (J : ℕ) : gamEnv.FarDec .gamma J := by
  intro _ j _ k hk
  have ht : gamEnv.taud = 1 := by simp [KEnv.taud, gamEnv]
  have h0 : (gamEnv.comp j 0).w = 2 := by simp [KEnv.comp, compAt, gamEnv, Real.exp_log]
  have h1 : (gamEnv.comp j 1).w = 3 := by simp [KEnv.comp, compAt, gamEnv, Real.exp_log]
  have hk' : k < 2 := hk
  rw [ht]
  interval_cases k
  · rw [h0]
    exact ⟨Or.inr (by unfold kEPS; rw [abs_of_nonpos (by norm_num)]; norm_num), Or.inr (by unfold kEPS; rw [abs_of_nonpos (by norm_num)]; norm_num)⟩
  · rw [h1]
    exact ⟨Or.inr (by unfold kEPS; rw [abs_of_nonpos (by norm_num)]; norm_num), Or.inr (by unfold kEPS; rw [abs_of_nonpos (by norm_num)]; norm_num)⟩

theorem gamEnv_far (J : ℕ) : gamEnv.Far J := by
  intro j hj k hk
  refine ⟨fun _ => (gamEnv_dec J (Or.inl rfl) j hj k hk).1, fun j' hj' k' hk' => ?_⟩
  simp only [FarL, gamEnv, if_true]
  exact fun _ => ⟨(gamEnv_dec J (Or.inl rfl) j hj k hk).1, (gamEnv_dec J (Or.inl rfl) j' hj' k' hk').1⟩

/-- The two components of the line add up to it. -/
example (R : DSet) (hR : R.line.length = 1) (f : Fin twoPts.nall → ℝ) (mem : ℕ → ℝ) :
    ∃ r c0 c1 : Recon (1 * (1 + twoPts.line.length)) R.nall,
      lineRecs gamEnv.kernels 1 twoPts R gamEnv.pm gamEnv.idxc gamEnv.idxl f mem mem mem = (.ok r, r, r) ∧
      decompLine gamEnv .gamma 0 1 twoPts R f mem mem mem = .ok c0 ∧
      decompLine gamEnv .gamma 1 1 twoPts R f mem mem mem = .ok c1 ∧
      ∀ i : Fin R.nall, (R.pt i).1 ≠ 0 → c0.val i + c1.val i = r.val i := by
  obtain ⟨r, c, h1, h2, _, _, h5⟩ := C80_sum_partial (e := gamEnv) (tf := .gamma) (nq := 1) (d := twoPts) (R := R) (fun _ _ => rfl)
    (gamEnv_dec _) (by simp [gamEnv]) (by rw [hR]; simp [twoPts]) (twoPts_con _) (twoPts_spd _ (gamEnv_far 1)) twoPts_times (by simp [twoPts]) f
    mem mem mem (fun _ => mem) (fun _ => mem) (fun _ => mem)
  refine ⟨r, c 0, c 1, h1, h2 0 (by simp [gamEnv]), h2 1 (by simp [gamEnv]), fun i hi => ?_⟩
  have := h5 i hi
  rw [show Finset.range gamEnv.ng = Finset.range 2 from rfl, Finset.sum_range_succ, Finset.sum_range_one] at this
  rw [this]
  simp [gamEnv]

/-- Their errors are numbers. -/
example (R : DSet) (hR : R.line.length = 1) (f : Fin twoPts.nall → ℝ) (mem : ℕ → ℝ) :
    ∃ c : Recon (1 * (1 + twoPts.line.length)) R.nall,
      decompLine gamEnv .gamma 1 1 twoPts R f mem mem mem = .ok c ∧ ∀ i, ∃ v, c.err i = some v := by
  obtain ⟨W, _, h⟩ := C80_component_partial (e := gamEnv) (tf := .gamma) (nq := 1) (d := twoPts) (R := R) (k := 1) (by simp [gamEnv])
    (fun _ _ => rfl) (gamEnv_far _) (gamEnv_dec _) (by rw [hR]; simp [twoPts]) (twoPts_spd _ (gamEnv_far 1)) twoPts_times
  obtain ⟨c, h1, _, _, h2⟩ := h f mem mem mem
  exact ⟨c, h1, fun i => ⟨_, h2 i⟩⟩

/-- The mixture of three types (with signed responses) without its trend. -/
example (R : DSet) (hR : R.line.length = 1) (f : Fin twoPts.nall → ℝ) (mem : ℕ → ℝ) :
    ∃ (r : Recon (1 * (1 + twoPts.line.length)) R.nall) (c : ℕ → Recon (1 * (1 + twoPts.line.length)) R.nall),
      lineRecs mixEnv.kernels 1 twoPts R mixEnv.pm mixEnv.idxc mixEnv.idxl f mem mem mem = (.ok r, r, r) ∧
      (∀ k < 3, decompMix mixEnv .gauss k 1 twoPts R f mem mem mem = .ok (c k)) ∧
      ∀ i : Fin R.nall, (R.pt i).1 ≠ 0 → ∑ k ∈ Finset.range 3, (c k).val i = r.val i - trendAt 1 _ (R.pt i) ⬝ᵥ r.coef := by
  obtain ⟨r, c, h1, h2, _, _, h5⟩ := C80_mixture_sum_partial (e := mixEnv) .gauss (nq := 1) (d := twoPts) (R := R)
    (by simp [mixEnv]) (by rw [hR]; simp [twoPts]) (twoPts_con _) (twoPts_spd _ (mixEnv_far 1)) twoPts_times (by simp [twoPts]) f
    mem mem mem (fun _ => mem) (fun _ => mem) (fun _ => mem)
  exact ⟨r, c, h1, h2, h5⟩

/-- The Gaussian component of the mixture has an error when `TypeTF` is Gaussian. -/
example (R : DSet) (hR : R.line.length = 1) (f : Fin twoPts.nall → ℝ) (mem : ℕ → ℝ) :
    ∃ c : Recon (1 * (1 + twoPts.line.length)) R.nall,
      decompMix mixEnv .gauss 0 1 twoPts R f mem mem mem = .ok c ∧ ∀ i, ∃ v, c.err i = some v := by
  obtain ⟨W, _, h⟩ := C80_mixture_component_partial (e := mixEnv) (tf := .gauss) (nq := 1) (d := twoPts) (R := R) (k := 0) (by simp [mixEnv])
    (mixEnv_far _) (by rw [hR]; simp [twoPts]) (twoPts_spd _ (mixEnv_far 1)) twoPts_times
  obtain ⟨c, h1, _, _, h2⟩ := h f mem mem mem
  exact ⟨c, h1, fun i => ⟨_, h2 i fun _ => ⟨by simp [mixEnv], fun hh => by simp at hh⟩⟩⟩

end Mica
