import Verif.Proof.TimeUnit
import Verif.Props.TimeOrigin

/-! # Change of the unit of time: parameters, trends, likelihoods -/

namespace Mica

open Matrix

/-- The parameters of a data set in a unit of time of which there are `a` in the old one, apart from the
amplitude of the variations: damping time, lags and widths are `a` times larger, the rest is the same. -/
structure LagsInUnit (a : ℝ) (ng : ℕ) (pm pm' : ℕ → ℝ) (idxc : ℕ) (idxl : ℕ → ℕ) : Prop where
  tau : pm' (idxc + 2) = pm (idxc + 2) + Real.log a
  lineSys : ∀ j, pm' (idxl j) = pm (idxl j)
  amp : ∀ j, ∀ k < ng, pm' (idxl j + 1 + 3 * k) = pm (idxl j + 1 + 3 * k)
  lag : ∀ j, ∀ k < ng, pm' (idxl j + 1 + 3 * k + 1) = a * pm (idxl j + 1 + 3 * k + 1)
  width : ∀ j, ∀ k < ng, pm' (idxl j + 1 + 3 * k + 2) = pm (idxl j + 1 + 3 * k + 2) + Real.log a

/-- All parameters of a data set; the amplitude of the variations is one per square root of time and so is `√a`
times smaller. -/
structure InUnit (a : ℝ) (ng : ℕ) (pm pm' : ℕ → ℝ) (idxc : ℕ) (idxl : ℕ → ℕ) : Prop
    extends LagsInUnit a ng pm pm' idxc idxl where
  sys : pm' idxc = pm idxc
  sigma : pm' (idxc + 1) = pm (idxc + 1) - Real.log a / 2

/-- A light curve with its times in the other unit. -/
def LC.inUnit (a : ℝ) (d : LC) : LC := { d with t := fun i => a * d.t i }

/-- A data set with its times in the other unit. -/
def DSet.inUnit (a : ℝ) (d : DSet) : DSet := ⟨d.con.inUnit a, d.line.map (LC.inUnit a)⟩

/-- The covariance functions take the same values in the other unit. -/
def Kernels.SameIn (a : ℝ) (K K' : Kernels) : Prop :=
  ∀ t1 t2 : ℝ, (∀ j, K'.Slc (a * t1) (a * t2) j = K.Slc t1 t2 j) ∧
    (∀ j, K'.Sll (a * t1) (a * t2) j = K.Sll t1 t2 j) ∧ ∀ j l, K'.Sll2 (a * t1) (a * t2) j l = K.Sll2 t1 t2 j l

/-! ## Covariance functions -/

theorem fpSlc_unit {a : ℝ} (ha : 0 < a) (T : TF) (taud : ℝ) (x : Comp) (Dt : ℝ) :
    fpSlc T (a * taud) (x.inUnit a) (a * Dt) = fpSlc T taud x Dt := by
  cases T
  · exact slcGau_unit ha _ _ _
  · exact slcTop_unit ha _ _ _
  · exact slcGam_unit ha _ _ _
  · exact slcExp_unit ha _ _ _

theorem fpSll_unit {a : ℝ} (ha : 0 < a) (T1 T2 : TF) {taud : ℝ} (ht : 0 < taud) (x y : Comp) (hx : 0 < x.w)
    (hy : 0 < y.w) (Dt : ℝ) (h : T1 ≠ T2 → SameSide a taud x.w ∧ SameSide a taud y.w) :
    fpSll T1 T2 (a * taud) (x.inUnit a) (y.inUnit a) (a * Dt) = fpSll T1 T2 taud x y Dt := by
  have hn : -(a * Dt) = a * -Dt := by ring
  cases T1 <;> cases T2 <;>
    simp only [fpSll, sllGamGau, sllGamExp, sllExpGau, sllTopGau, sllTopExp, sllTopGam, hn]
  · exact sllGauGau_unit ha _ _ _ _
  · exact sllGauTop_unit ha _ _ _ _
  · exact sllGauGam_unit ha _ _ _ _ (h (by simp)).2
  · exact sllGauExp_unit ha _ _ _ _ (h (by simp)).2
  · exact sllGauTop_unit ha _ _ _ _
  · exact sllTopTop_unit ha _ _ _ _
  · exact sllGamTop_unit ha ht _ _ hy hx _ (h (by simp)).2
  · exact sllExpTop_unit ha ht _ _ hy hx _ (h (by simp)).2
  · exact sllGauGam_unit ha _ _ _ _ (h (by simp)).1
  · exact sllGamTop_unit ha ht _ _ hx hy _ (h (by simp)).1
  · exact sllGamGam_unit ha _ _ _ _
  · exact sllExpGam_unit ha ht _ _ hy hx _ (h (by simp)).2 (h (by simp)).1
  · exact sllGauExp_unit ha _ _ _ _ (h (by simp)).1
  · exact sllExpTop_unit ha ht _ _ hx hy _ (h (by simp)).1
  · exact sllExpGam_unit ha ht _ _ hx hy _ (h (by simp)).1 (h (by simp)).2
  · exact sllExpExp_unit ha _ _ _ _

section
variable {a : ℝ} (ha : 0 < a) {ng : ℕ} {pm pm' : ℕ → ℝ} {idxc : ℕ} {idxl : ℕ → ℕ} (h : LagsInUnit a ng pm pm' idxc idxl)
include ha h

theorem LagsInUnit.taud (lin : Bool) (typ : ℕ → TF) :
    (KEnv.mk ng lin typ pm' idxc idxl).taud = a * (KEnv.mk ng lin typ pm idxc idxl).taud := by
  simp only [KEnv.taud]
  rw [h.tau, Real.exp_add, Real.exp_log ha, mul_comm]

theorem LagsInUnit.comp (lin : Bool) (typ : ℕ → TF) (j k : ℕ) (hk : k < ng) :
    (KEnv.mk ng lin typ pm' idxc idxl).comp j k = ((KEnv.mk ng lin typ pm idxc idxl).comp j k).inUnit a := by
  simp only [KEnv.comp, compAt, Comp.inUnit]
  rw [h.amp j k hk, h.lag j k hk, h.width j k hk, Real.exp_add, Real.exp_log ha, mul_comm a (Real.exp _)]

theorem LagsInUnit.pmTau : Mica.pmTau pm' idxc = a * Mica.pmTau pm idxc := by
  unfold Mica.pmTau
  rw [h.tau, Real.exp_add, Real.exp_log ha, mul_comm]

theorem LagsInUnit.kernels (lin : Bool) (typ : ℕ → TF)
    (hs : ∀ k < ng, ∀ k' < ng, typ k ≠ typ k' → ∀ j,
      SameSide a (Real.exp (pm (idxc + 2))) (Real.exp (pm (idxl j + 1 + 3 * k + 2)))) :
    Kernels.SameIn a (KEnv.mk ng lin typ pm idxc idxl).kernels (KEnv.mk ng lin typ pm' idxc idxl).kernels := by
  have fold : ∀ (l : List ℕ) (f g : ℝ → ℕ → ℝ) (s : ℝ), (∀ s, ∀ k ∈ l, f s k = g s k) → l.foldl f s = l.foldl g s := by
    intro l f g
    induction l with
    | nil => intros; rfl
    | cons k l ih =>
      intro s hfg
      rw [List.foldl_cons, List.foldl_cons, hfg s k (by simp), ih _ fun s k hk => hfg s k (by simp [hk])]
  have hll : ∀ j l t1 t2, (KEnv.mk ng lin typ pm' idxc idxl).sll2 (a * t1) (a * t2) j l =
      (KEnv.mk ng lin typ pm idxc idxl).sll2 t1 t2 j l := by
    intro j l t1 t2
    unfold KEnv.sll2
    refine fold _ _ _ _ fun s k1 h1 => fold _ _ _ _ fun s k2 h2 => ?_
    have h1 := List.mem_range.1 h1
    have h2 := List.mem_range.1 h2
    rw [h.taud ha, h.comp ha lin typ j k1 h1, h.comp ha lin typ l k2 h2, ← mul_sub]
    refine congrArg (s + ·) (fpSll_unit ha (typ k1) (typ k2) (taud := (KEnv.mk ng lin typ pm idxc idxl).taud)
      (Real.exp_pos _) _ _ (Real.exp_pos _) (Real.exp_pos _) _ ?_)
    intro hne
    exact ⟨hs k1 h1 k2 h2 hne j, hs k2 h2 k1 h1 (Ne.symm hne) l⟩
  intro t1 t2
  refine ⟨fun j => ?_, fun j => hll j j t1 t2, fun j l => hll j l t1 t2⟩
  simp only [KEnv.kernels]
  unfold KEnv.slc
  refine fold _ _ _ _ fun s k hk => ?_
  have hk := List.mem_range.1 hk
  rw [h.taud ha, h.comp ha lin typ j k hk, ← mul_sub, fpSlc_unit ha]

end

theorem InUnit.pmSigma {a : ℝ} (ha : 0 < a) {ng : ℕ} {pm pm' : ℕ → ℝ} {idxc : ℕ} {idxl : ℕ → ℕ}
    (h : InUnit a ng pm pm' idxc idxl) : Mica.pmSigma pm' idxc = Mica.pmSigma pm idxc := by
  unfold Mica.pmSigma
  rw [h.pmTau ha, h.sigma, Real.exp_sub, Real.sqrt_mul ha.le]
  have e : Real.exp (Real.log a / 2) = Real.sqrt a := by
    rw [Real.exp_half, Real.exp_log ha]
  have : Real.sqrt a ≠ 0 := (Real.sqrt_pos.2 ha).ne'
  rw [e]
  field_simp

/-! ## Trends -/

theorem margLL_mul_det {n q : ℕ} (C : Matrix (Fin n) (Fin n) ℝ) (L : Matrix (Fin n) (Fin q) ℝ) (f : Fin n → ℝ)
    (T : Matrix (Fin q) (Fin q) ℝ) (hT : T.det ≠ 0) (hM : (Lᵀ * (C⁻¹ * L)).det ≠ 0) :
    margLL C (L * T) f = margLL C L f - Real.log |T.det| := by
  have hu : IsUnit T.det := isUnit_iff_ne_zero.2 hT
  have hut : IsUnit Tᵀ.det := by rw [Matrix.det_transpose]; exact hu
  have hM' : (L * T)ᵀ * (C⁻¹ * (L * T)) = Tᵀ * ((Lᵀ * (C⁻¹ * L)) * T) := by
    rw [Matrix.transpose_mul]; simp only [Matrix.mul_assoc]
  have hg : (L * T).mulVec (glsCoef C (L * T) f) = L.mulVec (glsCoef C L f) := by
    unfold glsCoef
    rw [hM', Matrix.mul_inv_rev, Matrix.mul_inv_rev, Matrix.transpose_mul]
    simp only [Matrix.mulVec_mulVec, Matrix.mul_assoc]
    congr 2
    rw [← Matrix.mul_assoc T, Matrix.mul_nonsing_inv _ hu, Matrix.one_mul, ← Matrix.mul_assoc Tᵀ⁻¹,
      Matrix.nonsing_inv_mul _ hut, Matrix.one_mul]
  unfold margLL
  rw [hg, hM', Matrix.det_mul, Matrix.det_mul, Matrix.det_transpose,
    Real.log_mul hT (mul_ne_zero hM hT), Real.log_mul hM hT, Real.log_abs]
  ring

/-- Multiplying the trend functions by powers of `a`. -/
theorem margLLN_pow {n n' q q' nq m : ℕ} {C C' L L' : ℕ → ℕ → ℝ} {f : ℕ → ℝ} {a : ℝ} (ha : 0 < a) (hn : n' = n)
    (hq : q' = q) (hqm : q = nq * m) (hC : ∀ i < n, ∀ j < n, C' i j = C i j)
    (hL : ∀ i < n, ∀ j < q, L' i j = L i j * a ^ (j % nq))
    (hM : ((Matrix.of fun (i : Fin n) (j : Fin q) => L i j)ᵀ * ((Matrix.of fun i j : Fin n => C i j)⁻¹ *
      (Matrix.of fun (i : Fin n) (j : Fin q) => L i j))).det ≠ 0) :
    margLLN n' q' C' L' f = margLLN n q C L f - m * (∑ j ∈ Finset.range nq, (j : ℝ)) * Real.log a := by
  subst hn hq
  unfold margLLN
  have e : (Matrix.of fun i j : Fin n' => C' i j) = Matrix.of fun i j : Fin n' => C i j := by
    ext i j; exact hC i i.2 j j.2
  have e2 : (Matrix.of fun (i : Fin n') (j : Fin q') => L' i j) =
      (Matrix.of fun (i : Fin n') (j : Fin q') => L i j) * Matrix.diagonal fun j : Fin q' => a ^ ((j : ℕ) % nq) := by
    ext i j
    rw [Matrix.mul_diagonal, Matrix.of_apply, Matrix.of_apply, hL i i.2 j j.2]
  have hdet : (Matrix.diagonal fun j : Fin q' => a ^ ((j : ℕ) % nq)).det =
      a ^ (∑ j ∈ Finset.range q', j % nq) := by
    rw [Matrix.det_diagonal, ← Finset.prod_pow_eq_pow_sum, Finset.prod_range]
  rw [e, e2, margLL_mul_det _ _ _ _ (by rw [hdet]; positivity) hM, hdet, abs_of_pos (by positivity), Real.log_pow]
  congr 2
  rw [hqm]
  clear * -
  induction m with
  | zero => simp
  | succ m ih =>
    rw [Nat.mul_succ, Finset.sum_range_add]
    have : ∑ x ∈ Finset.range nq, (nq * m + x) % nq = ∑ x ∈ Finset.range nq, x :=
      Finset.sum_congr rfl fun x hx => by
        rw [Nat.mul_add_mod, Nat.mod_eq_of_lt (Finset.mem_range.1 hx)]
    rw [this]
    push_cast [ih]
    ring

/-- The same with the covariance in the place of its inverse. -/
theorem margInv_pow {n n' q q' nq m : ℕ} {C C' L L' : ℕ → ℕ → ℝ} {f : ℕ → ℝ} {a : ℝ} (s : ℝ) (ha : 0 < a) (hn : n' = n)
    (hq : q' = q) (hqm : q = nq * m) (hC : ∀ i < n, ∀ j < n, C' i j = C i j)
    (hL : ∀ i < n, ∀ j < q, L' i j = L i j * a ^ (j % nq))
    (hM : ((Matrix.of fun (i : Fin n) (j : Fin q) => L i j)ᵀ * ((s • (Matrix.of fun i j : Fin n => C i j)⁻¹)⁻¹ *
      (Matrix.of fun (i : Fin n) (j : Fin q) => L i j))).det ≠ 0) :
    margLL (s • (Matrix.of fun i j : Fin n' => C' i j)⁻¹) (Matrix.of fun (i : Fin n') (j : Fin q') => L' i j)
        (fun i => f i) - Real.log (Matrix.of fun i j : Fin n' => C' i j).det =
      margLL (s • (Matrix.of fun i j : Fin n => C i j)⁻¹) (Matrix.of fun (i : Fin n) (j : Fin q) => L i j)
        (fun i => f i) - Real.log (Matrix.of fun i j : Fin n => C i j).det -
      m * (∑ j ∈ Finset.range nq, (j : ℝ)) * Real.log a := by
  subst hn hq
  have e : (Matrix.of fun i j : Fin n' => C' i j) = Matrix.of fun i j : Fin n' => C i j := by
    ext i j; exact hC i i.2 j j.2
  have h := margLLN_pow (n := n') (n' := n') (q := q') (q' := q') (f := f)
    (C := fun i j => if h : i < n' ∧ j < n' then (s • (Matrix.of fun i j : Fin n' => C i j)⁻¹) ⟨i, h.1⟩ ⟨j, h.2⟩ else 0)
    (C' := fun i j => if h : i < n' ∧ j < n' then (s • (Matrix.of fun i j : Fin n' => C i j)⁻¹) ⟨i, h.1⟩ ⟨j, h.2⟩ else 0)
    ha rfl rfl hqm (fun _ _ _ _ => rfl) hL
  unfold margLLN at h
  simp only [Fin.is_lt, and_self, dite_true, Fin.eta] at h
  have e2 : (Matrix.of fun i j : Fin n' => (s • (Matrix.of fun i j : Fin n' => C i j)⁻¹) i j) =
      s • (Matrix.of fun i j : Fin n' => C i j)⁻¹ := rfl
  rw [e2] at h
  rw [e, h hM]
  ring

theorem totalN_inUnit (a : ℝ) (l : List LC) : totalN (l.map (LC.inUnit a)) = totalN l := by
  induction l with
  | nil => rfl
  | cons b l ih => simp only [List.map_cons, totalN, ih]; rfl

theorem locate_inUnit (a : ℝ) (l : List LC) : locate (l.map (LC.inUnit a)) = locate l := by
  induction l with
  | nil => rfl
  | cons b l ih => funext p; simp only [List.map_cons, locate, ih]; rfl

theorem concat_inUnit (a : ℝ) (l : List LC) : concat LC.f (l.map (LC.inUnit a)) = concat LC.f l := by
  induction l with
  | nil => rfl
  | cons b l ih => funext p; simp only [List.map_cons, concat, ih]; rfl

theorem trendRow_inUnit (nq : ℕ) (a : ℝ) (l : List LC) (p : ℕ) (hp : p < totalN l) (j : ℕ) (hq : 0 < nq) :
    trendRow nq (l.map (LC.inUnit a)) 0 p j = trendRow nq l 0 p j * a ^ (j % nq) := by
  obtain ⟨pre, b, post, m, rfl, rfl, hm⟩ := exists_split l p hp
  have e : totalN pre = totalN (pre.map (LC.inUnit a)) := (totalN_inUnit a pre).symm
  have e1 : trendRow nq ((pre ++ b :: post).map (LC.inUnit a)) 0 (totalN pre + m) j =
      if j / nq = pre.length then (a * b.t m) ^ (j % nq) else 0 := by
    rw [e, List.map_append, List.map_cons, trendRow_entry nq _ (b.inUnit a) _ m j hm hq, List.length_map]
    rfl
  rw [e1, trendRow_entry nq pre b post m j hm hq]
  split
  · rw [mul_pow, mul_comm]
  · rw [zero_mul]

theorem ser_inUnit (a : ℝ) (d : DSet) {s : ℕ} (hs : s < d.series.length) : (d.inUnit a).ser s = (d.ser s).inUnit a := by
  have : (d.inUnit a).series = d.series.map (LC.inUnit a) := rfl
  simp only [DSet.ser, this, List.getD_eq_getElem?_getD, List.getElem?_map,
    List.getElem?_eq_getElem hs, Option.map_some, Option.getD_some]

/-- What the covariance of the data needs of the parameters. -/
structure InUnit0 (a : ℝ) (pm pm' : ℕ → ℝ) (idxc idxc' : ℕ) (idxl idxl' : ℕ → ℕ) : Prop where
  sys : pm' idxc' = pm idxc
  sigma : Mica.pmSigma pm' idxc' = Mica.pmSigma pm idxc
  tau : Mica.pmTau pm' idxc' = a * Mica.pmTau pm idxc
  lineSys : ∀ j, pm' (idxl' j) = pm (idxl j)

theorem InUnit.zero {a : ℝ} (ha : 0 < a) {ng : ℕ} {pm pm' : ℕ → ℝ} {idxc : ℕ} {idxl : ℕ → ℕ}
    (h : InUnit a ng pm pm' idxc idxl) : InUnit0 a pm pm' idxc idxc idxl idxl :=
  ⟨h.sys, h.pmSigma ha, h.pmTau ha, h.lineSys⟩

theorem covEntry_inUnit {a : ℝ} (ha : 0 < a) {K K' : Kernels} (hK : K.SameIn a K') (d : DSet) {pm pm' : ℕ → ℝ}
    {idxc idxc' : ℕ} {idxl idxl' : ℕ → ℕ} (h : InUnit0 a pm pm' idxc idxc' idxl idxl')
    (x y : ℕ × ℕ) (hx : x.1 < d.series.length) (hy : y.1 < d.series.length) :
    covEntry K' (d.inUnit a) pm' idxc' idxl' x y = covEntry K d pm idxc idxl x y := by
  obtain ⟨s, i⟩ := x
  obtain ⟨s', i'⟩ := y
  have h0 : 0 < d.series.length := by simp [DSet.series]
  have hn : ∀ z : ℕ × ℕ, z.1 < d.series.length →
      noiseVar (d.inUnit a) pm' idxc' idxl' z = noiseVar d pm idxc idxl z := by
    rintro ⟨s, i⟩ hz
    rcases s with _ | s
    · simp only [noiseVar, ser_inUnit a d h0, h.sigma, pmSyserr, h.sys]; rfl
    · simp only [noiseVar, ser_inUnit a d hz, h.sigma, pmSyserr, h.lineSys]; rfl
  unfold covEntry
  rw [hn _ hx]
  congr 1
  have hc : ∀ t1 t2 : ℝ, a * t1 - a * t2 = a * (t1 - t2) := fun t1 t2 => (mul_sub _ _ _).symm
  have hab : ∀ u τ : ℝ, |a * u| / (a * τ) = |u| / τ := fun u τ => by
    rw [abs_mul, abs_of_pos ha, mul_div_mul_left _ _ ha.ne']
  rcases s with _ | s <;> rcases s' with _ | s' <;> simp only [sigCov, ser_inUnit a d h0]
  · simp only [LC.inUnit, hc, h.tau]
    rw [neg_div, neg_div, hab]
  · rw [ser_inUnit a d hy]; exact (hK _ _).1 s'
  · rw [ser_inUnit a d hx]; exact (hK _ _).1 s
  · rw [ser_inUnit a d hx, ser_inUnit a d hy]
    simp only [LC.inUnit, (hK _ _).2.1, (hK _ _).2.2]

/-- The constant by which the trend coefficients, which are integrated over, change the likelihood, for one
light curve. -/
def unitConst (nq : ℕ) : ℝ := ∑ j ∈ Finset.range nq, (j : ℝ)

theorem unitConst_eq (nq : ℕ) : unitConst nq = nq * (nq - 1) / 2 := by
  unfold unitConst
  induction nq with
  | zero => simp
  | succ n ih => rw [Finset.sum_range_succ, ih]; push_cast; ring

theorem ConOK.inUnit {d : LC} {s a : ℝ} (ha : 0 < a) (h : ConOK d s) : ConOK (d.inUnit a) s := by
  refine ⟨fun i hi => mul_le_mul_of_nonneg_left (h.1 i hi) ha.le,
    h.2.imp (fun h2 => h2) fun h2 i hi => mul_lt_mul_of_pos_left (h2 i hi) ha⟩

theorem EnoughTimes.inUnit {d : LC} {nq : ℕ} {a : ℝ} (ha : 0 < a) (h : EnoughTimes d nq) :
    EnoughTimes (d.inUnit a) nq := by
  obtain ⟨e, he⟩ := h
  exact ⟨e, fun x y hxy => he (mul_left_cancel₀ ha.ne' hxy)⟩

theorem posDef_congr (n n' : ℕ) (C C' : ℕ → ℕ → ℝ) (hn : n' = n) (hC : ∀ i < n, ∀ j < n, C' i j = C i j)
    (h : (Matrix.of fun i j : Fin n => C i j).PosDef) : (Matrix.of fun i j : Fin n' => C' i j).PosDef := by
  subst hn
  have e : (Matrix.of fun i j : Fin n' => C' i j) = Matrix.of fun i j : Fin n' => C i j := by
    ext i j; exact hC i i.2 j j.2
  rw [e]; exact h

/-! ## Continuum -/

theorem margLL_con_inUnit {a : ℝ} (ha : 0 < a) (nq : ℕ) {pm pm' : ℕ → ℝ} {idx : ℕ} (d : LC)
    (h0 : pm' idx = pm idx) (h1 : pm' (idx + 1) = pm (idx + 1) - Real.log a / 2)
    (h2 : pm' (idx + 2) = pm (idx + 2) + Real.log a)
    (hd : ConOK d ((Real.exp (pm idx) - 1) * d.em)) (ht : EnoughTimes d nq) :
    margLL (conCov pm' idx (d.inUnit a)) (trendMat (d.inUnit a).t (d.inUnit a).n nq) (fun i => (d.inUnit a).f i) =
      margLL (conCov pm idx d) (trendMat d.t d.n nq) (fun i => d.f i) - unitConst nq * Real.log a := by
  have e1 : conCov pm' idx (d.inUnit a) = conCov pm idx d := by
    ext i j
    have hA : Real.exp (pm' (idx + 1)) ^ 2 * Real.exp (pm' (idx + 2)) =
        Real.exp (pm (idx + 1)) ^ 2 * Real.exp (pm (idx + 2)) := by
      rw [← Real.exp_nat_mul, ← Real.exp_nat_mul, ← Real.exp_add, ← Real.exp_add, h1, h2]
      congr 1
      push_cast
      ring
    have hE : -(1 / Real.exp (pm' (idx + 2))) * |a * d.t i - a * d.t j| =
        -(1 / Real.exp (pm (idx + 2))) * |d.t i - d.t j| := by
      rw [h2, Real.exp_add, Real.exp_log ha, ← mul_sub, abs_mul, abs_of_pos ha]
      have := (Real.exp_pos (pm (idx + 2))).ne'
      field_simp
    simp only [conCov, drwCov, LC.inUnit, hA, hE, h0]
    rfl
  obtain ⟨e, he⟩ := ht
  have hinj := trendMat_injective d.t d.n nq e he
  have e2 : trendMat (fun i => a * d.t i) d.n nq =
      trendMat d.t d.n nq * Matrix.diagonal fun j : Fin nq => a ^ (j : ℕ) := by
    ext i j
    rw [Matrix.mul_diagonal]
    simp only [trendMat]
    split
    · rename_i h; rw [h, pow_zero, mul_one]
    · rw [mul_pow, mul_comm]
  have hdet : (Matrix.diagonal fun j : Fin nq => a ^ (j : ℕ)).det = a ^ (∑ j ∈ Finset.range nq, j) := by
    rw [Matrix.det_diagonal, ← Finset.prod_pow_eq_pow_sum, Finset.prod_range]
  rw [e1, show trendMat (d.inUnit a).t (d.inUnit a).n nq = trendMat (fun i => a * d.t i) d.n nq from rfl, e2]
  refine Eq.trans (margLL_mul_det _ _ _ _ (by rw [hdet]; positivity)
    (trend_posDef (conCov_posDef hd) hinj).det_pos.ne') ?_
  rw [hdet, abs_of_pos (by positivity), Real.log_pow, unitConst]
  push_cast
  rfl

/-! ## Lines -/

/-- Two environments that describe the same model in the two units. -/
structure EnvInUnit (a : ℝ) (e e' : LineEnv) : Prop where
  nq : e'.nq = e.nq
  pars : ∀ k, InUnit0 a e.pm e'.pm (e.idxc k) (e'.idxc k) (e.idxl k) (e'.idxl k)
  K : ∀ k, (e.K k).SameIn a (e'.K k)

theorem line_trend {a : ℝ} (nq : ℕ) (l : List LC) (i : ℕ) (hi : i < totalN l) (j : ℕ)
    (hj : j < nq * (l.length)) :
    trendRow nq (l.map (LC.inUnit a)) 0 i j = trendRow nq l 0 i j * a ^ (j % nq) := by
  refine trendRow_inUnit nq a l i hi j ?_
  rcases Nat.eq_zero_or_pos nq with h0 | h0
  · rw [h0, zero_mul] at hj; omega
  · exact h0

theorem lineVal_inUnit {a : ℝ} (ha : 0 < a) {e e' : LineEnv} (he : EnvInUnit a e e') (k : ℕ) (d : DSet)
    (h2 : ∀ b ∈ d.series, EnoughTimes b e.nq) (h3 : (d.cov (e.K k) e.pm (e.idxc k) (e.idxl k)).PosDef) :
    margLL (lineCov e' k (d.inUnit a)) ((d.inUnit a).trend e'.nq) (fun i => (d.inUnit a).fall i) =
      margLL (lineCov e k d) (d.trend e.nq) (fun i => d.fall i) -
        (1 + d.line.length : ℕ) * unitConst e.nq * Real.log a ∧
    lineVal4 e' k (d.inUnit a) = lineVal4 e k d - (1 + d.line.length : ℕ) * unitConst e.nq * Real.log a ∧
    ((d.inUnit a).cov (e'.K k) e'.pm (e'.idxc k) (e'.idxl k)).PosDef := by
  have hlen : (d.inUnit a).line.length = d.line.length := by simp [DSet.inUnit]
  have hser : (d.inUnit a).series = d.series.map (LC.inUnit a) := rfl
  have hsl : d.series.length = 1 + d.line.length := by simp only [DSet.series, List.length_cons, add_comm 1]
  have hs := pmSigma_pos e.pm (e.idxc k)
  have hinj := trend_injective d e.nq h2
  have hcov : ∀ i < totalN d.series, ∀ j < totalN d.series,
      covEntry (e'.K k) (d.inUnit a) e'.pm (e'.idxc k) (e'.idxl k) (locate (d.inUnit a).series i)
        (locate (d.inUnit a).series j) =
      covEntry (e.K k) d e.pm (e.idxc k) (e.idxl k) (locate d.series i) (locate d.series j) := by
    intro i hi j hj
    rw [hser, locate_inUnit]
    exact covEntry_inUnit ha (he.K k) d (he.pars k) _ _ (locate_series_lt _ _ hi) (locate_series_lt _ _ hj)
  have hq : e'.nq * (1 + (d.inUnit a).line.length) = e.nq * (1 + d.line.length) := by rw [he.nq, hlen]
  have hL : ∀ i < totalN d.series, ∀ j < e.nq * (1 + d.line.length),
      trendRow e'.nq (d.inUnit a).series 0 i j = trendRow e.nq d.series 0 i j * a ^ (j % e.nq) := by
    intro i hi j hj
    rw [hser, he.nq]
    exact line_trend e.nq d.series i hi j (by rw [hsl]; exact hj)
  have hm : margLL (lineCov e' k (d.inUnit a)) ((d.inUnit a).trend e'.nq) (fun i => (d.inUnit a).fall i) =
      margLL (lineCov e k d) (d.trend e.nq) (fun i => d.fall i) -
        (1 + d.line.length : ℕ) * unitConst e.nq * Real.log a := by
    rw [margLLN_line, margLLN_line, hser, concat_inUnit]
    refine margLLN_pow ha (totalN_inUnit a d.series) hq rfl ?_ hL ?_
    · intro i hi j hj
      rw [(he.pars k).sigma]
      exact congrArg _ (hcov i hi j hj)
    · exact (trend_posDef (C := lineCov e k d) (L := d.trend e.nq) (h3.smul (by positivity)) hinj).det_pos.ne'
  refine ⟨hm, ?_, ?_⟩
  · unfold lineVal4
    by_cases hl : d.line.length = 0
    · rw [if_pos (hlen.trans hl), if_pos hl, (he.pars k).sigma]
      refine Eq.trans ?_ (margInv_pow (n := d.nall) (n' := (d.inUnit a).nall) (q := e.nq * (1 + d.line.length))
        (q' := e'.nq * (1 + (d.inUnit a).line.length)) (nq := e.nq) (m := 1 + d.line.length) (a := a)
        (C := fun p q => covEntry (e.K k) d e.pm (e.idxc k) (e.idxl k) (locate d.series p) (locate d.series q))
        (C' := fun p q => covEntry (e'.K k) (d.inUnit a) e'.pm (e'.idxc k) (e'.idxl k) (locate (d.inUnit a).series p)
          (locate (d.inUnit a).series q)) (L := trendRow e.nq d.series 0) (L' := trendRow e'.nq (d.inUnit a).series 0)
        (f := concat LC.f d.series)
        (pmSigma e.pm (e.idxc k) * pmSigma e.pm (e.idxc k)) ha (totalN_inUnit a d.series) hq rfl hcov hL ?_)
      · congr 2
        funext i
        exact congrFun (concat_inUnit a d.series) i
      · exact (trend_posDef (C := (pmSigma e.pm (e.idxc k) * pmSigma e.pm (e.idxc k)) •
          (d.cov (e.K k) e.pm (e.idxc k) (e.idxl k))⁻¹) (L := d.trend e.nq) (h3.inv.smul (by positivity)) hinj).det_pos.ne'
    · rw [if_neg (fun h0 => hl (hlen.symm.trans h0)), if_neg hl]
      exact hm
  · exact posDef_congr d.nall (d.inUnit a).nall
      (fun p q => covEntry (e.K k) d e.pm (e.idxc k) (e.idxl k) (locate d.series p) (locate d.series q))
      (fun p q => covEntry (e'.K k) (d.inUnit a) e'.pm (e'.idxc k) (e'.idxl k) (locate (d.inUnit a).series p)
        (locate (d.inUnit a).series q)) (totalN_inUnit a d.series) hcov h3

/-! ## Without continuum -/

theorem vVal_inUnit {a : ℝ} (ha : 0 < a) {e e' : LineEnv} (hnq : e'.nq = e.nq) (hK : ∀ k, (e.K k).SameIn a (e'.K k))
    (k : ℕ) (ls : List LC) (hsig : e'.pm (e'.idxc k + 1) = e.pm (e.idxc k + 1))
    (htau : e'.pm (e'.idxc k + 2) = e.pm (e.idxc k + 2) + Real.log a)
    (hsys : ∀ j, e'.pm (e'.idxl k j) = e.pm (e.idxl k j))
    (h2 : ∀ b ∈ ls, EnoughTimes b e.nq) (h3 : (vmapCov e k ls).PosDef) :
    margLL (vmapCov e' k (ls.map (LC.inUnit a))) (vTrend e'.nq (ls.map (LC.inUnit a))) (vFall (ls.map (LC.inUnit a))) =
      margLL (vmapCov e k ls) (vTrend e.nq ls) (vFall ls) - ls.length * unitConst e.nq * Real.log a ∧
    vVal4 e' k (ls.map (LC.inUnit a)) = vVal4 e k ls - ls.length * unitConst e.nq * Real.log a ∧
    (vmapCov e' k (ls.map (LC.inUnit a))).PosDef := by
  have hs := vSigma_pos e.pm (e.idxc k)
  have hse : vSigma e'.pm (e'.idxc k) = vSigma e.pm (e.idxc k) := by simp only [vSigma, hsig]
  have hlen : (ls.map (LC.inUnit a)).length = ls.length := List.length_map ..
  have hp : InUnit0 a (vPm e.pm (e.idxc k) (e.idxl k)) (vPm e'.pm (e'.idxc k) (e'.idxl k)) 0 0 (fun j => j + 3)
      (fun j => j + 3) :=
    ⟨rfl, by rw [vPm_sigma, vPm_sigma, hse], by
      simp only [pmTau, vPm, htau, Real.exp_add, Real.exp_log ha, mul_comm], hsys⟩
  have hcov : ∀ i < totalN ls, ∀ j < totalN ls,
      vEntry e' k (ls.map (LC.inUnit a)) i j = vEntry e k ls i j := by
    intro i hi j hj
    unfold vEntry
    rw [locate_inUnit]
    have h1 := locate_series_lt ls i hi
    have h2 := locate_series_lt ls j hj
    rw [← covEntry_inUnit ha (hK k) (vSet ls) hp _ _ (by simpa [DSet.series, vSet] using h1)
      (by simpa [DSet.series, vSet] using h2)]
    congr 1
    simp [DSet.inUnit, vSet, LC.inUnit]
  have hL : ∀ i < totalN ls, ∀ j < e.nq * ls.length,
      trendRow e'.nq (ls.map (LC.inUnit a)) 0 i j = trendRow e.nq ls 0 i j * a ^ (j % e.nq) := by
    intro i hi j hj
    rw [hnq]
    exact line_trend e.nq ls i hi j hj
  have hf : vFall (ls.map (LC.inUnit a)) = fun i : Fin (totalN (ls.map (LC.inUnit a))) => concat LC.f ls i := by
    funext i
    exact congrFun (concat_inUnit a ls) i
  have hinj := vTrend_injective e.nq ls h2
  have hPC := vPC_posDef h3
  have hm : margLL (vmapCov e' k (ls.map (LC.inUnit a))) (vTrend e'.nq (ls.map (LC.inUnit a))) (vFall (ls.map (LC.inUnit a))) =
      margLL (vmapCov e k ls) (vTrend e.nq ls) (vFall ls) - ls.length * unitConst e.nq * Real.log a := by
    have hd := (trend_posDef h3 hinj).det_pos.ne'
    rw [← vPC_cov, vPC_eq] at hd
    rw [← vPC_cov, ← vPC_cov, vPC_eq, vPC_eq, hf, hse]
    exact margLLN_pow (n := totalN ls) (q := e.nq * ls.length)
      (C := fun i j => vSigma e.pm (e.idxc k) * vSigma e.pm (e.idxc k) * vEntry e k ls i j)
      (C' := fun i j => vSigma e.pm (e.idxc k) * vSigma e.pm (e.idxc k) * vEntry e' k (ls.map (LC.inUnit a)) i j)
      (L := trendRow e.nq ls 0)
      (L' := trendRow e'.nq (ls.map (LC.inUnit a)) 0) (f := concat LC.f ls) ha (totalN_inUnit a ls) (by rw [hlen, hnq]) rfl
      (fun i hi j hj => congrArg _ (hcov i hi j hj)) hL hd
  refine ⟨hm, ?_, ?_⟩
  · unfold vVal4
    simp only
    by_cases hl : ls.length = 1
    · rw [if_pos (hlen.trans hl), if_pos hl, hf, hse]
      have hd := (trend_posDef (C := (vSigma e.pm (e.idxc k) * vSigma e.pm (e.idxc k)) •
        (vPC (e.K k) e.pm (e.idxc k) (e.idxl k) ls e.mem)⁻¹) (hPC.inv.smul (by positivity)) hinj).det_pos.ne'
      rw [vPC_eq] at hd
      rw [vPC_eq, vPC_eq]
      exact margInv_pow (L := trendRow e.nq ls 0) (L' := trendRow e'.nq (ls.map (LC.inUnit a)) 0) (f := concat LC.f ls)
        _ ha (totalN_inUnit a ls) (by rw [hlen, hnq]) rfl hcov hL hd
    · rw [if_neg (fun h0 => hl (hlen.symm.trans h0)), if_neg hl, vPC_cov, vPC_cov]
      exact hm
  · rw [← vPC_cov, vPC_eq] at h3 ⊢
    refine posDef_congr _ _ (fun i j => vSigma e.pm (e.idxc k) * vSigma e.pm (e.idxc k) * vEntry e k ls i j)
        (fun i j => vSigma e'.pm (e'.idxc k) * vSigma e'.pm (e'.idxc k) * vEntry e' k (ls.map (LC.inUnit a)) i j)
        (totalN_inUnit _ ls) (fun i hi j hj => ?_) h3
    rw [hcov i hi j hj, hse]

end Mica
