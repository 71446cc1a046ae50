import Verif.Spec.Defaults
import Verif.Proof.Invariance6
import Verif.Proof.Invariance7
import Verif.Proof.InitLaw
import Mathlib.MeasureTheory.Function.Jacobian

/-! # Helper lemmas for C123 -/

open MeasureTheory Set
open scoped ENNReal

namespace Mica

variable {n : ℕ}

/-! ## Moves -/

theorem defTerm_eq (c : DefCfg n) (i : Fin n) (x : ℝ) : defTerm c i x = c.logDensity i x := by
  unfold defTerm DefCfg.logDensity
  cases c.ptype i with
  | uniform => rfl
  | log => rfl
  | gaussian =>
    simp only
    rw [div_pow, ← neg_mul_eq_neg_mul, neg_inj]
    by_cases h : c.sd i = 0
    · simp [h]
    · field_simp
      norm_num
      ring

theorem measurable_logDensity (c : DefCfg n) (i : Fin n) : Measurable (c.logDensity i) := by
  unfold DefCfg.logDensity
  cases c.ptype i with
  | uniform => exact measurable_const
  | log => exact Real.measurable_log.neg
  | gaussian => simp only; fun_prop

/-- The density of all parameters together. -/
noncomputable def DefCfg.rho (c : DefCfg n) (y : Fin n → ℝ) : ℝ := ∑ i, c.logDensity i (y i)

theorem measurable_rho (c : DefCfg n) : Measurable c.rho :=
  Finset.measurable_sum _ fun i _ => (measurable_logDensity c i).comp (measurable_pi_apply i)

theorem rho_update (c : DefCfg n) (y : Fin n → ℝ) (w : Fin n) (t : ℝ) :
    c.rho (Function.update y w t) - c.rho y = c.logDensity w t - c.logDensity w (y w) := by
  unfold DefCfg.rho
  rw [← Finset.add_sum_erase Finset.univ (fun i => c.logDensity i (Function.update y w t i)) (Finset.mem_univ w),
    ← Finset.add_sum_erase Finset.univ (fun i => c.logDensity i (y i)) (Finset.mem_univ w), Function.update_self]
  have : ∑ x ∈ Finset.univ.erase w, c.logDensity x (Function.update y w t x) =
      ∑ x ∈ Finset.univ.erase w, c.logDensity x (y x) :=
    Finset.sum_congr rfl fun i hi => by rw [Function.update_of_ne (Finset.ne_of_mem_erase hi)]
  rw [this]; ring

theorem def_sigma (c : DefCfg n) (i : Fin n) :
    SigmaFinite ((volume.restrict (Ico (c.lo i) (c.hi i))).withDensity
      fun x => ENNReal.ofReal (Real.exp (c.logDensity i x))) :=
  SigmaFinite.withDensity_of_ne_top (Filter.Eventually.of_forall fun _ => ENNReal.ofReal_ne_top)

theorem prior_density (c : DefCfg n) :
    c.prior = (Measure.pi fun i => volume.restrict (Ico (c.lo i) (c.hi i))).withDensity
      fun y => ENNReal.ofReal (Real.exp (c.rho y)) := by
  unfold DefCfg.prior
  rw [← pi_withDensity (fun i => volume.restrict (Ico (c.lo i) (c.hi i))) (fun i => inferInstance)
    (fun i x => ENNReal.ofReal (Real.exp (c.logDensity i x)))
    (fun i => ENNReal.measurable_ofReal.comp (Real.measurable_exp.comp (measurable_logDensity c i))) (def_sigma c)]
  congr 1
  funext y
  rw [DefCfg.rho, Real.exp_sum, ENNReal.ofReal_prod_of_nonneg fun i _ => (Real.exp_pos _).le]

theorem defWidth_below (c : DefCfg n) (limit : Bool) (cands : List (Fin n)) (h : ℝ) (lv : ℕ) (size : ℤ)
    (lim lim' : ℤ → Fin n → ℝ × ℝ) (hl : ∀ l : ℤ, 0 ≤ l → l < lv → lim l = lim' l) (w : Fin n) :
    defWidth c limit ⟨cands, h, lv, size, lim⟩ w = defWidth c limit ⟨cands, h, lv, size, lim'⟩ w := by
  unfold defWidth
  dsimp only
  generalize hwl : (if (lv : ℤ) - 5 > size - 15 then size - 15 else (lv : ℤ) - 5) = wl
  cases limit
  · rfl
  · rw [if_pos rfl, if_pos rfl]
    by_cases hp : wl > 0
    · have hle : wl ≤ lv := by rw [← hwl]; split <;> omega
      rw [if_pos hp, if_pos hp, hl (wl - 1) (by omega) (by omega)]
    · rw [if_neg hp, if_neg hp]

theorem def_keeps (c : DefCfg n) (limit : Bool) (w : Fin n) (ws : List (Fin n)) (hlt : c.lo w < c.hi w)
    (η : Measure ℝ) [IsProbabilityMeasure η] (hη : η.map (fun h => -h) = η) :
    Keeps (defPerturb c limit) c.prior η (w :: ws) := by
  classical
  have hval : ∀ h lv size lim x, defPerturb c limit ⟨w :: ws, h, lv, size, lim⟩ x =
      .ok (movedVec w (fun _ => c.lo w) (fun _ => c.hi w)
        (defWidth c limit ⟨w :: ws, 0, lv, size, lim⟩ w) (x, h),
        c.rho (movedVec w (fun _ => c.lo w) (fun _ => c.hi w)
          (defWidth c limit ⟨w :: ws, 0, lv, size, lim⟩ w) (x, h)) - c.rho x) := by
    intro h lv size lim x
    have hw : defWidth c limit ⟨w :: ws, h, lv, size, lim⟩ w = defWidth c limit ⟨w :: ws, 0, lv, size, lim⟩ w := rfl
    unfold defPerturb
    simp only [movedVec]
    rw [hw, dnestWrap_fold hlt, Res.ok_bind, Res.pure_eq, rho_update, defTerm_eq, defTerm_eq, zero_sub,
      neg_add_eq_sub]
  constructor
  · intro h lv size lim lim' x hl
    rw [hval, hval, defWidth_below c limit (w :: ws) 0 lv size lim lim' hl w]
  · intro size lim
    have hmv : ∀ lv : ℕ, Measurable (movedVec w (fun _ => c.lo w) (fun _ => c.hi w)
      (defWidth c limit ⟨w :: ws, 0, lv, size, lim⟩ w)) :=
      fun lv => measurable_movedVec w measurable_const measurable_const _
    refine ⟨fun lv => movedVec w (fun _ => c.lo w) (fun _ => c.hi w)
      (defWidth c limit ⟨w :: ws, 0, lv, size, lim⟩ w), fun lv p => c.rho (movedVec w (fun _ => c.lo w)
        (fun _ => c.hi w) (defWidth c limit ⟨w :: ws, 0, lv, size, lim⟩ w) p) - c.rho p.1,
      hmv, fun lv => ((measurable_rho c).comp (hmv lv)).sub ((measurable_rho c).comp measurable_fst),
      ae_of_all _ fun x lv h => hval h lv size lim x, ?_⟩
    intro lv L hL thr g hg
    have hρ : Measurable fun y => ENNReal.ofReal (Real.exp (c.rho y)) :=
      ENNReal.measurable_ofReal.comp (Real.measurable_exp.comp (measurable_rho c))
    have := pi_metropolis (fun i => volume.restrict (Ico (c.lo i) (c.hi i))) w (fun _ => c.lo w)
      (fun _ => c.hi w) measurable_const measurable_const (fun _ _ => rfl) (fun _ _ => rfl)
      (defWidth c limit ⟨w :: ws, 0, lv, size, lim⟩ w) η hη (fun y => ENNReal.ofReal (Real.exp (c.rho y))) hρ
      (fun p => c.rho p.2 - c.rho p.1)
      (((measurable_rho c).comp measurable_snd).sub ((measurable_rho c).comp measurable_fst))
      (fun y t _ q _ => by
        rw [← ENNReal.ofReal_mul (Real.exp_pos _).le, ← ENNReal.ofReal_mul (Real.exp_pos _).le, ← Real.exp_add,
          ← Real.exp_add]
        congr 2
        simp only
        rcases le_total (c.rho (Function.update y w t)) (c.rho (Function.update y w q)) with h | h
        · rw [min_eq_left (by linarith), min_eq_right (by linarith)]; ring
        · rw [min_eq_right (by linarith), min_eq_left (by linarith)]; ring)
      (fun y G => rfl) {x | thr < L x} (measurableSet_above hL thr) g hg
    have hmeas : Measurable fun x => ∫⁻ r, g (newPar L thr (movedVec w (fun _ => c.lo w) (fun _ => c.hi w)
        (defWidth c limit ⟨w :: ws, 0, lv, size, lim⟩ w)) (fun p => c.rho (movedVec w (fun _ => c.lo w)
        (fun _ => c.hi w) (defWidth c limit ⟨w :: ws, 0, lv, size, lim⟩ w) p) - c.rho p.1) x r) ∂η.prod unif :=
      (hg.comp (measurable_newPar hL thr (hmv lv) (((measurable_rho c).comp (hmv lv)).sub
        ((measurable_rho c).comp measurable_fst)))).lintegral_prod_right'
    rw [prior_density, lintegral_withDensity_eq_lintegral_mul _ hρ (hmeas.indicator (measurableSet_above hL thr)),
      lintegral_withDensity_eq_lintegral_mul _ hρ (hg.indicator (measurableSet_above hL thr))]
    exact this

/-! ## First particles -/

/-- The draw of one parameter as a function. -/
noncomputable def defOne (c : DefCfg n) (i : Fin n) (r : ℝ × ℝ) : ℝ :=
  match c.ptype i with
  | .gaussian => folded (c.lo i) (c.hi i) (r.2 * c.sd i + c.mean i)
  | .log => Real.exp (Real.log (c.lo i) + r.1 * (Real.log (c.hi i) - Real.log (c.lo i)))
  | .uniform => c.lo i + r.1 * (c.hi i - c.lo i)

theorem defDraw_one (c : DefCfg n) (i : Fin n) (h : c.lo i < c.hi i) (r : ℝ × ℝ) :
    defDraw c i r.1 r.2 = .ok (defOne c i r) := by
  unfold defDraw defOne
  cases c.ptype i with
  | uniform => rfl
  | log => rfl
  | gaussian => exact dnestWrap_folded h _

theorem measurable_defOne (c : DefCfg n) (i : Fin n) : Measurable (defOne c i) := by
  unfold defOne
  cases c.ptype i with
  | uniform => simp only; fun_prop
  | log => simp only; fun_prop
  | gaussian => exact (measurable_folded _ _).comp (by fun_prop)

theorem defFromPrior_eq (c : DefCfg n) (h : ∀ i, c.lo i < c.hi i) (mem : Fin n → ℝ) (r : Fin n → ℝ × ℝ) (k : ℕ) :
    defFromPrior c r mem k = .ok fun i => if (i : ℕ) < k then defOne c i (r i) else mem i := by
  induction k with
  | zero => simp [defFromPrior]
  | succ k ih =>
    rw [defFromPrior, ih, Res.ok_bind]
    by_cases hk : k < n
    · rw [dif_pos hk, defDraw_one c _ (h _), Res.ok_bind, Res.pure_eq]
      congr 1
      funext i
      by_cases hi : i = ⟨k, hk⟩
      · subst hi
        rw [Function.update_self, if_pos (Nat.lt_succ_self k)]
      · rw [Function.update_of_ne hi]
        have : (i : ℕ) ≠ k := fun he => hi (Fin.ext he)
        by_cases hlt : (i : ℕ) < k
        · rw [if_pos hlt, if_pos (by omega)]
        · rw [if_neg hlt, if_neg (by omega)]
    · rw [dif_neg hk, Res.pure_eq]
      congr 1
      funext i
      rw [if_pos (by omega), if_pos (by omega)]

theorem start_eq (c : DefCfg n) (h : ∀ i, c.lo i < c.hi i) (mem : Fin n → ℝ) (r : Fin n → ℝ × ℝ) :
    c.start mem r = fun i => defOne c i (r i) := by
  unfold DefCfg.start
  rw [defFromPrior_eq c h]
  funext i
  exact if_pos i.2

/-- The law of one parameter. -/
noncomputable def defLaw (c : DefCfg n) (i : Fin n) : Measure ℝ :=
  (unif.prod (ProbabilityTheory.gaussianReal 0 1)).map (defOne c i)

instance (c : DefCfg n) (i : Fin n) : IsProbabilityMeasure (defLaw c i) :=
  Measure.isProbabilityMeasure_map (measurable_defOne c i).aemeasurable

theorem def_startLaw_pi (c : DefCfg n) (h : ∀ i, c.lo i < c.hi i) (mem : Fin n → ℝ) :
    c.startLaw mem = Measure.pi fun i => defLaw c i := by
  unfold DefCfg.startLaw
  rw [show c.start mem = fun r i => defOne c i (r i) from funext fun r => start_eq c h mem r]
  have : ∀ i : Fin n, SigmaFinite ((unif.prod (ProbabilityTheory.gaussianReal 0 1)).map (defOne c i)) := fun i => by
    change SigmaFinite (defLaw c i); infer_instance
  exact Measure.pi_map_pi (μ := fun _ : Fin n => unif.prod (ProbabilityTheory.gaussianReal 0 1))
    (f := fun i : Fin n => defOne c i) fun i => (measurable_defOne c i).aemeasurable

/-- The exponential of a uniform number has density `1/x`. -/
theorem map_exp_restrict (a b : ℝ) :
    ((volume : Measure ℝ).restrict (Ico a b)).map Real.exp =
      (volume.restrict (Ico (Real.exp a) (Real.exp b))).withDensity fun x => ENNReal.ofReal (Real.exp (-Real.log x)) := by
  ext A hA
  rw [Measure.map_apply Real.measurable_exp hA, Measure.restrict_apply (Real.measurable_exp hA),
    withDensity_apply _ hA, Measure.restrict_restrict hA]
  have himg : A ∩ Ico (Real.exp a) (Real.exp b) = Real.exp '' (Real.exp ⁻¹' A ∩ Ico a b) := by
    ext x
    constructor
    · rintro ⟨h1, h2, h3⟩
      have hx : 0 < x := lt_of_lt_of_le (Real.exp_pos a) h2
      refine ⟨Real.log x, ⟨by rw [mem_preimage, Real.exp_log hx]; exact h1, ?_, ?_⟩, Real.exp_log hx⟩
      · rwa [Real.le_log_iff_exp_le hx]
      · rwa [Real.log_lt_iff_lt_exp hx]
    · rintro ⟨t, ⟨h1, h2, h3⟩, rfl⟩
      exact ⟨h1, Real.exp_le_exp.2 h2, Real.exp_lt_exp.2 h3⟩
  rw [himg, lintegral_image_eq_lintegral_abs_deriv_mul ((Real.measurable_exp hA).inter measurableSet_Ico)
    (fun x _ => (Real.hasDerivAt_exp x).hasDerivWithinAt) Real.exp_injective.injOn]
  have : ∀ x : ℝ, ENNReal.ofReal |Real.exp x| * ENNReal.ofReal (Real.exp (-Real.log (Real.exp x))) = 1 := by
    intro x
    rw [abs_of_pos (Real.exp_pos x), ← ENNReal.ofReal_mul (Real.exp_pos x).le, Real.log_exp, ← Real.exp_add]
    simp
  simp only [this]
  rw [setLIntegral_one]

theorem defLaw_flat (c : DefCfg n) (i : Fin n) (hlt : c.lo i < c.hi i) (hpos : c.ptype i = .log → 0 < c.lo i)
    (hg : c.ptype i ≠ .gaussian) : ∃ k : ℝ≥0∞, k ≠ ∞ ∧ defLaw c i =
      k • (volume.restrict (Ico (c.lo i) (c.hi i))).withDensity fun x => ENNReal.ofReal (Real.exp (c.logDensity i x)) := by
  cases ht : c.ptype i with
  | gaussian => exact absurd ht hg
  | uniform =>
    refine ⟨(ENNReal.ofReal (c.hi i - c.lo i))⁻¹, ?_, ?_⟩
    · simpa using sub_pos.2 hlt
    · have h1 : defOne c i = (fun u => c.lo i + u * (c.hi i - c.lo i)) ∘ Prod.fst := by
        funext r; simp [defOne, ht]
      have h2 : (fun x => ENNReal.ofReal (Real.exp (c.logDensity i x))) = 1 := by
        funext x; simp [DefCfg.logDensity, ht]
      unfold defLaw
      rw [h1, ← Measure.map_map (by fun_prop) measurable_fst, Measure.map_fst_prod, h2, withDensity_one]
      simp only [measure_univ, one_smul]
      exact map_unif hlt
  | log =>
    have h0 := hpos ht
    have hll : Real.log (c.lo i) < Real.log (c.hi i) := Real.log_lt_log h0 hlt
    refine ⟨(ENNReal.ofReal (Real.log (c.hi i) - Real.log (c.lo i)))⁻¹, ?_, ?_⟩
    · simpa using sub_pos.2 hll
    · have h1 : defOne c i = Real.exp ∘ (fun u => Real.log (c.lo i) + u * (Real.log (c.hi i) - Real.log (c.lo i))) ∘
          Prod.fst := by
        funext r; simp [defOne, ht]
      have h2 : (fun x => ENNReal.ofReal (Real.exp (c.logDensity i x))) =
          fun x => ENNReal.ofReal (Real.exp (-Real.log x)) := by
        funext x; simp [DefCfg.logDensity, ht]
      unfold defLaw
      rw [h1, ← Measure.map_map Real.measurable_exp (by fun_prop), ← Measure.map_map (by fun_prop) measurable_fst,
        Measure.map_fst_prod, h2]
      simp only [measure_univ, one_smul]
      rw [map_unif hll, Measure.map_smul, map_exp_restrict, Real.exp_log h0, Real.exp_log (h0.trans hlt)]

end Mica
