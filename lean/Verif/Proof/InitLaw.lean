import Verif.Spec.InitLaw
import Mathlib.MeasureTheory.Function.Floor
import Mathlib.MeasureTheory.Measure.Lebesgue.EqHaar

/-! # Laws of initial draws -/

open MeasureTheory Set
open scoped ENNReal

namespace Mica

instance : IsProbabilityMeasure unif := ⟨by simp [unif]⟩

/-- A uniform number scaled to a range. -/
theorem map_unif {lo hi : ℝ} (h : lo < hi) :
    unif.map (fun u => lo + u * (hi - lo)) = (ENNReal.ofReal (hi - lo))⁻¹ • volume.restrict (Ico lo hi) := by
  have hp : 0 < hi - lo := sub_pos.2 h
  have hm : Measurable fun u : ℝ => lo + u * (hi - lo) := by fun_prop
  have e1 : (volume : Measure ℝ).map (fun u => lo + u * (hi - lo)) = (ENNReal.ofReal (hi - lo))⁻¹ • volume := by
    have : (fun u : ℝ => lo + u * (hi - lo)) = (fun x => lo + x) ∘ (fun u => u * (hi - lo)) := rfl
    rw [this, ← Measure.map_map (by fun_prop) (by fun_prop), Real.map_volume_mul_right hp.ne', Measure.map_smul,
      map_add_left_eq_self, abs_of_pos (inv_pos.2 hp), ENNReal.ofReal_inv_of_pos hp]
  have e2 : (fun u : ℝ => lo + u * (hi - lo)) ⁻¹' Ico lo hi = Ico 0 1 := by
    ext u
    simp only [mem_preimage, mem_Ico]
    constructor
    · rintro ⟨h1, h2⟩
      exact ⟨by by_contra hc; nlinarith [not_le.1 hc], by by_contra hc; nlinarith [not_lt.1 hc]⟩
    · rintro ⟨h1, h2⟩
      exact ⟨by nlinarith, by nlinarith⟩
  unfold unif
  rw [← e2, ← Measure.restrict_map hm measurableSet_Ico, e1, Measure.restrict_smul]

/-- Integral of a product of functions of one coordinate each. -/
theorem lintegral_pi_prod : ∀ (n : ℕ) (μ : Fin n → Measure ℝ) (_ : ∀ i, SigmaFinite (μ i)) (f : Fin n → ℝ → ℝ≥0∞)
    (_ : ∀ i, Measurable (f i)), ∫⁻ x, ∏ i, f i (x i) ∂Measure.pi μ = ∏ i, ∫⁻ t, f i t ∂μ i := by
  intro n
  induction n with
  | zero =>
    intro μ _ f hf
    simp
  | succ n ih =>
    intro μ hμ f hf
    have hp := measurePreserving_piFinSuccAbove μ 0
    rw [← hp.symm.lintegral_comp_emb (MeasurableEquiv.measurableEmbedding _)]
    have : ∀ p : ℝ × (Fin n → ℝ), ∏ i, f i ((MeasurableEquiv.piFinSuccAbove (fun _ => ℝ) 0).symm p i) =
        f 0 p.1 * ∏ i : Fin n, f i.succ (p.2 i) := by
      intro p
      rw [Fin.prod_univ_succ]
      rfl
    simp only [this]
    rw [lintegral_prod_mul (g := fun y : Fin n → ℝ => ∏ i : Fin n, f i.succ (y i)) (hf 0).aemeasurable
      (Finset.measurable_prod _ fun i _ => (hf i.succ).comp (measurable_pi_apply i)).aemeasurable, Fin.prod_univ_succ]
    congr 1
    exact ih (fun i => μ i.succ) (fun i => hμ _) (fun i => f i.succ) (fun i => hf _)

theorem pi_withDensity {n : ℕ} (μ : Fin n → Measure ℝ) (hμ : ∀ i, SigmaFinite (μ i)) (f : Fin n → ℝ → ℝ≥0∞)
    (hf : ∀ i, Measurable (f i)) (hs : ∀ i, SigmaFinite ((μ i).withDensity (f i))) :
    (Measure.pi μ).withDensity (fun x => ∏ i, f i (x i)) = Measure.pi fun i => (μ i).withDensity (f i) := by
  symm
  apply Measure.pi_eq
  intro s hs
  rw [withDensity_apply _ (MeasurableSet.univ_pi hs), ← lintegral_indicator (MeasurableSet.univ_pi hs)]
  have : ∀ x : Fin n → ℝ, (univ.pi s).indicator (fun x => ∏ i, f i (x i)) x = ∏ i, (s i).indicator (f i) (x i) := by
    intro x
    by_cases hx : x ∈ univ.pi s
    · rw [indicator_of_mem hx]
      exact Finset.prod_congr rfl fun i _ => (indicator_of_mem (hx i (mem_univ i)) _).symm
    · rw [indicator_of_notMem hx]
      simp only [mem_univ_pi, not_forall] at hx
      obtain ⟨i, hi⟩ := hx
      exact (Finset.prod_eq_zero (Finset.mem_univ i) (indicator_of_notMem hi _)).symm
  simp only [this]
  rw [lintegral_pi_prod n μ hμ _ fun i => (hf i).indicator (hs i)]
  refine Finset.prod_congr rfl fun i _ => ?_
  rw [lintegral_indicator (hs i), withDensity_apply _ (hs i)]

/-- Constants in front of the factors. -/
theorem pi_smul {n : ℕ} (μ : Fin n → Measure ℝ) (hμ : ∀ i, IsFiniteMeasure (μ i)) (k : Fin n → ℝ≥0∞) (hk : ∀ i, k i ≠ ∞) :
    Measure.pi (fun i => k i • μ i) = (∏ i, k i) • Measure.pi μ := by
  have hs : ∀ i, IsFiniteMeasure (k i • μ i) := fun i => Measure.smul_finite (μ i) (hk i)
  apply Measure.pi_eq
  intro s hs
  simp [Measure.pi_pi, Finset.prod_mul_distrib]

theorem eq_normalised {α : Type} [MeasurableSpace α] {P μ : Measure α} [IsProbabilityMeasure P] {k : ℝ≥0∞} (h : P = k • μ) :
    P = normalised μ := by
  have h1 : k * μ univ = 1 := by
    have := congrArg (fun m => m univ) h
    simpa using this.symm
  unfold normalised
  rw [← ENNReal.eq_inv_of_mul_eq_one_left h1]
  exact h

/-! ## One parameter of the line model -/

/-- A number folded into a range. -/
noncomputable def folded (lo hi x : ℝ) : ℝ := Int.fract ((x - lo) / (hi - lo)) * (hi - lo) + lo

theorem dnestWrap_folded {lo hi : ℝ} (h : lo < hi) (x : ℝ) : dnestWrap x lo hi = .ok (folded lo hi x) := by
  unfold dnestWrap cmod folded
  rw [if_pos (sub_pos.2 h), Res.ok_bind]
  rfl

theorem measurable_folded (lo hi : ℝ) : Measurable (folded lo hi) := by
  unfold folded
  exact ((measurable_fract.comp (by fun_prop : Measurable fun x : ℝ => (x - lo) / (hi - lo))).mul_const _).add_const _

/-- The draw of one parameter. -/
noncomputable def drawOne (c : LineCfg) (i : ℕ) (r : ℝ × ℝ) : ℝ :=
  match c.fix i with
  | some v => v
  | none => if i < c.numVar then folded (c.rng i).1 (c.rng i).2 (r.2 * ((c.rng i).2 - (c.rng i).1))
    else (c.rng i).1 + r.1 * ((c.rng i).2 - (c.rng i).1)

theorem measurable_drawOne (c : LineCfg) (i : ℕ) : Measurable (drawOne c i) := by
  unfold drawOne
  split
  · exact measurable_const
  · split
    · exact (measurable_folded _ _).comp (by fun_prop)
    · fun_prop

theorem drawVar_folded (c : LineCfg) (d : LineDraw) (mem : ℕ → ℝ) (n : ℕ) (hr : ∀ i < n, (c.rng i).1 < (c.rng i).2) :
    ∃ pm, c.drawVar d n mem = .ok pm ∧
      ∀ i < n, pm i = folded (c.rng i).1 (c.rng i).2 (d.z i * ((c.rng i).2 - (c.rng i).1)) := by
  induction n with
  | zero => exact ⟨mem, rfl, by simp⟩
  | succ n ih =>
    obtain ⟨pm, h1, h2⟩ := ih fun i hi => hr i (by omega)
    refine ⟨Function.update pm n (folded (c.rng n).1 (c.rng n).2 (d.z n * ((c.rng n).2 - (c.rng n).1))), ?_, ?_⟩
    · rw [LineCfg.drawVar, h1, Res.ok_bind, dnestWrap_folded (hr n (by omega)), Res.ok_bind]; rfl
    · intro i hi
      by_cases he : i = n
      · subst he; rw [Function.update_self]
      · rw [Function.update_of_ne he]; exact h2 i (by omega)

theorem startVec_eq (c : LineCfg) (ho : c.ordered = false) (hpos : c.posivity = false) (huni : c.uniTf ≠ 2)
    (hr : ∀ i < c.numVar, (c.rng i).1 < (c.rng i).2) (mem : ℕ → ℝ) (v : ℕ → ℕ → ℝ × ℝ) (r : Fin c.numParams → ℝ × ℝ) :
    startVec c mem v r = fun i : Fin c.numParams => drawOne c i (r i) := by
  obtain ⟨pm, h1, h2⟩ := drawVar_folded c (drawOf v r) mem c.numVar hr
  have hf : c.fromPrior (drawOf v r) mem = .ok (c.putFixed (c.drawLine (drawOf v r) pm)) := by
    unfold LineCfg.fromPrior LineCfg.share LineCfg.posAll LineCfg.sortAll
    rw [h1, Res.ok_bind, hpos, ho, if_neg huni]
    rfl
  unfold startVec
  rw [hf]
  funext i
  show c.putFixed (c.drawLine (drawOf v r) pm) i = _
  unfold LineCfg.putFixed drawOne
  cases c.fix i with
  | some v => rfl
  | none =>
    simp only [LineCfg.drawLine]
    by_cases hi : (i : ℕ) < c.numVar
    · rw [if_neg (by omega), if_pos hi, h2 i hi]
      simp [drawOf, extendVec]
    · rw [if_pos ⟨by omega, i.2⟩, if_neg hi]
      simp [drawOf, extendVec]

/-- The law of one parameter. -/
noncomputable def oneLaw (c : LineCfg) (i : ℕ) : Measure ℝ :=
  (unif.prod (ProbabilityTheory.gaussianReal 0 1)).map (drawOne c i)

instance (c : LineCfg) (i : ℕ) : IsProbabilityMeasure (oneLaw c i) :=
  Measure.isProbabilityMeasure_map (measurable_drawOne c i).aemeasurable

theorem startLaw_pi (c : LineCfg) (ho : c.ordered = false) (hpos : c.posivity = false) (huni : c.uniTf ≠ 2)
    (hr : ∀ i < c.numVar, (c.rng i).1 < (c.rng i).2) (mem : ℕ → ℝ) (v : ℕ → ℕ → ℝ × ℝ) :
    startLaw c mem v = Measure.pi fun i : Fin c.numParams => oneLaw c i := by
  unfold startLaw
  rw [show startVec c mem v = fun r (i : Fin c.numParams) => drawOne c i (r i) from funext fun r => startVec_eq c ho hpos huni hr mem v r]
  have : ∀ i : Fin c.numParams, SigmaFinite ((unif.prod (ProbabilityTheory.gaussianReal 0 1)).map (drawOne c i)) := fun i => by
    change SigmaFinite (oneLaw c i); infer_instance
  exact Measure.pi_map_pi (μ := fun _ : Fin c.numParams => unif.prod (ProbabilityTheory.gaussianReal 0 1))
    (f := fun i : Fin c.numParams => drawOne c i) fun i => (measurable_drawOne c i).aemeasurable

theorem oneLaw_fixed {c : LineCfg} {i : ℕ} {v : ℝ} (h : c.fix i = some v) : oneLaw c i = Measure.dirac v := by
  unfold oneLaw
  have : drawOne c i = fun _ => v := by funext r; simp [drawOne, h]
  rw [this, Measure.map_const]
  simp

theorem oneLaw_line {c : LineCfg} {i : ℕ} (h : c.fix i = none) (hi : c.numVar ≤ i) (hr : (c.rng i).1 < (c.rng i).2) :
    oneLaw c i = normalised (volume.restrict (Ico (c.rng i).1 (c.rng i).2)) := by
  have e : oneLaw c i = (ENNReal.ofReal ((c.rng i).2 - (c.rng i).1))⁻¹ • volume.restrict (Ico (c.rng i).1 (c.rng i).2) := by
    unfold oneLaw
    have : drawOne c i = (fun u => (c.rng i).1 + u * ((c.rng i).2 - (c.rng i).1)) ∘ Prod.fst := by
      funext r; simp [drawOne, h, Nat.not_lt.2 hi]
    rw [this, ← Measure.map_map (by fun_prop) measurable_fst, Measure.map_fst_prod]
    simp only [measure_univ, one_smul]
    exact map_unif hr
  exact eq_normalised e

theorem oneLaw_var {c : LineCfg} {i : ℕ} (h : c.fix i = none) (hi : i < c.numVar) :
    oneLaw c i = (ProbabilityTheory.gaussianReal 0 1).map fun z =>
      folded (c.rng i).1 (c.rng i).2 (z * ((c.rng i).2 - (c.rng i).1)) := by
  unfold oneLaw
  have : drawOne c i = (fun z => folded (c.rng i).1 (c.rng i).2 (z * ((c.rng i).2 - (c.rng i).1))) ∘ Prod.snd := by
    funext r; simp [drawOne, h, hi]
  have hm : Measurable fun z => folded (c.rng i).1 (c.rng i).2 (z * ((c.rng i).2 - (c.rng i).1)) :=
    (measurable_folded _ _).comp (by fun_prop)
  rw [this, ← Measure.map_map hm measurable_snd, Measure.map_snd_prod]
  simp

/-! ## The prior of the line model as a product -/

/-- Density of one parameter. -/
noncomputable def oneDensity (c : LineCfg) (i : ℕ) (t : ℝ) : ℝ≥0∞ :=
  (if c.fix i = none then (Ico (c.rng i).1 (c.rng i).2).indicator 1 t else 1) *
    (if i < c.numVar then ENNReal.ofReal (Real.exp (-((t - c.varPar i) ^ 2 / (2 * c.varStd i ^ 2)))) else 1)

/-- The measure below it. -/
noncomputable def oneBase (c : LineCfg) (i : ℕ) : Measure ℝ :=
  match c.fix i with
  | some v => Measure.dirac v
  | none => volume

theorem measurable_oneDensity (c : LineCfg) (i : ℕ) : Measurable (oneDensity c i) := by
  unfold oneDensity
  apply Measurable.mul
  · split
    · exact measurable_one.indicator measurableSet_Ico
    · exact measurable_const
  · split
    · exact ENNReal.measurable_ofReal.comp (Real.measurable_exp.comp (by fun_prop))
    · exact measurable_const

theorem oneDensity_ne_top (c : LineCfg) (i : ℕ) (t : ℝ) : oneDensity c i t ≠ ∞ := by
  unfold oneDensity
  apply ENNReal.mul_ne_top
  · split
    · by_cases h : t ∈ Ico (c.rng i).1 (c.rng i).2
      · rw [indicator_of_mem h]; simp
      · rw [indicator_of_notMem h]; simp
    · simp
  · split <;> simp

instance (c : LineCfg) (i : ℕ) : SigmaFinite (oneBase c i) := by
  unfold oneBase
  split <;> infer_instance

instance (c : LineCfg) (i : ℕ) : SigmaFinite ((oneBase c i).withDensity (oneDensity c i)) :=
  SigmaFinite.withDensity_of_ne_top (Filter.Eventually.of_forall fun t => oneDensity_ne_top c i t)

open Classical in
/-- The density of the ordered prior's condition. -/
noncomputable def priorOrder (c : LineCfg) (y : Fin c.numParams → ℝ) : ℝ≥0∞ :=
  if c.typeLag = 0 → ∀ i j k, i < c.nl.length → j < ownLines c i → k + 1 < c.ng →
    extendVec y (lineStart c i j + (3 * k + 2)) ≤ extendVec y (lineStart c i j + (3 * (k + 1) + 2)) then 1 else 0

open Classical in
theorem linePrior_density (c : LineCfg) (hpos : c.posivity = false) (hgap : c.gap = false) (huni : c.uniTf ≠ 2) :
    linePrior c = (Measure.pi fun i : Fin c.numParams => oneBase c i).withDensity
      fun y => priorOrder c y * ∏ i : Fin c.numParams, oneDensity c i (y i) := by
  have hsrc : (fun (y : Fin c.numParams → ℝ) a => y (sourceOf c a)) = id := by
    funext y a
    have : sourceOf c a = a := by
      unfold sourceOf
      rw [dif_neg]
      rintro ⟨s, h, -⟩
      exact huni h
    rw [this]; rfl
  have hpen : ∀ i a b, compPenalty c i a b = 0 := by
    intro i a b
    simp [compPenalty, hpos, hgap]
  have hden : (fun y : Fin c.numParams → ℝ => if InLinePrior c y then ENNReal.ofReal (Real.exp (logPrior c (extendVec y))) else 0) =
      fun y => priorOrder c y * ∏ i : Fin c.numParams, oneDensity c i (y i) := by
    funext y
    have hnv : c.numVar ≤ c.numParams := by unfold LineCfg.numParams; omega
    have hl : logPrior c (extendVec y) = ∑ i : Fin c.numParams,
        if (i : ℕ) < c.numVar then -((y i - c.varPar i) ^ 2 / (2 * c.varStd i ^ 2)) else 0 := by
      unfold logPrior
      simp only [hpen, Finset.sum_const_zero, sub_zero]
      change ∑ i ∈ Finset.range c.numVar, _ = _
      have : ∀ i : Fin c.numParams, (if (i : ℕ) < c.numVar then -((y i - c.varPar i) ^ 2 / (2 * c.varStd i ^ 2)) else 0) =
          (fun i : ℕ => if i < c.numVar then -((extendVec y i - c.varPar i) ^ 2 / (2 * c.varStd i ^ 2)) else 0) i := by
        intro i; simp [extendVec]
      simp only [this]
      rw [Fin.sum_univ_eq_sum_range (fun i : ℕ => if i < c.numVar then -((extendVec y i - c.varPar i) ^ 2 / (2 * c.varStd i ^ 2)) else 0)
        c.numParams, ← Finset.sum_filter]
      refine Finset.sum_congr ?_ fun _ _ => rfl
      ext i
      simp only [Finset.mem_range, Finset.mem_filter]
      omega
    by_cases hin : InLinePrior c y
    · have hord : priorOrder c y = 1 := if_pos hin.order
      rw [if_pos hin, hl, Real.exp_sum, ENNReal.ofReal_prod_of_nonneg fun i _ => (Real.exp_pos _).le, hord, one_mul]
      refine Finset.prod_congr rfl fun i _ => ?_
      unfold oneDensity
      have h1 : (if c.fix i = none then (Ico (c.rng i).1 (c.rng i).2).indicator (1 : ℝ → ℝ≥0∞) (y i) else 1) = 1 := by
        split
        · rename_i hf
          rw [indicator_of_mem (hin.range i hf)]; rfl
        · rfl
      rw [h1, one_mul]
      split <;> simp
    · rw [if_neg hin]
      symm
      by_cases hc : ∃ i : Fin c.numParams, c.fix i = none ∧ y i ∉ Ico (c.rng i).1 (c.rng i).2
      · obtain ⟨i, hf, hi⟩ := hc
        refine mul_eq_zero_of_right _ (Finset.prod_eq_zero (Finset.mem_univ i) ?_)
        unfold oneDensity
        rw [if_pos hf, indicator_of_notMem hi, zero_mul]
      · push Not at hc
        refine mul_eq_zero_of_left ?_ _
        exact if_neg fun h => hin ⟨hc, h⟩
  unfold linePrior
  rw [hsrc, Measure.map_id, hden]
  rfl

theorem linePrior_pi (c : LineCfg) (ho : c.ordered = false) (hpos : c.posivity = false) (hgap : c.gap = false) (huni : c.uniTf ≠ 2) :
    linePrior c = Measure.pi fun i : Fin c.numParams => (oneBase c i).withDensity (oneDensity c i) := by
  rw [linePrior_density c hpos hgap huni]
  have : ∀ y : Fin c.numParams → ℝ, priorOrder c y = 1 := fun y => if_pos fun h i j k _ _ hk => by
    unfold LineCfg.ordered at ho
    simp only [decide_eq_false_iff_not, not_and] at ho
    exact absurd (ho h) (by omega)
  simp only [this, one_mul]
  exact pi_withDensity (fun i : Fin c.numParams => oneBase c i) (fun i => inferInstance) (fun i => oneDensity c i)
    (fun i => measurable_oneDensity c i) (fun i => inferInstance)

end Mica
