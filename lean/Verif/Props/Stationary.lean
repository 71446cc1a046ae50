import Verif.Proof.Invariance10
import Verif.Proof.SamplerExample
import Verif.Props.Reversible

/-!
# C109: a step of the sampler leaves the mixture of constrained priors invariant

Vocabulary is in `Verif/Spec/Invariance.lean`.  The random numbers of a step have the laws of the
code: `dnest_randh` and the displacement of the level with a standard Gaussian number, all others
uniform.  The likelihood is any measurable function.
-/

open MeasureTheory Set
open scoped ENNReal

namespace Mica

/-! ## Level moves -/

/-- **C109, level move.**  The move of a particle between levels (the whole of
`update_level_assignment`) preserves the mixture with the level weights, for every prior `μ`, in both
stages of the run. -/
theorem C109_level {n : ℕ} (μ : Measure (Fin n → ℝ)) (o : SOpts) (maxLv : ℕ) (e : Bool)
    (L : (Fin n → ℝ) → ℝ) (hL : Measurable L) (t : TaskSt n) (which : ℕ)
    (hw : which < t.particles.length) (tie : ℝ) (he : enoughLevels o maxLv t.levels = .ok e)
    (hlim : o.flagLimits = true → t.levels.length ≤ t.limits.length)
    (f : (Fin n → ℝ) → ℕ → ℝ≥0∞) (hf : ∀ j, Measurable fun x => f x j) :
    mixture μ L t.levels (levelWeight o e t.levels) (fun x j => ∫⁻ r, endValue which f
        (updateLevelAssignment o maxLv which ⟨r.1, r.2.1, r.2.2⟩ (withParticle L t which tie x j))
          ∂levelStepLaw.prod (unif.prod unif)) =
      mixture μ L t.levels (levelWeight o e t.levels) f :=
  level_step o maxLv e L hL t which hw tie he hlim levelStepLaw levelStepLaw_symm f hf

/-! ## Particle moves -/

/-- **C109, particle move, continuum.**  The move of a particle within its level (the whole of
`update_particle` with `perturb_con`) preserves the constrained priors, whatever the weights of the
levels are. -/
theorem C109_particle_continuum {n : ℕ} (c : ConCfg n) (cands : List (Fin n)) (w : Fin n)
    (hpick : pickFree c cands = .ok w) (hlt : c.lo w < c.hi w) (τ : Measure ℝ)
    [IsProbabilityMeasure τ] (L : (Fin n → ℝ) → ℝ) (hL : Measurable L) (t : TaskSt n) (which : ℕ)
    (hw : which < t.particles.length) (tie uTie : ℝ) (W : Fin t.levels.length → ℝ≥0∞)
    (f : (Fin n → ℝ) → ℕ → ℝ≥0∞) (hf : ∀ j, Measurable fun x => f x j) :
    mixture (conPrior c) L t.levels W (fun x j => ∫⁻ r, endValue which f
        (perturbUpdate (conPerturb c) L which cands r.1 uTie r.2 (withParticle L t which tie x j))
          ∂(randhLaw τ).prod unif) =
      mixture (conPrior c) L t.levels W f :=
  (con_keeps c cands w hpick hlt (randhLaw τ) (randhLaw_symm τ)).particle L hL t which hw tie uTie W
    f hf

/-- **C109, particle move, line model.**  The same for the line model's moves and its prior with
Gaussian variability parameters, ordered or common lags and the penalties. -/
theorem C109_particle_line (c : LineCfg)
    (hs : c.uniTf = 2 → ∀ i, c.nl.getD i 0 ≤ c.nl.getD 0 0)
    (hg : c.gap = true → ∀ i < c.nl.length, 0 < c.nl.getD i 0)
    (cands : List (Fin c.numParams)) (w : Fin c.numParams) (hpick : c.pick cands = .ok w)
    (τ : Measure ℝ) [IsProbabilityMeasure τ] (L : (Fin c.numParams → ℝ) → ℝ) (hL : Measurable L)
    (t : TaskSt c.numParams) (which : ℕ) (hw : which < t.particles.length) (tie uTie : ℝ)
    (W : Fin t.levels.length → ℝ≥0∞)
    (f : (Fin c.numParams → ℝ) → ℕ → ℝ≥0∞) (hf : ∀ j, Measurable fun x => f x j) :
    mixture (linePrior c) L t.levels W (fun x j => ∫⁻ r, endValue which f
        (perturbUpdate (linePerturb c) L which cands r.1 uTie r.2 (withParticle L t which tie x j))
          ∂(randhLaw τ).prod unif) =
      mixture (linePrior c) L t.levels W f :=
  (c.keeps hs hg hpick (randhLaw τ) (randhLaw_symm τ)).particle L hL t which hw tie uTie W f hf

/-! ## Whole steps -/

/-- **C109, continuum.**  A whole step — both moves of a particle in random order — preserves the
mixture while levels are created, and afterwards if `beta` is 0.  (With `beta` not 0 the weights
contain the numbers of tries, which the particle move increments; then each move preserves the mixture
with the weights at its beginning.) -/
theorem C109_continuum {n : ℕ} (c : ConCfg n) (cands : List (Fin n)) (w : Fin n)
    (hpick : pickFree c cands = .ok w) (hlt : c.lo w < c.hi w) (τ : Measure ℝ)
    [IsProbabilityMeasure τ] (o : SOpts) (maxLv : ℕ) (e : Bool) (heb : e = false ∨ o.beta = 0)
    (L : (Fin n → ℝ) → ℝ) (hL : Measurable L) (t : TaskSt n) (which : ℕ)
    (hw : which < t.particles.length) (tie uTie : ℝ) (he : enoughLevels o maxLv t.levels = .ok e)
    (hlim : o.flagLimits = true → t.levels.length ≤ t.limits.length)
    (f : (Fin n → ℝ) → ℕ → ℝ≥0∞) (hf : ∀ j, Measurable fun x => f x j) :
    mixture (conPrior c) L t.levels (levelWeight o e t.levels) (fun x j => ∫⁻ r, endValue which f
        (samplerMove (conPerturb c) o L maxLv which cands uTie r (withParticle L t which tie x j))
          ∂unif.prod (((randhLaw τ).prod unif).prod (levelStepLaw.prod (unif.prod unif)))) =
      mixture (conPrior c) L t.levels (levelWeight o e t.levels) f :=
  (con_keeps c cands w hpick hlt (randhLaw τ) (randhLaw_symm τ)).step o maxLv e heb L hL t which hw
    tie uTie he hlim levelStepLaw levelStepLaw_symm f hf

/-- **C109, line model.** -/
theorem C109_line (c : LineCfg)
    (hs : c.uniTf = 2 → ∀ i, c.nl.getD i 0 ≤ c.nl.getD 0 0)
    (hg : c.gap = true → ∀ i < c.nl.length, 0 < c.nl.getD i 0)
    (cands : List (Fin c.numParams)) (w : Fin c.numParams) (hpick : c.pick cands = .ok w)
    (τ : Measure ℝ) [IsProbabilityMeasure τ] (o : SOpts) (maxLv : ℕ) (e : Bool)
    (heb : e = false ∨ o.beta = 0) (L : (Fin c.numParams → ℝ) → ℝ) (hL : Measurable L)
    (t : TaskSt c.numParams) (which : ℕ) (hw : which < t.particles.length) (tie uTie : ℝ)
    (he : enoughLevels o maxLv t.levels = .ok e)
    (hlim : o.flagLimits = true → t.levels.length ≤ t.limits.length)
    (f : (Fin c.numParams → ℝ) → ℕ → ℝ≥0∞) (hf : ∀ j, Measurable fun x => f x j) :
    mixture (linePrior c) L t.levels (levelWeight o e t.levels) (fun x j => ∫⁻ r, endValue which f
        (samplerMove (linePerturb c) o L maxLv which cands uTie r (withParticle L t which tie x j))
          ∂unif.prod (((randhLaw τ).prod unif).prod (levelStepLaw.prod (unif.prod unif)))) =
      mixture (linePrior c) L t.levels (levelWeight o e t.levels) f :=
  (c.keeps hs hg hpick (randhLaw τ) (randhLaw_symm τ)).step o maxLv e heb L hL t which hw
    tie uTie he hlim levelStepLaw levelStepLaw_symm f hf

/-! ## The mixtures are finite -/

/-- **C109.**  The continuum model's prior is a finite measure. -/
theorem C109_finite_continuum {n : ℕ} (c : ConCfg n) : conPrior c univ < ∞ := by
  have hσ : ∀ i, SigmaFinite (match c.fix i with
      | some v => Measure.dirac v
      | none => (volume : Measure ℝ).restrict (Ico (c.lo i) (c.hi i))) := by
    intro i
    cases c.fix i <;> dsimp only <;> infer_instance
  unfold conPrior
  rw [← pi_univ univ, Measure.pi_pi]
  refine ENNReal.prod_lt_top fun i _ => ?_
  cases c.fix i <;> simp

theorem logPrior_nonpos (c : LineCfg) (pm : ℕ → ℝ) : logPrior c pm ≤ 0 := by
  unfold logPrior
  have h1 : ∑ i ∈ Finset.range (if c.uniVar then 3 else 3 * c.nl.length),
      -((pm i - c.varPar i) ^ 2 / (2 * c.varStd i ^ 2)) ≤ 0 :=
    Finset.sum_nonpos fun i _ => neg_nonpos.2 (by positivity)
  have h2 : 0 ≤ ∑ i ∈ Finset.range c.nl.length, ∑ j ∈ Finset.range (ownLines c i),
      ∑ k ∈ Finset.range c.ng, compPenalty c i (pm (lineStart c i j + (3 * k + 2)))
        (pm (lineStart c i j + (3 * k + 3))) :=
    Finset.sum_nonneg fun i _ => Finset.sum_nonneg fun j _ => Finset.sum_nonneg fun k _ =>
      c.compPenalty_nonneg _ _ _
  linarith

/-- **C109.**  The line model's prior is a finite measure. -/
theorem C109_finite_line (c : LineCfg) : linePrior c univ < ∞ := by
  have hσ : ∀ i : Fin c.numParams, SigmaFinite (match c.fix i with
      | some v => Measure.dirac v
      | none => (volume : Measure ℝ)) := by
    intro i
    cases c.fix i <;> dsimp only <;> infer_instance
  unfold linePrior
  rw [Measure.map_apply (show Measurable fun (y : Fin c.numParams → ℝ) (a : Fin c.numParams) =>
      y (sourceOf c a) from c.measurable_copyVec) MeasurableSet.univ, preimage_univ,
    withDensity_apply _ MeasurableSet.univ, Measure.restrict_univ]
  have hbox : ∀ i : Fin c.numParams, MeasurableSet
      (if c.fix i = none then Ico (c.rng i).1 (c.rng i).2 else univ) := by
    intro i
    split
    · exact measurableSet_Ico
    · exact MeasurableSet.univ
  refine lt_of_le_of_lt (lintegral_mono (g := (univ.pi fun i : Fin c.numParams =>
    if c.fix i = none then Ico (c.rng i).1 (c.rng i).2 else univ).indicator 1) fun y => ?_) ?_
  · by_cases h : InLinePrior c y
    · rw [indicator_of_mem]
      · rw [if_pos h, Pi.one_apply]
        refine ENNReal.ofReal_le_one.2 (Real.exp_le_one_iff.2 (logPrior_nonpos c _))
      · intro i _
        dsimp only
        split
        · rename_i hi; exact h.range i hi
        · exact mem_univ _
    · rw [if_neg h]; exact zero_le
  · rw [lintegral_indicator_one (MeasurableSet.univ_pi hbox), Measure.pi_pi]
    refine ENNReal.prod_lt_top fun i _ => ?_
    cases h : c.fix i <;> simp

/-! ## Cases meeting the hypotheses -/

/-- A task state with one particle and two levels. -/
noncomputable def statEx (n : ℕ) : TaskSt n where
  particles := [⟨fun _ => 1, ⟨1, 0⟩, 0⟩]
  levels := [⟨⟨-DBL_MAX, 0⟩, 0, 0, 0, 0, 0⟩, ⟨⟨0.5, 0⟩, -1, 0, 0, 3, 0⟩]
  limits := [fun _ => (0, 1), fun _ => (0, 1)]
  above := []

/-- While levels are created (at most 3) with limits recorded. -/
example : enoughLevels exOpts 3 (statEx 2).levels = .ok false ∧ 0 < (statEx 2).particles.length ∧
    (exOpts.flagLimits = true → (statEx 2).levels.length ≤ (statEx 2).limits.length) := by
  simp [enoughLevels, statEx]

/-- A continuum model with a fixed and a free parameter; the first candidate is rejected. -/
example : pickFree (⟨fun _ => 0, fun _ => 1, fun i => if i = 0 then some 0 else none⟩ : ConCfg 2)
    [0, 1] = .ok 1 := by
  simp [pickFree]

/-- One line with three components, ordered lags, positivity and gap options; a lag moves. -/
example : ∃ w, (lineCfgEx 0 0 [1] true).pick [w] = .ok w ∧
    ((lineCfgEx 0 0 [1] true).gap = true → ∀ i < (lineCfgEx 0 0 [1] true).nl.length,
      0 < (lineCfgEx 0 0 [1] true).nl.getD i 0) := by
  have hlt : (lineCfgEx 0 0 [1] true).cen 0 1 < (lineCfgEx 0 0 [1] true).numParams :=
    LineCfg.cen_lt _ (by simp [LineCfg.nblocks, lineCfgEx]) (by simp [lineCfgEx])
  have hf : (lineCfgEx 0 0 [1] true).fix ((lineCfgEx 0 0 [1] true).cen 0 1) = none := by
    by_contra h
    have := ((lineCfgEx 0 0 [1] true).fix_cen_ordered (by simp [LineCfg.ordered, lineCfgEx])
      (by simp [lineCfgEx]) h).1
    simp [lineCfgEx] at this
  refine ⟨⟨_, hlt⟩, by simp [LineCfg.pick, hf], fun _ i hi => ?_⟩
  have : i = 0 := by simp [lineCfgEx] at hi; exact hi
  subst this
  simp [lineCfgEx]

/-- The particle of the example of C78 is in the region of the prior. -/
example : InLinePrior (lineCfgEx 0 0 [1] true) (fun i => moveEx i) := by
  constructor
  · intro i hi
    exact moveEx_ok.range i i.2 hi
  · intro ht i j k hi hj hk
    have hj' : j < (lineCfgEx 0 0 [1] true).nl.getD i 0 := by
      simpa [ownLines, lineCfgEx] using hj
    have := (moveEx_ok.order ht i j k hj' hk).le
    rw [LineCfg.idxLine_eq _ i j hj', ← LineCfg.lineStart_eq] at this
    have hlt : ∀ k' < 3, lineStart (lineCfgEx 0 0 [1] true) i j + (3 * k' + 2) <
        (lineCfgEx 0 0 [1] true).numParams := by
      intro k' hk'
      rw [LineCfg.lag_cen]
      exact LineCfg.cen_lt _ (LineCfg.bno_lt _ _ _ hj') hk'
    have hk3 : k + 1 < 3 := hk
    rw [show extendVec (fun i : Fin (lineCfgEx 0 0 [1] true).numParams => moveEx i)
        (lineStart (lineCfgEx 0 0 [1] true) i j + (3 * k + 2)) = moveEx _ from
        LineCfg.extendVec_lt _ ⟨_, hlt k (by omega)⟩,
      show extendVec (fun i : Fin (lineCfgEx 0 0 [1] true).numParams => moveEx i)
        (lineStart (lineCfgEx 0 0 [1] true) i j + (3 * (k + 1) + 2)) = moveEx _ from
        LineCfg.extendVec_lt _ ⟨_, hlt (k + 1) hk3⟩]
    have e1 : lineStart (lineCfgEx 0 0 [1] true) i j + 1 + k * 3 + 1 =
        lineStart (lineCfgEx 0 0 [1] true) i j + (3 * k + 2) := by omega
    have e2 : lineStart (lineCfgEx 0 0 [1] true) i j + 1 + (k + 1) * 3 + 1 =
        lineStart (lineCfgEx 0 0 [1] true) i j + (3 * (k + 1) + 2) := by omega
    rw [e1, e2] at this
    exact this

end Mica
