import Verif.Proof.Independent3

/-!
# C126: data sets that share nothing can be analysed together or one at a time

With `flag_uniform_var_params = 0` and `flag_uniform_tranfuns = 0` no parameter belongs to two data sets.  Then the prior,
the likelihood, the evidence and the posterior of the joint run are products of those of runs on the two parts of the list
of data sets, for every way to divide the list.
-/

open MeasureTheory Set
open scoped ENNReal

namespace Mica

variable {c : LineCfg} {m : ℕ}

/-- The prior of a joint run is the product of the priors of the parts. -/
theorem C126_prior (h : c.Separate) (hm : m ≤ c.nl.length) :
    (linePrior c).map (partsOf c m) = (linePrior (c.firstSets m)).prod (linePrior (c.lastSets m)) ∧
    (normalised (linePrior c)).map (partsOf c m) =
      (normalised (linePrior (c.firstSets m))).prod (normalised (linePrior (c.lastSets m))) := by
  have hp := h.prior hm
  refine ⟨hp, ?_⟩
  have hu : linePrior c univ = linePrior (c.firstSets m) univ * linePrior (c.lastSets m) univ := by
    rw [← Measure.prod_prod, ← hp, Measure.map_apply LineCfg.measurable_partsOf (MeasurableSet.univ.prod .univ)]
    simp
  unfold normalised
  rw [Measure.map_smul, hp, hu, Measure.prod_smul_left, Measure.prod_smul_right, smul_smul,
    ENNReal.mul_inv (Or.inr (measure_ne_top _ _)) (Or.inl (measure_ne_top _ _))]

/-- The prior gives no weight to vectors that are not allowed. -/
theorem ae_allowed (h : c.Separate) : ∀ᵐ x ∂linePrior c, InLinePrior c x := by
  rw [h.linePrior, ae_withDensity_iff c.measurable_density]
  refine Filter.Eventually.of_forall fun x hx => ?_
  by_contra hn
  exact hx (by unfold LineCfg.density; rw [if_neg hn])

/-- The likelihoods agree. -/
theorem ofReal_exp_sum (h : c.Separate) {L : (Fin c.numParams → ℝ) → ℝ} {L1 : (Fin (c.firstSets m).numParams → ℝ) → ℝ}
    {L2 : (Fin (c.lastSets m).numParams → ℝ) → ℝ}
    (hL : ∀ x, InLinePrior c x → L x = L1 (partsOf c m x).1 + L2 (partsOf c m x).2) :
    (fun x => ENNReal.ofReal (Real.exp (L x))) =ᵐ[linePrior c]
      (fun z => ENNReal.ofReal (Real.exp (L1 z.1)) * ENNReal.ofReal (Real.exp (L2 z.2))) ∘ partsOf c m := by
  filter_upwards [ae_allowed h] with x hx
  rw [hL x hx, Real.exp_add, ENNReal.ofReal_mul (Real.exp_pos _).le]
  rfl

theorem measurable_both {α β : Type} [MeasurableSpace α] [MeasurableSpace β] {f : α → ℝ≥0∞} {g : β → ℝ≥0∞} (hf : Measurable f)
    (hg : Measurable g) : Measurable fun z : α × β => f z.1 * g z.2 :=
  (hf.comp measurable_fst).mul (hg.comp measurable_snd)

/-- The evidence of a joint run is the product of the evidences of the parts. -/
theorem C126_evidence (h : c.Separate) (hm : m ≤ c.nl.length) {L : (Fin c.numParams → ℝ) → ℝ}
    {L1 : (Fin (c.firstSets m).numParams → ℝ) → ℝ} {L2 : (Fin (c.lastSets m).numParams → ℝ) → ℝ}
    (hL1 : Measurable L1) (hL2 : Measurable L2)
    (hL : ∀ x, InLinePrior c x → L x = L1 (partsOf c m x).1 + L2 (partsOf c m x).2) :
    lineEvidence c L = lineEvidence (c.firstSets m) L1 * lineEvidence (c.lastSets m) L2 := by
  have m1 : Measurable fun z => ENNReal.ofReal (Real.exp (L1 z)) := (Real.measurable_exp.comp hL1).ennreal_ofReal
  have m2 : Measurable fun z => ENNReal.ofReal (Real.exp (L2 z)) := (Real.measurable_exp.comp hL2).ennreal_ofReal
  have hsf1 : SFinite (normalised (linePrior (c.firstSets m))) := by unfold normalised; infer_instance
  have hsf2 : SFinite (normalised (linePrior (c.lastSets m))) := by unfold normalised; infer_instance
  unfold lineEvidence
  rw [← lintegral_prod_mul m1.aemeasurable m2.aemeasurable, ← (C126_prior h hm).2,
    lintegral_map (measurable_both m1 m2) LineCfg.measurable_partsOf]
  refine lintegral_congr_ae ?_
  unfold normalised
  exact Measure.ae_smul_measure (ofReal_exp_sum h hL) _

/-- The posterior of a joint run: the parameters of the two parts are independent, with the posteriors of runs on the
parts alone. -/
theorem C126_posterior (h : c.Separate) (hm : m ≤ c.nl.length) {L : (Fin c.numParams → ℝ) → ℝ}
    {L1 : (Fin (c.firstSets m).numParams → ℝ) → ℝ} {L2 : (Fin (c.lastSets m).numParams → ℝ) → ℝ}
    (hL1 : Measurable L1) (hL2 : Measurable L2)
    (hL : ∀ x, InLinePrior c x → L x = L1 (partsOf c m x).1 + L2 (partsOf c m x).2)
    (hb1 : ∃ B, ∀ x, InLinePrior (c.firstSets m) x → L1 x ≤ B) (hb2 : ∃ B, ∀ x, InLinePrior (c.lastSets m) x → L2 x ≤ B) :
    (posteriorLaw c L).map (partsOf c m) =
      (posteriorLaw (c.firstSets m) L1).prod (posteriorLaw (c.lastSets m) L2) := by
  have m1 : Measurable fun z => ENNReal.ofReal (Real.exp (L1 z)) := (Real.measurable_exp.comp hL1).ennreal_ofReal
  have m2 : Measurable fun z => ENNReal.ofReal (Real.exp (L2 z)) := (Real.measurable_exp.comp hL2).ennreal_ofReal
  have fin : ∀ (c : LineCfg) (L : (Fin c.numParams → ℝ) → ℝ), c.Separate → (∃ B, ∀ x, InLinePrior c x → L x ≤ B) →
      IsFiniteMeasure ((linePrior c).withDensity fun x => ENNReal.ofReal (Real.exp (L x))) := by
    rintro c L h ⟨B, hB⟩
    refine isFiniteMeasure_withDensity (ne_of_lt (lt_of_le_of_lt (lintegral_mono_ae (g := fun _ => ENNReal.ofReal (Real.exp B)) ?_) ?_))
    · filter_upwards [ae_allowed h] with x hx
      exact ENNReal.ofReal_le_ofReal (Real.exp_le_exp.2 (hB x hx))
    · rw [lintegral_const]
      exact ENNReal.mul_lt_top ENNReal.ofReal_lt_top (measure_lt_top _ _)
  have f1 := fin _ L1 h.first hb1
  have f2 := fin _ L2 h.last hb2
  have key : ((linePrior c).withDensity fun x => ENNReal.ofReal (Real.exp (L x))).map (partsOf c m) =
      ((linePrior (c.firstSets m)).withDensity fun x => ENNReal.ofReal (Real.exp (L1 x))).prod
        ((linePrior (c.lastSets m)).withDensity fun x => ENNReal.ofReal (Real.exp (L2 x))) := by
    rw [prod_withDensity m1 m2, ← (C126_prior h hm).1, withDensity_congr_ae (ofReal_exp_sum h hL)]
    ext s hs
    rw [Measure.map_apply LineCfg.measurable_partsOf hs, withDensity_apply _ (LineCfg.measurable_partsOf hs),
      withDensity_apply _ hs,
      setLIntegral_map hs (measurable_both m1 m2) LineCfg.measurable_partsOf]
    rfl
  have hu : ((linePrior c).withDensity fun x => ENNReal.ofReal (Real.exp (L x))) univ =
      ((linePrior (c.firstSets m)).withDensity fun x => ENNReal.ofReal (Real.exp (L1 x))) univ *
        ((linePrior (c.lastSets m)).withDensity fun x => ENNReal.ofReal (Real.exp (L2 x))) univ := by
    rw [← Measure.prod_prod, ← key, Measure.map_apply LineCfg.measurable_partsOf (MeasurableSet.univ.prod .univ)]
    simp
  unfold posteriorLaw normalised
  rw [Measure.map_smul, key, hu, Measure.prod_smul_left, Measure.prod_smul_right, smul_smul,
    ENNReal.mul_inv (Or.inr (measure_ne_top _ _)) (Or.inl (measure_ne_top _ _))]

/-- The environment in which the likelihood of parameters `x` is computed. -/
noncomputable def envOf (c : LineCfg) (nq : ℕ) (lin : Bool) (typ : ℕ → TF) (mem : ℕ → ℝ) (x : Fin c.numParams → ℝ) : LineEnv :=
  tfEnv nq c.ng lin typ (extendVec x) c.idxCon c.idxLine mem

/-- The likelihood of a joint run is the product of the likelihoods of the parts, for each of the four implementations
and every content of the work space: if both parts are computed, the joint one is their sum, and if the joint one is
computed, it is the sum of the parts. -/
theorem C126_likelihood (h : c.Separate) (hm : m ≤ c.nl.length) (nq : ℕ) (lin : Bool) (typ : ℕ → TF)
    (mem mem1 mem2 : ℕ → ℝ) (ds : List DSet) (hds : ds.map (fun d => d.line.length) = c.nl) (x : Fin c.numParams → ℝ)
    (F : LineEnv → List DSet → Res ℝ) (hF : F ∈ [probLine1, probLine2, probLine3, probLine4]) :
    (∀ v1 v2, F (envOf (c.firstSets m) nq lin typ mem1 (partsOf c m x).1) (ds.take m) = .ok v1 →
      F (envOf (c.lastSets m) nq lin typ mem2 (partsOf c m x).2) (ds.drop m) = .ok v2 → v1 ≠ -DBL_MAX → v2 ≠ -DBL_MAX →
      F (envOf c nq lin typ mem x) ds = .ok (v1 + v2)) ∧
    (∀ v, F (envOf c nq lin typ mem x) ds = .ok v → v ≠ -DBL_MAX → ∃ v1 v2,
      F (envOf (c.firstSets m) nq lin typ mem1 (partsOf c m x).1) (ds.take m) = .ok v1 ∧
      F (envOf (c.lastSets m) nq lin typ mem2 (partsOf c m x).2) (ds.drop m) = .ok v2 ∧ v = v1 + v2) := by
  have hlen : ds.length = c.nl.length := by rw [← hds, List.length_map]
  have hnl : ∀ i d, ds[i]? = some d → c.nl.getD i 0 = d.line.length := by
    intro i d hd
    rw [← hds, List.getD_eq_getElem?_getD, List.getElem?_map, hd]; rfl
  have t1 : ∀ i d, i < m → ds[i]? = some d → _ := fun i d hi hd =>
    terms_same (d := d) (by rw [← hnl i d hd]; exact h.moved_first hm x hi) nq lin typ mem mem1
  have t2 : ∀ i d, ds[m + i]? = some d → _ := fun i d hd =>
    terms_same (d := d) (by
      rw [← hnl _ d hd]
      exact h.moved_last hm x (by rw [← hlen]; exact (List.getElem?_eq_some_iff.1 hd).1)) nq lin typ mem mem2
  simp only [List.mem_cons, List.not_mem_nil, or_false] at hF
  rcases hF with rfl | rfl | rfl | rfl
  all_goals
    refine loop_parts ds m (hlen ▸ hm) (fun i d hi hd => ?_) fun i d hd => ?_
  iterate 3
    · obtain ⟨a, b, -⟩ := t1 i d hi hd
      simp only [envOf] at a b ⊢
      rw [show (c.firstSets m).ng = c.ng from rfl, a]
      exact congrArg _ b
    · obtain ⟨a, b, -⟩ := t2 i d hd
      simp only [envOf] at a b ⊢
      rw [show (c.lastSets m).ng = c.ng from rfl, a]
      exact congrArg _ b
  · obtain ⟨a, -, b⟩ := t1 i d hi hd
    simp only [envOf] at a b ⊢
    rw [show (c.firstSets m).ng = c.ng from rfl, a]
    exact b _
  · obtain ⟨a, -, b⟩ := t2 i d hd
    simp only [envOf] at a b ⊢
    rw [show (c.lastSets m).ng = c.ng from rfl, a]
    exact b _

/-- The whole claim for `prob_line_variability4`: if on all allowed parameters the log-likelihoods `L1`, `L2` of the parts
are computed, then so is that of the joint run, its evidence is the product and its posterior makes the parts
independent. -/
theorem C126_run (h : c.Separate) (hm : m ≤ c.nl.length) (nq : ℕ) (lin : Bool) (typ : ℕ → TF)
    (mem mem1 mem2 : ℕ → ℝ) (ds : List DSet) (hds : ds.map (fun d => d.line.length) = c.nl)
    {L1 : (Fin (c.firstSets m).numParams → ℝ) → ℝ} {L2 : (Fin (c.lastSets m).numParams → ℝ) → ℝ}
    (hL1 : Measurable L1) (hL2 : Measurable L2)
    (h1 : ∀ y, InLinePrior (c.firstSets m) y → L1 y ≠ -DBL_MAX ∧
      probLine4 (envOf (c.firstSets m) nq lin typ mem1 y) (ds.take m) = .ok (L1 y))
    (h2 : ∀ y, InLinePrior (c.lastSets m) y → L2 y ≠ -DBL_MAX ∧
      probLine4 (envOf (c.lastSets m) nq lin typ mem2 y) (ds.drop m) = .ok (L2 y)) :
    ∃ L : (Fin c.numParams → ℝ) → ℝ,
      (∀ x, InLinePrior c x → probLine4 (envOf c nq lin typ mem x) ds = .ok (L x)) ∧
      lineEvidence c L = lineEvidence (c.firstSets m) L1 * lineEvidence (c.lastSets m) L2 ∧
      ((∃ B, ∀ y, InLinePrior (c.firstSets m) y → L1 y ≤ B) → (∃ B, ∀ y, InLinePrior (c.lastSets m) y → L2 y ≤ B) →
        (posteriorLaw c L).map (partsOf c m) =
          (posteriorLaw (c.firstSets m) L1).prod (posteriorLaw (c.lastSets m) L2)) := by
  refine ⟨fun x => L1 (partsOf c m x).1 + L2 (partsOf c m x).2, fun x hx => ?_,
    C126_evidence h hm hL1 hL2 fun _ _ => rfl, C126_posterior h hm hL1 hL2 fun _ _ => rfl⟩
  obtain ⟨a, b⟩ := (h.region hm x).1 hx
  exact (C126_likelihood h hm nq lin typ mem mem1 mem2 ds hds x probLine4 (by simp)).1 _ _ (h1 _ a).2 (h2 _ b).2
    (h1 _ a).1 (h2 _ b).1

/-! ### Example: two data sets, the first with two lines, every light curve of one point

With one point and a free mean for each light curve the likelihood is 1 whatever the parameters. -/

/-- One component per line. -/
noncomputable def sepCfg : LineCfg := { lineCfgEx 0 0 [2, 1] false with ng := 1 }

theorem sepCfg_separate : sepCfg.Separate := ⟨rfl, rfl⟩

/-- Another data set. -/
noncomputable def ordC : DSet := ⟨ordLC 1 7, [ordLC 4 5]⟩

theorem margLL_free {n q : ℕ} (hq : q = n) (C : Matrix (Fin n) (Fin n) ℝ) (hC : C.PosDef) (L : Matrix (Fin n) (Fin q) ℝ)
    (hL : ∀ i j, L i j = if (i : ℕ) = j then 1 else 0) (f : Fin n → ℝ) : margLL C L f = 0 := by
  subst hq
  obtain rfl : L = 1 := by
    ext i j
    rw [hL, Matrix.one_apply]
    simp [Fin.ext_iff]
  have hd : C.det ≠ 0 := hC.det_pos.ne'
  have hu : IsUnit C.det := isUnit_iff_ne_zero.2 hd
  have hg : glsCoef C 1 f = f := by
    simp [glsCoef, Matrix.nonsing_inv_nonsing_inv C hu, Matrix.mul_nonsing_inv C hu]
  rw [margLL, hg]
  simp [Matrix.det_nonsing_inv]

theorem sep_value (c : LineCfg) (mem : ℕ → ℝ) (x : Fin c.numParams → ℝ) (ds : List DSet)
    (h : ∀ d ∈ ds, d = ordA ∨ d = ordC) : probLine4 (envOf c 1 true (fun _ => .gauss) mem x) ds = .ok 0 := by
  have hone : ∀ t f, EnoughTimes (ordLC t f) 1 := fun t f =>
    ⟨fun _ => ⟨0, by simp [ordLC]⟩, fun x y _ => Subsingleton.elim x y⟩
  have hok : LineDataOK (envOf c 1 true (fun _ => .gauss) mem x) ds := by
    apply TransferOK.lineDataOK
    intro k d hd
    refine ⟨⟨c.ng, true, fun _ => .gauss, rfl, gauss_far _ _ _ _ _ _, ?_⟩, ?_, ?_⟩
    · rcases h d (List.mem_of_getElem? hd) with rfl | rfl
      · refine ⟨fun i _ => by simp only [ordA, ordLC]; positivity, fun j a ha i _ => ?_⟩
        have := List.mem_of_getElem? ha
        simp only [ordA, List.mem_cons, List.not_mem_nil, or_false] at this
        rcases this with rfl | rfl <;> simp only [ordLC] <;> positivity
      · refine ⟨fun i _ => by simp only [ordC, ordLC]; positivity, fun j a ha i _ => ?_⟩
        have := List.mem_of_getElem? ha
        simp only [ordC, List.mem_cons, List.not_mem_nil, or_false] at this
        rcases this with rfl; simp only [ordLC]; positivity
    · intro i hi
      rcases h d (List.mem_of_getElem? hd) with rfl | rfl
      · simp [ordA, ordLC] at hi
      · simp [ordC, ordLC] at hi
    · intro a ha
      rcases h d (List.mem_of_getElem? hd) with rfl | rfl
      · simp only [DSet.series, ordA, List.mem_cons, List.not_mem_nil, or_false] at ha
        rcases ha with rfl | rfl | rfl <;> exact hone _ _
      · simp only [DSet.series, ordC, List.mem_cons, List.not_mem_nil, or_false] at ha
        rcases ha with rfl | rfl <;> exact hone _ _
  rw [line_value4_lines _ _ hok]
  · have : (ds.mapIdx fun k d => margLL (lineCov (envOf c 1 true (fun _ => .gauss) mem x) k d) (d.trend 1) fun i => d.fall i) =
        List.replicate ds.length 0 := by
      apply List.ext_getElem?
      intro k
      simp only [List.getElem?_mapIdx]
      rcases hd : ds[k]? with _ | d
      · simpa [List.getElem?_replicate] using hd
      · rw [List.getElem?_replicate, if_pos (List.getElem?_eq_some_iff.1 hd).1]
        simp only [Option.map_some, Option.some.injEq]
        have hp := (hok k d hd).2.2
        have hp' : (lineCov (envOf c 1 true (fun _ => .gauss) mem x) k d).PosDef :=
          hp.smul (mul_pos (pmSigma_pos _ _) (pmSigma_pos _ _))
        rcases h d (List.mem_of_getElem? hd) with rfl | rfl
        · refine margLL_free rfl _ hp' _ (fun i j => ?_) _
          have hi : (i : ℕ) < 3 := i.2
          have hj : (j : ℕ) < 3 := j.2
          simp only [DSet.trend]
          generalize (i : ℕ) = i at hi
          generalize (j : ℕ) = j at hj
          interval_cases i <;> interval_cases j <;> simp [trendRow, ordA, ordLC, DSet.series]
        · refine margLL_free rfl _ hp' _ (fun i j => ?_) _
          have hi : (i : ℕ) < 2 := i.2
          have hj : (j : ℕ) < 2 := j.2
          simp only [DSet.trend]
          generalize (i : ℕ) = i at hi
          generalize (j : ℕ) = j at hj
          interval_cases i <;> interval_cases j <;> simp [trendRow, ordC, ordLC, DSet.series]
    show Res.ok (ds.mapIdx fun k d => margLL (lineCov (envOf c 1 true (fun _ => .gauss) mem x) k d) (d.trend 1) fun i => d.fall i).sum = _
    rw [this]
    simp
  · intro d hd
    rcases h d hd with rfl | rfl <;> simp [ordA, ordC]

example (mem : ℕ → ℝ) : ∃ L : (Fin sepCfg.numParams → ℝ) → ℝ,
    (∀ x, InLinePrior sepCfg x → probLine4 (envOf sepCfg 1 true (fun _ => .gauss) mem x) [ordA, ordC] = .ok (L x)) ∧
    lineEvidence sepCfg L = lineEvidence (sepCfg.firstSets 1) (fun _ => 0) * lineEvidence (sepCfg.lastSets 1) (fun _ => 0) ∧
    (posteriorLaw sepCfg L).map (partsOf sepCfg 1) =
      (posteriorLaw (sepCfg.firstSets 1) fun _ => 0).prod (posteriorLaw (sepCfg.lastSets 1) fun _ => 0) := by
  have hz : (0 : ℝ) ≠ -DBL_MAX := by have := DBL_MAX_pos; linarith
  obtain ⟨L, a, b, d⟩ := C126_run sepCfg_separate (m := 1) (by decide) 1 true (fun _ => .gauss) mem mem mem [ordA, ordC] rfl
    (L1 := fun _ => 0) (L2 := fun _ => 0) measurable_const measurable_const
    (fun y _ => ⟨hz, sep_value _ _ _ _ (by simp)⟩) (fun y _ => ⟨hz, sep_value _ _ _ _ (by simp)⟩)
  exact ⟨L, a, b, d ⟨0, fun _ _ => le_rfl⟩ ⟨0, fun _ _ => le_rfl⟩⟩

end Mica
