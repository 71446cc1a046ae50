import Verif.Proof.Invariance9

/-!
# Helper lemmas for C109: the line model keeps its prior
-/

open MeasureTheory Set
open scoped ENNReal

namespace Mica

theorem measurable_extendVec {n : ℕ} (i : ℕ) : Measurable fun y : Fin n → ℝ => extendVec y i := by
  unfold extendVec
  split
  · exact measurable_pi_apply _
  · exact measurable_const

theorem measurable_compPenalty (c : LineCfg) (i : ℕ) :
    Measurable fun p : ℝ × ℝ => compPenalty c i p.1 p.2 := by
  unfold compPenalty
  dsimp only
  have hD : Measurable fun p : ℝ × ℝ => |(if c.typeTf = 2 then p.1 + Real.exp p.2 else p.1) -
      365.25 * (⌊(if c.typeTf = 2 then p.1 + Real.exp p.2 else p.1) / 365.25⌋ : ℝ) -
        c.gapCenter i| := by
    have hL : Measurable fun p : ℝ × ℝ =>
      if c.typeTf = 2 then p.1 + Real.exp p.2 else p.1 := by
      split <;> fun_prop
    have hfl : Measurable fun p : ℝ × ℝ =>
        (⌊(if c.typeTf = 2 then p.1 + Real.exp p.2 else p.1) / 365.25⌋ : ℝ) :=
      (Measurable.of_discrete (f := fun z : ℤ => (z : ℝ))).comp
        (Int.measurable_floor.comp (hL.div_const _))
    have h := (hL.sub (hfl.const_mul 365.25)).sub_const (c.gapCenter i)
    exact measurable_norm.comp h
  refine Measurable.add ?_ ?_
  · refine Measurable.ite ?_ measurable_const measurable_const
    by_cases hp : c.posivity = true
    · simp only [hp, true_and]
      exact measurableSet_lt measurable_fst (by fun_prop)
    · simp [hp]
  · refine Measurable.ite ?_
      ((((hD.div_const (c.gapWidth i)).pow_const 2).const_sub 1).const_mul 100) measurable_const
    by_cases hp : c.gap = true
    · simp only [hp, true_and]
      exact (measurableSet_lt hD measurable_const).inter
        (measurableSet_lt (Real.measurable_exp.comp measurable_snd) measurable_const)
    · simp [hp]

namespace LineCfg
variable (c : LineCfg)

theorem measurable_logPrior :
    Measurable fun y : Fin c.numParams → ℝ => logPrior c (extendVec y) := by
  unfold logPrior
  refine Measurable.sub (Finset.measurable_sum _ fun i _ => ?_)
    (Finset.measurable_sum _ fun i _ => Finset.measurable_sum _ fun j _ =>
      Finset.measurable_sum _ fun k _ => ?_)
  · exact ((((measurable_extendVec i).sub_const _).pow_const 2).div_const _).neg
  · exact (measurable_compPenalty c i).comp
      ((measurable_extendVec _).prodMk (measurable_extendVec _))

theorem measurableSet_region : MeasurableSet {y : Fin c.numParams → ℝ | InLinePrior c y} := by
  have : {y : Fin c.numParams → ℝ | InLinePrior c y} =
      (⋂ i : Fin c.numParams, ⋂ _ : c.fix i = none, {y | y i ∈ Ico (c.rng i).1 (c.rng i).2}) ∩
      ⋂ (_ : c.typeLag = 0) (i : ℕ) (j : ℕ) (k : ℕ) (_ : i < c.nl.length) (_ : j < ownLines c i)
        (_ : k + 1 < c.ng), {y : Fin c.numParams → ℝ | extendVec y (lineStart c i j + (3 * k + 2)) ≤
          extendVec y (lineStart c i j + (3 * (k + 1) + 2))} := by
    ext y
    simp only [mem_inter_iff, mem_iInter, mem_ofPred_eq]
    exact ⟨fun h => ⟨h.range, h.order⟩, fun h => ⟨h.1, h.2⟩⟩
  rw [this]
  refine MeasurableSet.inter ?_ ?_
  · refine MeasurableSet.iInter fun i => MeasurableSet.iInter fun _ => ?_
    exact measurable_pi_apply i measurableSet_Ico
  · refine MeasurableSet.iInter fun _ => MeasurableSet.iInter fun i => MeasurableSet.iInter fun j =>
      MeasurableSet.iInter fun k => MeasurableSet.iInter fun _ => MeasurableSet.iInter fun _ =>
      MeasurableSet.iInter fun _ => ?_
    exact measurableSet_le (measurable_extendVec _) (measurable_extendVec _)

open Classical in
/-- The density of the independent parameters. -/
noncomputable def density (y : Fin c.numParams → ℝ) : ℝ≥0∞ :=
  if InLinePrior c y then ENNReal.ofReal (Real.exp (logPrior c (extendVec y))) else 0

theorem measurable_density : Measurable c.density :=
  Measurable.ite c.measurableSet_region
    (ENNReal.measurable_ofReal.comp (Real.measurable_exp.comp c.measurable_logPrior)) measurable_const

/-- The value of `logH` of a move of parameter `w`. -/
noncomputable def moveA (w : ℕ) (p : (Fin c.numParams → ℝ) × (Fin c.numParams → ℝ)) : ℝ :=
  match c.moveLogH (extendVec p.1) (extendVec p.2) w with
  | .ok l => l
  | _ => 0

theorem moveA_eq {w : ℕ} {x q : Fin c.numParams → ℝ} {l : ℝ}
    (h : c.moveLogH (extendVec x) (extendVec q) w = .ok l) : c.moveA w (x, q) = l := by
  unfold moveA
  rw [h]

theorem moveA_ok (hs : c.SharedOk) (hg : c.gap → ∀ i < c.nl.length, 0 < c.nl.getD i 0)
    (w : Fin c.numParams) (hf : c.fix w = none) (x : Fin c.numParams → ℝ) (t : ℝ) :
    c.moveLogH (extendVec x) (extendVec (Function.update x w t)) w =
      .ok (c.moveA w (x, Function.update x w t)) := by
  obtain ⟨l, l', hl, -⟩ := c.log_balance' hs hg (extendVec x) t w.2 hf
  rw [← extendVec_update] at hl
  rw [hl, c.moveA_eq hl]

theorem measurable_moveA (hs : c.SharedOk) (hg : c.gap → ∀ i < c.nl.length, 0 < c.nl.getD i 0)
    (w : Fin c.numParams) (hf : c.fix w = none) : Measurable (c.moveA w) := by
  by_cases hv : (w : ℕ) < c.numVar
  · have : c.moveA w = fun p => 0 - c.varTerm w (p.1 w) + c.varTerm w (p.2 w) := by
      funext p
      unfold moveA moveLogH
      simp only [hv, if_true, extendVec_lt]
    rw [this]
    unfold varTerm
    have h1 : Measurable fun p : (Fin c.numParams → ℝ) × (Fin c.numParams → ℝ) => p.1 w :=
      (measurable_pi_apply w).comp measurable_fst
    have h2 : Measurable fun p : (Fin c.numParams → ℝ) × (Fin c.numParams → ℝ) => p.2 w :=
      (measurable_pi_apply w).comp measurable_snd
    fun_prop
  · rcases c.moveLogH_line hs hg w.2 (by omega) hf with ⟨hz, -⟩ | ⟨i, j, k, hi, hj, hk, hz, -⟩
    · have : c.moveA w = fun _ => 0 := funext fun p => c.moveA_eq (hz _ _)
      rw [this]; exact measurable_const
    · have : c.moveA w = fun p => -compPenalty c i (extendVec p.2 (lineStart c i j + (3 * k + 2)))
          (extendVec p.2 (lineStart c i j + (3 * k + 3))) := funext fun p => c.moveA_eq (hz _ _)
      rw [this]
      exact ((measurable_compPenalty c i).comp (((measurable_extendVec _).comp measurable_snd).prodMk
        ((measurable_extendVec _).comp measurable_snd))).neg

theorem moveA_copy (hs : c.SharedOk) (hg : c.gap → ∀ i < c.nl.length, 0 < c.nl.getD i 0)
    (w : Fin c.numParams) (hf : c.fix w = none) (y : Fin c.numParams → ℝ) (t : ℝ) :
    c.moveA w (c.copyVec y, Function.update (c.copyVec y) w t) =
      c.moveA w (y, Function.update y w t) := by
  refine c.moveA_eq ?_
  rw [← c.moveA_ok hs hg w hf]
  refine c.moveLogH_congr hs hg w.2 hf (c.extend_copyVec hs y) fun a ha => ?_
  rw [extendVec_update, extendVec_update]
  by_cases e : a = w
  · rw [e, Function.update_self, Function.update_self]
  · rw [Function.update_of_ne e, Function.update_of_ne e, c.extend_copyVec hs y a ha]

theorem density_balance (hs : c.SharedOk) (hg : c.gap → ∀ i < c.nl.length, 0 < c.nl.getD i 0)
    (w : Fin c.numParams) (hf : c.fix w = none) (y : Fin c.numParams → ℝ)
    (t : ℝ) (ht : t ∈ Ico (c.bounds (extendVec y) w).1 (c.bounds (extendVec y) w).2)
    (q : ℝ) (hq : q ∈ Ico (c.bounds (extendVec y) w).1 (c.bounds (extendVec y) w).2) :
    c.density (Function.update y w t) * ENNReal.ofReal (Real.exp (min 0
        (c.moveA w (Function.update y w t, Function.update y w q)))) =
      c.density (Function.update y w q) * ENNReal.ofReal (Real.exp (min 0
        (c.moveA w (Function.update y w q, Function.update y w t)))) := by
  unfold density
  by_cases h : InLinePrior c (Function.update y w t)
  · rw [if_pos h, if_pos (c.region_move hs hg w hf y t q h hq),
      ← ENNReal.ofReal_mul (Real.exp_pos _).le, ← ENNReal.ofReal_mul (Real.exp_pos _).le,
      ← Real.exp_add, ← Real.exp_add]
    obtain ⟨l, l', hl, hl', hb⟩ := c.log_balance' hs hg (extendVec (Function.update y w t)) q w.2 hf
    rw [← extendVec_update, Function.update_idem] at hl hl' hb
    rw [c.moveA_eq hl, c.moveA_eq hl', hb]
  · rw [if_neg h, if_neg fun h' => h (c.region_move hs hg w hf y q t h' ht)]
    simp

theorem measurable_bounds (w : ℕ) (hw : w < c.numParams) :
    Measurable (fun y : Fin c.numParams → ℝ => (c.bounds (extendVec y) w).1) ∧
    Measurable (fun y : Fin c.numParams → ℝ => (c.bounds (extendVec y) w).2) := by
  rcases c.bounds_cases w hw with hb | ⟨ho, b, -, k, hk, e, hb⟩
  · simp only [hb]; exact ⟨measurable_const, measurable_const⟩
  · simp only [hb]
    constructor
    · split
      · exact measurable_const
      · exact measurable_extendVec _
    · split
      · exact measurable_extendVec _
      · exact measurable_const

theorem bounds_upd (hs : c.SharedOk) (w : Fin c.numParams) (hf : c.fix w = none)
    (y : Fin c.numParams → ℝ) (t : ℝ) :
    c.bounds (extendVec (Function.update y w t)) w = c.bounds (extendVec y) w :=
  c.bounds_congr hs w.2 hf fun _ _ h => c.ext_ne y w t h

theorem bounds_copy (hs : c.SharedOk) (w : Fin c.numParams) (hf : c.fix w = none)
    (y : Fin c.numParams → ℝ) :
    c.bounds (extendVec (c.copyVec y)) w = c.bounds (extendVec y) w :=
  c.bounds_congr hs w.2 hf fun a ha _ => c.extend_copyVec hs y a ha

theorem density_supp (hs : c.SharedOk) (hg : c.gap → ∀ i < c.nl.length, 0 < c.nl.getD i 0)
    (w : Fin c.numParams) (hf : c.fix w = none) (y : Fin c.numParams → ℝ) (G : ℝ → ℝ≥0∞) :
    ∫⁻ t, c.density (Function.update y w t) * G t =
      ∫⁻ t in Ico (c.bounds (extendVec y) w).1 (c.bounds (extendVec y) w).2,
        c.density (Function.update y w t) * G t := by
  rw [Measure.restrict_congr_set Ico_ae_eq_Icc, ← lintegral_indicator measurableSet_Icc]
  refine lintegral_congr fun t => ?_
  by_cases ht : t ∈ Icc (c.bounds (extendVec y) w).1 (c.bounds (extendVec y) w).2
  · rw [indicator_of_mem ht]
  · rw [indicator_of_notMem ht]
    have : ¬ InLinePrior c (Function.update y w t) := fun h =>
      ht (c.region_in hs hg w hf y t h)
    unfold density
    rw [if_neg this, zero_mul]

/-- The step width of a move of parameter `w`. -/
noncomputable def moveWidth (w : Fin c.numParams) (cands : List (Fin c.numParams)) (lv : ℕ) (size : ℤ)
    (lim : ℤ → Fin c.numParams → ℝ × ℝ) : ℝ :=
  if c.ordered then c.stepWidth 0 10 ⟨cands, 0, lv, size, lim⟩ w
  else c.stepWidth 5 15 ⟨cands, 0, lv, size, lim⟩ w

theorem stepWidth_below (a b : ℤ) (ha : 0 ≤ a) (cands : List (Fin c.numParams)) (h : ℝ) (lv : ℕ)
    (size : ℤ) (lim lim' : ℤ → Fin c.numParams → ℝ × ℝ)
    (hl : ∀ l : ℤ, 0 ≤ l → l < lv → lim l = lim' l) (w : Fin c.numParams) :
    c.stepWidth a b ⟨cands, h, lv, size, lim⟩ w = c.stepWidth a b ⟨cands, h, lv, size, lim'⟩ w := by
  unfold stepWidth
  dsimp only
  generalize hwl : (if (lv : ℤ) - a > size - b then size - b else (lv : ℤ) - a) = wl
  by_cases hp : wl > 0
  · have hle : wl ≤ lv := by rw [← hwl]; split <;> omega
    rw [if_pos hp, if_pos hp, hl (wl - 1) (by omega) (by omega)]
  · rw [if_neg hp, if_neg hp]

theorem dnestWrap_fold' {lo hi : ℝ} (h : lo ≤ hi) (y : ℝ) :
    dnestWrap y lo hi = .ok (foldTo lo hi y) := by
  rcases h.lt_or_eq with h | rfl
  · exact dnestWrap_fold h y
  · simp [dnestWrap, cmod, foldTo]

/-- A move of the line model on a vector inside the prior's region. -/
theorem linePerturb_eq (hs : c.SharedOk) (hg : c.gap → ∀ i < c.nl.length, 0 < c.nl.getD i 0)
    {cands : List (Fin c.numParams)} {w : Fin c.numParams} (hw : c.pick cands = .ok w)
    (x : Fin c.numParams → ℝ)
    (hb : (c.bounds (extendVec x) w).1 ≤ (c.bounds (extendVec x) w).2) (h : ℝ) (lv : ℕ) (size : ℤ)
    (lim : ℤ → Fin c.numParams → ℝ × ℝ) :
    linePerturb c ⟨cands, h, lv, size, lim⟩ x =
      .ok (c.copyVec (movedVec w (fun y => (c.bounds (extendVec y) w).1)
          (fun y => (c.bounds (extendVec y) w).2) (c.moveWidth w cands lv size lim) (x, h)),
        c.moveA w (x, movedVec w (fun y => (c.bounds (extendVec y) w).1)
          (fun y => (c.bounds (extendVec y) w).2) (c.moveWidth w cands lv size lim) (x, h))) := by
  have hf := c.pick_free hw
  unfold linePerturb LineCfg.perturb
  rw [hw, Res.ok_bind]
  dsimp only
  rw [dnestWrap_fold' hb, Res.ok_bind, ← extendVec_update, c.moveA_ok hs hg w hf, Res.ok_bind]
  obtain ⟨q, hq, hqe⟩ := c.share_copyVec hs (Function.update x w (foldTo (c.bounds (extendVec x) w).1
    (c.bounds (extendVec x) w).2 (extendVec x w + h * if c.ordered = true then
      c.stepWidth 0 10 ⟨cands, h, lv, size, lim⟩ w else c.stepWidth 5 15 ⟨cands, h, lv, size, lim⟩ w)))
  rw [hq, Res.ok_bind, Res.pure_eq, Res.ok_bind, Res.pure_eq]
  simp only [hqe, extendVec_lt]
  rfl

theorem keeps (hs : c.SharedOk) (hg : c.gap → ∀ i < c.nl.length, 0 < c.nl.getD i 0)
    {cands : List (Fin c.numParams)} {w : Fin c.numParams} (hw : c.pick cands = .ok w)
    (η : Measure ℝ) [IsProbabilityMeasure η] (hη : η.map (fun h => -h) = η) :
    Keeps (linePerturb c) (linePrior c) η cands := by
  classical
  have hf := c.pick_free hw
  obtain ⟨hml, hmh⟩ := c.measurable_bounds w w.2
  have hbase : ∀ F : (Fin c.numParams → ℝ) → ℝ≥0∞, Measurable F → ∫⁻ x, F x ∂linePrior c =
      ∫⁻ y, c.density y * F (c.copyVec y) ∂(Measure.pi fun i : Fin c.numParams => match c.fix i with
      | some v => Measure.dirac v
      | none => (volume : Measure ℝ)) := by
    intro F hF
    have h1 : ∫⁻ x, F x ∂linePrior c = _ := lintegral_map hF c.measurable_copyVec
    rw [h1]
    exact lintegral_withDensity_eq_lintegral_mul _ c.measurable_density (hF.comp c.measurable_copyVec)
  have hσ : ∀ i : Fin c.numParams, SigmaFinite (match c.fix i with
      | some v => Measure.dirac v
      | none => (volume : Measure ℝ)) := by
    intro i
    cases c.fix i <;> dsimp only <;> infer_instance
  constructor
  · intro h lv size lim lim' x hl
    unfold linePerturb LineCfg.perturb
    rw [hw, Res.ok_bind, Res.ok_bind]
    dsimp only
    rw [c.stepWidth_below 0 10 le_rfl cands h lv size lim lim' hl w,
      c.stepWidth_below 5 15 (by norm_num) cands h lv size lim lim' hl w]
  · intro size lim
    have hT := fun lv => measurable_movedVec w hml hmh (c.moveWidth w cands lv size lim)
    refine ⟨fun lv p => c.copyVec (movedVec w (fun y => (c.bounds (extendVec y) w).1)
          (fun y => (c.bounds (extendVec y) w).2) (c.moveWidth w cands lv size lim) p),
      fun lv p => c.moveA w (p.1, movedVec w (fun y => (c.bounds (extendVec y) w).1)
          (fun y => (c.bounds (extendVec y) w).2) (c.moveWidth w cands lv size lim) p),
      fun lv => c.measurable_copyVec.comp (hT lv),
      fun lv => (c.measurable_moveA hs hg w hf).comp (measurable_fst.prodMk (hT lv)), ?_, ?_⟩
    · have hset : MeasurableSet {x : Fin c.numParams → ℝ |
          (c.bounds (extendVec x) w).1 ≤ (c.bounds (extendVec x) w).2} := measurableSet_le hml hmh
      have hae : ∀ᵐ x ∂linePrior c,
          (c.bounds (extendVec x) w).1 ≤ (c.bounds (extendVec x) w).2 := by
        have hset' : MeasurableSet {x : Fin c.numParams → ℝ |
          ¬ (c.bounds (extendVec x) w).1 ≤ (c.bounds (extendVec x) w).2} := hset.compl
        rw [ae_iff, ← lintegral_indicator_one hset', hbase _ (measurable_one.indicator hset')]
        refine (lintegral_congr (g := fun _ => 0) fun y => ?_).trans lintegral_zero
        by_cases h : InLinePrior c y
        · have := c.region_in hs hg w hf y (y w) (by rwa [Function.update_eq_self])
          rw [indicator_of_notMem, mul_zero]
          simp only [mem_ofPred_eq, not_not, c.bounds_copy hs w hf]
          exact this.1.trans this.2
        · unfold density
          rw [if_neg h, zero_mul]
      exact hae.mono fun x hx lv h => c.linePerturb_eq hs hg hw x hx h lv size lim
    · intro lv L hL thr g hg'
      have hS := measurableSet_above hL thr
      have hq := c.measurable_copyVec.comp (hT lv)
      have ha := (c.measurable_moveA hs hg w hf).comp (measurable_fst.prodMk (hT lv))
      refine (hbase _ ((hg'.comp (measurable_newPar hL thr hq ha)).lintegral_prod_right'.indicator
        hS)).trans ?_
      rw [hbase _ (hg'.indicator hS)]
      have := pi_metropolis (fun i : Fin c.numParams => match c.fix i with
        | some v => Measure.dirac v
        | none => (volume : Measure ℝ)) w (fun y => (c.bounds (extendVec y) w).1)
        (fun y => (c.bounds (extendVec y) w).2) hml hmh
        (fun y t => by simp only [c.bounds_upd hs w hf]) (fun y t => by simp only [c.bounds_upd hs w hf])
        (c.moveWidth w cands lv size lim) η hη c.density c.measurable_density (c.moveA w)
        (c.measurable_moveA hs hg w hf) (fun y t ht q hq => c.density_balance hs hg w hf y t ht q hq)
        (fun y G => by simp only [hf]; exact c.density_supp hs hg w hf y G)
        (c.copyVec ⁻¹' {x | thr < L x}) (c.measurable_copyVec hS) (g ∘ c.copyVec)
        (hg'.comp c.measurable_copyVec)
      refine Eq.trans ?_ (this.trans ?_)
      · refine lintegral_congr fun y => ?_
        congr 1
        by_cases hy : c.copyVec y ∈ {x | thr < L x}
        · rw [indicator_of_mem hy,
            indicator_of_mem (show y ∈ c.copyVec ⁻¹' {x | thr < L x} from hy)]
          refine lintegral_congr fun r => ?_
          have hmv : ∀ h, movedVec w (fun y => (c.bounds (extendVec y) w).1)
              (fun y => (c.bounds (extendVec y) w).2) (c.moveWidth w cands lv size lim)
                (c.copyVec y, h) =
              Function.update (c.copyVec y) w (movedVec w (fun y => (c.bounds (extendVec y) w).1)
              (fun y => (c.bounds (extendVec y) w).2) (c.moveWidth w cands lv size lim) (y, h) w) := by
            intro h
            unfold movedVec
            simp only [c.bounds_copy hs w hf, Function.update_self]
            rw [show c.copyVec y w = y w by
              unfold copyVec; rw [c.sourceOf_own hs (c.free_not_target hf)]]
          have hmv' : ∀ h, Function.update y w (movedVec w (fun y => (c.bounds (extendVec y) w).1)
              (fun y => (c.bounds (extendVec y) w).2) (c.moveWidth w cands lv size lim) (y, h) w) =
              movedVec w (fun y => (c.bounds (extendVec y) w).1)
              (fun y => (c.bounds (extendVec y) w).2) (c.moveWidth w cands lv size lim) (y, h) := by
            intro h
            unfold movedVec
            rw [Function.update_self]
          unfold newPar
          simp only [Function.comp_apply]
          rw [hmv, c.copyVec_update hs, c.moveA_copy hs hg w hf, hmv']
          simp only [mem_preimage, mem_ofPred_eq]
          split <;> rfl
        · rw [indicator_of_notMem hy,
            indicator_of_notMem (show y ∉ c.copyVec ⁻¹' {x | thr < L x} from hy)]
      · refine lintegral_congr fun y => ?_
        congr 1

end LineCfg
end Mica
