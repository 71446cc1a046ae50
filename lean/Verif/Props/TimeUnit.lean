import Verif.Proof.TimeUnit2
import Verif.Model.ConRanges
import Verif.Props.Vmap

/-! # C134: the unit of time -/

namespace Mica

open Matrix

theorem mapIdx_of_map {α β γ : Type*} (l : List α) (f : α → β) (g : ℕ → β → γ) :
    (l.map f).mapIdx g = l.mapIdx fun k d => g k (f d) := by
  apply List.ext_getElem?
  intro k
  simp only [List.getElem?_mapIdx, List.getElem?_map, Option.map_map]
  rfl

theorem sum_sub_const {α : Type*} (l : List α) (f g : ℕ → α → ℝ) (n : α → ℕ) (u : ℝ)
    (h : ∀ k d, l[k]? = some d → f k d = g k d - n d * u) :
    (l.mapIdx f).sum = (l.mapIdx g).sum - (l.map n).sum * u := by
  induction l generalizing f g with
  | nil => simp
  | cons d l ih =>
    rw [List.mapIdx_cons, List.mapIdx_cons, List.sum_cons, List.sum_cons, List.map_cons, List.sum_cons,
      h 0 d rfl, ih (fun k => f (k + 1)) (fun k => g (k + 1)) fun k d hd => h (k + 1) d (by simpa using hd)]
    push_cast
    ring

/-- C134, continuum: if the times are given in another unit (`a` new units in an old one) and damping time and
amplitude are converted, the two continuum likelihoods change by a constant that depends on nothing but the number of
light curves, the number of trend coefficients and `a`; without trend they do not change. -/
theorem C134_con {a : ℝ} (ha : 0 < a) (nq : ℕ) (pm pm' : ℕ → ℝ) (idx : ℕ → ℕ) (mem mem' : ℕ → ℝ) (ds : List LC)
    (h : ConDataOK nq pm idx ds)
    (hp : ∀ k < ds.length, pm' (idx k) = pm (idx k) ∧ pm' (idx k + 1) = pm (idx k + 1) - Real.log a / 2 ∧
      pm' (idx k + 2) = pm (idx k + 2) + Real.log a) :
    ∃ v, probCon nq pm idx mem ds = .ok v ∧ probConSemi nq pm idx ds = some v ∧
      probCon nq pm' idx mem' (ds.map (LC.inUnit a)) = .ok (v - ds.length * (nq * (nq - 1) / 2) * Real.log a) ∧
      probConSemi nq pm' idx (ds.map (LC.inUnit a)) = some (v - ds.length * (nq * (nq - 1) / 2) * Real.log a) := by
  have hlt : ∀ {k d}, ds[k]? = some d → k < ds.length := fun hd => (List.getElem?_eq_some_iff.1 hd).1
  have h' : ConDataOK nq pm' idx (ds.map (LC.inUnit a)) := by
    intro k d hd
    rw [List.getElem?_map, Option.map_eq_some_iff] at hd
    obtain ⟨d0, hd0, rfl⟩ := hd
    rw [(hp k (hlt hd0)).1]
    exact ⟨(h k d0 hd0).1.inUnit ha, (h k d0 hd0).2.inUnit ha⟩
  have hv := con_value nq pm idx mem ds h
  have hv' := con_value nq pm' idx mem' _ h'
  have e : ((ds.map (LC.inUnit a)).mapIdx fun k d =>
      margLL (conCov pm' (idx k) d) (trendMat d.t d.n nq) (fun i => d.f i)).sum =
      (ds.mapIdx fun k d => margLL (conCov pm (idx k) d) (trendMat d.t d.n nq) (fun i => d.f i)).sum -
        ds.length * (nq * (nq - 1) / 2) * Real.log a := by
    rw [mapIdx_of_map]
    refine Eq.trans (sum_sub_const ds _ (fun k d => margLL (conCov pm (idx k) d) (trendMat d.t d.n nq) (fun i => d.f i))
      (fun _ => 1) (unitConst nq * Real.log a) fun k d hd => ?_) ?_
    · obtain ⟨h0, h1, h2⟩ := hp k (hlt hd)
      rw [Nat.cast_one, one_mul]
      exact margLL_con_inUnit ha nq d h0 h1 h2 (h k d hd).1 (h k d hd).2
    · rw [unitConst_eq]
      simp only [List.map_const', List.sum_replicate, smul_eq_mul, mul_one]
      ring
  exact ⟨_, hv.1, hv.2, by rw [hv'.1, e], by rw [hv'.2, e]⟩

/-- Number of light curves of all data sets. -/
def numCurves (ds : List DSet) : ℕ := (ds.map fun d => 1 + d.line.length).sum

theorem line_inUnit {a : ℝ} (ha : 0 < a) {e e' : LineEnv} (he : EnvInUnit a e e') (ds : List DSet)
    (h : LineDataOK e ds) :
    ∃ v v4 : ℝ, (probLine1 e ds = .ok v ∧ probLine2 e ds = .ok v ∧ probLine3 e ds = .ok v ∧ probLine4 e ds = .ok v4) ∧
      let δ := numCurves ds * (e.nq * (e.nq - 1) / 2) * Real.log a
      probLine1 e' (ds.map (DSet.inUnit a)) = .ok (v - δ) ∧ probLine2 e' (ds.map (DSet.inUnit a)) = .ok (v - δ) ∧
      probLine3 e' (ds.map (DSet.inUnit a)) = .ok (v - δ) ∧ probLine4 e' (ds.map (DSet.inUnit a)) = .ok (v4 - δ) := by
  have h' : LineDataOK e' (ds.map (DSet.inUnit a)) := by
    intro k d hd
    rw [List.getElem?_map, Option.map_eq_some_iff] at hd
    obtain ⟨d0, hd0, rfl⟩ := hd
    obtain ⟨h1, h2, h3⟩ := h k d0 hd0
    rw [(he.pars k).sys, he.nq]
    refine ⟨h1.inUnit ha, fun b hb => ?_, (lineVal_inUnit ha he k d0 h2 h3).2.2⟩
    rw [show (d0.inUnit a).series = d0.series.map (LC.inUnit a) from rfl, List.mem_map] at hb
    obtain ⟨b0, hb0, rfl⟩ := hb
    exact (h2 b0 hb0).inUnit ha
  have hv := line_value e ds h
  have hv' := line_value e' _ h'
  have e1 : ((ds.map (DSet.inUnit a)).mapIdx fun k d =>
      margLL (lineCov e' k d) (d.trend e'.nq) (fun i => d.fall i)).sum =
      (ds.mapIdx fun k d => margLL (lineCov e k d) (d.trend e.nq) (fun i => d.fall i)).sum -
        numCurves ds * (e.nq * (e.nq - 1) / 2) * Real.log a := by
    rw [mapIdx_of_map]
    refine Eq.trans (sum_sub_const ds _ (fun k d => margLL (lineCov e k d) (d.trend e.nq) (fun i => d.fall i))
      (fun d => 1 + d.line.length) (unitConst e.nq * Real.log a) fun k d hd => ?_) ?_
    · obtain ⟨-, h2, h3⟩ := h k d hd
      rw [← mul_assoc]
      exact (lineVal_inUnit ha he k d h2 h3).1
    · rw [unitConst_eq, numCurves]; ring
  have e4 : ((ds.map (DSet.inUnit a)).mapIdx fun k d => lineVal4 e' k d).sum =
      (ds.mapIdx fun k d => lineVal4 e k d).sum - numCurves ds * (e.nq * (e.nq - 1) / 2) * Real.log a := by
    rw [mapIdx_of_map]
    refine Eq.trans (sum_sub_const ds _ (fun k d => lineVal4 e k d)
      (fun d => 1 + d.line.length) (unitConst e.nq * Real.log a) fun k d hd => ?_) ?_
    · obtain ⟨-, h2, h3⟩ := h k d hd
      rw [← mul_assoc]
      exact (lineVal_inUnit ha he k d h2 h3).2.1
    · rw [unitConst_eq, numCurves]; ring
  refine ⟨_, _, ⟨hv.1, hv.2.1, hv.2.2, line_value4 e ds h⟩, ?_, ?_, ?_, ?_⟩
  · rw [hv'.1, e1]
  · rw [hv'.2.1, e1]
  · rw [hv'.2.2, e1]
  · rw [line_value4 e' _ h', e4]

/-- C134, lines, any mixture of transfer functions.  Missing: parameters at which the difference between a width and the
damping time is larger than the absolute threshold `EPS` in one unit and not in the other
(`C134_mixture_fails`). -/
theorem C134_mixture_partial {a : ℝ} (ha : 0 < a) (nq ng : ℕ) (lin : Bool) (typ : ℕ → TF) (pm pm' : ℕ → ℝ)
    (idxc : ℕ → ℕ) (idxl : ℕ → ℕ → ℕ) (mem mem' : ℕ → ℝ) (ds : List DSet)
    (h : LineDataOK (tfEnv nq ng lin typ pm idxc idxl mem) ds) (hp : ∀ k, InUnit a ng pm pm' (idxc k) (idxl k))
    (hs : ∀ i, ∀ k < ng, ∀ k' < ng, typ k ≠ typ k' → ∀ j,
      SameSide a (Real.exp (pm (idxc i + 2))) (Real.exp (pm (idxl i j + 1 + 3 * k + 2)))) :
    ∃ v v4 : ℝ,
      (let e := tfEnv nq ng lin typ pm idxc idxl mem;
        probLine1 e ds = .ok v ∧ probLine2 e ds = .ok v ∧ probLine3 e ds = .ok v ∧ probLine4 e ds = .ok v4) ∧
      let e' := tfEnv nq ng lin typ pm' idxc idxl mem'
      let δ := numCurves ds * (nq * (nq - 1) / 2) * Real.log a
      probLine1 e' (ds.map (DSet.inUnit a)) = .ok (v - δ) ∧ probLine2 e' (ds.map (DSet.inUnit a)) = .ok (v - δ) ∧
      probLine3 e' (ds.map (DSet.inUnit a)) = .ok (v - δ) ∧ probLine4 e' (ds.map (DSet.inUnit a)) = .ok (v4 - δ) :=
  line_inUnit ha (e := tfEnv nq ng lin typ pm idxc idxl mem) (e' := tfEnv nq ng lin typ pm' idxc idxl mem')
    ⟨rfl, fun k => (hp k).zero ha, fun k => (hp k).kernels ha lin typ fun _ h1 _ h2 hne j => hs k _ h1 _ h2 hne j⟩ ds h

/-- C134, lines: with transfer functions of one type, any number of components, the four line likelihoods change by a
constant only when times, lags, widths, damping time and amplitude are given in another unit of time. -/
theorem C134_line {a : ℝ} (ha : 0 < a) (nq ng : ℕ) (lin : Bool) (T : TF) (pm pm' : ℕ → ℝ)
    (idxc : ℕ → ℕ) (idxl : ℕ → ℕ → ℕ) (mem mem' : ℕ → ℝ) (ds : List DSet)
    (h : LineDataOK (tfEnv nq ng lin (fun _ => T) pm idxc idxl mem) ds)
    (hp : ∀ k, InUnit a ng pm pm' (idxc k) (idxl k)) :
    ∃ v v4 : ℝ,
      (let e := tfEnv nq ng lin (fun _ => T) pm idxc idxl mem;
        probLine1 e ds = .ok v ∧ probLine2 e ds = .ok v ∧ probLine3 e ds = .ok v ∧ probLine4 e ds = .ok v4) ∧
      let e' := tfEnv nq ng lin (fun _ => T) pm' idxc idxl mem'
      let δ := numCurves ds * (nq * (nq - 1) / 2) * Real.log a
      probLine1 e' (ds.map (DSet.inUnit a)) = .ok (v - δ) ∧ probLine2 e' (ds.map (DSet.inUnit a)) = .ok (v - δ) ∧
      probLine3 e' (ds.map (DSet.inUnit a)) = .ok (v - δ) ∧ probLine4 e' (ds.map (DSet.inUnit a)) = .ok (v4 - δ) :=
  C134_mixture_partial ha nq ng lin (fun _ => T) pm pm' idxc idxl mem mem' ds h hp
    fun _ _ _ _ _ hne => absurd rfl hne

/-- Damping time 4 years, width of the exponential component a thousandth of a day longer: the covariance of this
component with a gamma component of width 2 years has one value if the times are in days and another if
they are in years. -/
theorem C134_mixture_fails :
    let a : ℝ := 4 / 1461
    let taud : ℝ := 1461
    let x : Comp := ⟨1, 1461 + 1 / 1000, 1461 + 1 / 1000⟩
    let y : Comp := ⟨1, 1461, 1461 / 2⟩
    fpSll .exp .gamma (a * taud) (x.inUnit a) (y.inUnit a) (a * 0) ≠ fpSll .exp .gamma taud x y 0 := by
  intro a taud x y
  simp only [fpSll, sllExpGam, Comp.inUnit, a, taud, x, y]
  have h1 : ¬ |(4 / 1461 : ℝ) * 1461 - 4 / 1461 * (1461 + 1 / 1000)| > kEPS := by
    rw [kEPS, not_lt]
    rw [abs_le]
    constructor <;> norm_num
  have h2 : |(1461 : ℝ) - (1461 + 1 / 1000)| > kEPS := by
    rw [kEPS]
    have : (1461 : ℝ) - (1461 + 1 / 1000) = -(1 / 1000) := by ring
    rw [this, abs_neg, abs_of_pos (by norm_num)]
    norm_num
  simp only [h1, h2, if_true, if_false]
  norm_num

/-- C134, mode without continuum: there the amplitude is that of the variations themselves and stays as it is. -/
theorem C134_vmap {a : ℝ} (ha : 0 < a) (nq ng : ℕ) (lin : Bool) (T : TF) (pm pm' : ℕ → ℝ)
    (idxc : ℕ → ℕ) (idxl : ℕ → ℕ → ℕ) (mem mem' : ℕ → ℝ) (ds : List (List LC))
    (h : VmapOK (tfEnv nq ng lin (fun _ => T) pm idxc idxl mem) ds)
    (hp : ∀ k, LagsInUnit a ng pm pm' (idxc k) (idxl k)) (hs : ∀ k, pm' (idxc k + 1) = pm (idxc k + 1)) :
    ∃ v v4 : ℝ,
      (let e := tfEnv nq ng lin (fun _ => T) pm idxc idxl mem;
        probVmap3 e ds = .ok v ∧ probVmap4 e ds = .ok v4) ∧
      let e' := tfEnv nq ng lin (fun _ => T) pm' idxc idxl mem'
      let δ := (ds.map List.length).sum * (nq * (nq - 1) / 2) * Real.log a
      probVmap3 e' (ds.map fun ls => ls.map (LC.inUnit a)) = .ok (v - δ) ∧
      probVmap4 e' (ds.map fun ls => ls.map (LC.inUnit a)) = .ok (v4 - δ) := by
  set e := tfEnv nq ng lin (fun _ => T) pm idxc idxl mem with he
  set e' := tfEnv nq ng lin (fun _ => T) pm' idxc idxl mem' with he'
  have hK : ∀ k, (e.K k).SameIn a (e'.K k) := fun k => (hp k).kernels ha lin _ fun _ _ _ _ hne => absurd rfl hne
  have key := fun k ls (hd : ds[k]? = some ls) => vVal_inUnit ha (e := e) (e' := e') rfl hK k ls (hs k) (hp k).tau
    (hp k).lineSys (h k ls hd).2.1 (h k ls hd).2.2
  have h' : VmapOK e' (ds.map fun ls => ls.map (LC.inUnit a)) := by
    intro k ls hd
    rw [List.getElem?_map, Option.map_eq_some_iff] at hd
    obtain ⟨l0, hd0, rfl⟩ := hd
    refine ⟨by simpa using (h k l0 hd0).1, fun b hb => ?_, (key k l0 hd0).2.2⟩
    obtain ⟨b0, hb0, rfl⟩ := List.mem_map.1 hb
    exact ((h k l0 hd0).2.1 b0 hb0).inUnit ha
  obtain ⟨v3, v4⟩ := vmap_value e ds h
  obtain ⟨w3, w4⟩ := vmap_value e' _ h'
  refine ⟨_, _, ⟨v3, v4⟩, ?_, ?_⟩
  · rw [w3, mapIdx_of_map]
    congr 1
    refine Eq.trans (sum_sub_const ds _ (fun k ls => margLL (vmapCov e k ls) (vTrend e.nq ls) (vFall ls))
      List.length (unitConst e.nq * Real.log a) fun k ls hd => ?_) ?_
    · rw [← mul_assoc]
      exact (key k ls hd).1
    · rw [unitConst_eq, ← mul_assoc]; rfl
  · rw [w4, mapIdx_of_map]
    congr 1
    refine Eq.trans (sum_sub_const ds _ (fun k ls => vVal4 e k ls)
      List.length (unitConst e.nq * Real.log a) fun k ls hd => ?_) ?_
    · rw [← mul_assoc]
      exact (key k ls hd).2.1
    · rw [unitConst_eq, ← mul_assoc]; rfl

/-! ### Priors -/

/-- The options and data that set the prior ranges, in the other unit: time span, cadence, limits of lags and widths
and the ranges given as text.  `var_param` and its scatter come from the continuum stage. -/
noncomputable def LineCfg.inUnit (a : ℝ) (c : LineCfg) : LineCfg :=
  { c with
    tspan := a * c.tspan
    tcad := a * c.tcad
    lagLow := a * c.lagLow
    lagUpp := a * c.lagUpp
    widthLow := c.widthLow.map (a * ·)
    widthUpp := c.widthUpp.map (a * ·)
    lagPrior := fun i => a * c.lagPrior i
    widthPrior := c.widthPrior.map fun w i => w i + Real.log a }

/-- C134, priors: the ranges of lags, widths, amplitudes and systematic errors and the largest damping time follow
the unit.  Missing: the smallest damping time, one unit of time, and the range of the amplitude of the variations per square
root of time, from 1e-4 to 10, which do not (`C134_prior_fails`, `C134_prior_empty`). -/
theorem C134_prior_partial {a : ℝ} (ha : 0 < a) (c : LineCfg) (hts : 0 < c.tspan) (htc : 0 < c.tcad)
    (hwl : ∀ w, c.widthLow = some w → 0 < w) (hwu : ∀ w, c.widthUpp = some w → 0 < w)
    (hl : c.lagRange.1 < c.lagRange.2) :
    (c.inUnit a).lagRange = (a * c.lagRange.1, a * c.lagRange.2) ∧
    (∀ k, (c.inUnit a).lagWindow k = (a * (c.lagWindow k).1, a * (c.lagWindow k).2)) ∧
    (∀ k, (c.inUnit a).widthWindow k = ((c.widthWindow k).1 + Real.log a, (c.widthWindow k).2 + Real.log a)) ∧
    (∀ k, (c.inUnit a).ampWindow k = c.ampWindow k) ∧
    (c.inUnit a).varRange 0 = c.varRange 0 ∧
    ((c.inUnit a).varRange 2).2 = (c.varRange 2).2 + Real.log a := by
  have hlog : ∀ {x : ℝ}, 0 < x → Real.log (a * x) = Real.log x + Real.log a := fun hx => by
    rw [Real.log_mul ha.ne' hx.ne', add_comm]
  have hlag : (c.inUnit a).lagRange = (a * c.lagRange.1, a * c.lagRange.2) := by
    simp only [LineCfg.lagRange, LineCfg.inUnit]
    rw [mul_max_of_nonneg _ _ ha.le, mul_min_of_nonneg _ _ ha.le]
    congr 2 <;> ring
  have hw : (c.inUnit a).widthRange = (c.widthRange.1 + Real.log a, c.widthRange.2 + Real.log a) := by
    have h3 : Real.log (a * c.tspan / 3) = Real.log (c.tspan / 3) + Real.log a := by
      rw [mul_div_assoc, hlog (by positivity)]
    have h10 : Real.log (a * c.tcad / 10) = Real.log (c.tcad / 10) + Real.log a := by
      rw [mul_div_assoc, hlog (by positivity)]
    unfold LineCfg.widthRange
    simp only [LineCfg.inUnit]
    refine Prod.ext ?_ ?_
    · rcases hc : c.widthLow with _ | w
      · simpa only [Option.map_none] using h10
      · simpa only [Option.map_some] using hlog (hwl w hc)
    · rcases hc : c.widthUpp with _ | w
      · simpa only [Option.map_none] using h3
      · simp only [Option.map_some]
        rw [hlog (hwu w hc), h3, min_add_add_right]
  refine ⟨hlag, fun k => ?_, fun k => ?_, fun k => rfl, rfl, ?_⟩
  · have ho : (c.inUnit a).ordered = c.ordered := rfl
    unfold LineCfg.lagWindow
    rw [hlag, ho]
    have e1 : (c.inUnit a).typeLag = c.typeLag := rfl
    have e2 : (c.inUnit a).ng = c.ng := rfl
    have e3 : ∀ i, (c.inUnit a).lagPrior i = a * c.lagPrior i := fun _ => rfl
    rw [e1, e2]
    split
    · simp only [e3]
    · split
      · rfl
      · refine Prod.ext ?_ ?_ <;> simp only <;> ring
  · have e1 : (c.inUnit a).typeLag = c.typeLag := rfl
    have e2 : (c.inUnit a).ng = c.ng := rfl
    have e3 : (c.inUnit a).widthPrior = c.widthPrior.map fun w i => w i + Real.log a := rfl
    unfold LineCfg.widthWindow
    rw [hlag, hw, e1, e2, e3]
    rcases c.widthPrior with _ | w
    · simp only [Option.map_none]
      split
      · rename_i h
        have hg : (0 : ℝ) < c.ng - 1 := by
          have : (1 : ℝ) < c.ng := by exact_mod_cast h.2
          linarith
        have hd : 0 < c.lagRange.2 - c.lagRange.1 := by linarith
        refine Prod.ext ?_ ?_ <;> simp only
        · rw [← hlog (by positivity)]; congr 1; ring
        · rw [← hlog (by positivity)]; congr 1; ring
      · rfl
    · rfl
  · simp only [LineCfg.varRange, LineCfg.inUnit]
    rw [← hlog (by positivity)]
    congr 1
    ring

/-- A damping time of 100 days and an amplitude of 1 per square root of a day are allowed by the prior of the
continuum stage if the times of a monitoring of 1000 days are in days.  In years neither is. -/
theorem C134_prior_fails (c : LineCfg) (hts : c.tspan = 1000) :
    let a : ℝ := 4 / 1461
    ((c.varRange 2).1 ≤ Real.log 100 ∧ Real.log 100 ≤ (c.varRange 2).2) ∧
    Real.log 100 + Real.log a < ((c.inUnit a).varRange 2).1 ∧
    ((c.varRange 1).1 ≤ Real.log 1 ∧ Real.log 1 ≤ (c.varRange 1).2) ∧
    ((c.inUnit a).varRange 1).2 < Real.log 1 - Real.log a / 2 := by
  intro a
  have hpi := Real.pi_gt_three
  have ha : 0 < a := by norm_num [a]
  simp only [LineCfg.varRange, hts]
  refine ⟨⟨Real.log_le_log one_pos (by norm_num), Real.log_le_log (by norm_num) (by linarith)⟩, ?_,
    ⟨Real.log_le_log (by norm_num) (by norm_num), Real.log_le_log one_pos (by norm_num)⟩, ?_⟩
  · rw [← Real.log_mul (by norm_num) ha.ne']
    exact Real.log_lt_log (by positivity) (by norm_num [a])
  · have h2 : Real.log a + 2 * Real.log 10 < 0 := by
      rw [show (2 : ℝ) * Real.log 10 = Real.log (10 ^ 2) by rw [Real.log_pow]; norm_num,
        ← Real.log_mul ha.ne' (by norm_num)]
      exact Real.log_neg (by positivity) (by norm_num [a])
    rw [Real.log_one]
    linarith

/-- If the light curves span less than `1/(2π)` of the unit of time, the range of the damping time is upside down: every
attempt of the continuum stage to move a damping time ends the program. -/
theorem C134_prior_empty (c : LineCfg) (hts : 0 < c.tspan) (h1 : c.tspan * 2 * Real.pi < 1) (s : ConStep c.numVar)
    (pm : Fin c.numVar → ℝ) (i : Fin c.numVar) (rest : List (Fin c.numVar)) (hi : (i : ℕ) % 3 = 2)
    (hs : s.cands = i :: rest) : perturbCon c.conCfg s pm = .exit := by
  have hlt : (c.varRange 2).2 - (c.varRange 2).1 < 0 := by
    simp only [LineCfg.varRange, Real.log_one, sub_zero]
    exact Real.log_neg (by positivity) h1
  have hfix : (c.conCfg.fix i).isSome = false := by
    simp only [LineCfg.conCfg, hi]
    simp
  have hp : pickFree c.conCfg (i :: rest) = .ok i := by simp [pickFree, hfix]
  have hlo : c.conCfg.lo i = (c.varRange 2).1 := by simp only [LineCfg.conCfg, hi]
  have hhi : c.conCfg.hi i = (c.varRange 2).2 := by simp only [LineCfg.conCfg, hi]
  unfold perturbCon
  rw [hs, hp, Res.ok_bind]
  unfold dnestWrap cmod
  rw [hlo, hhi, if_neg (not_lt.2 hlt.le), if_neg hlt.ne]
  rfl

/-! ### Examples -/

/-- Two points with a linear trend, from days to hours: the likelihood is smaller by `log 24`. -/
example : ∃ v, probConSemi 2 (fun _ => 0) (fun _ => 0)
      [(⟨2, fun i => (i : ℝ), fun i => (i : ℝ) ^ 2 + 1, fun _ => 1, 1⟩ : LC)] = some v ∧
    probConSemi 2 (fun i => if i = 1 then -(Real.log 24 / 2) else if i = 2 then Real.log 24 else 0) (fun _ => 0)
      [(⟨2, fun i => 24 * (i : ℝ), fun i => (i : ℝ) ^ 2 + 1, fun _ => 1, 1⟩ : LC)] = some (v - Real.log 24) := by
  obtain ⟨v, -, h1, -, h2⟩ := C134_con (a := 24) (by norm_num) 2 (fun _ => 0)
    (fun i => if i = 1 then -(Real.log 24 / 2) else if i = 2 then Real.log 24 else 0) (fun _ => 0) (fun _ => 0)
    (fun _ => 0) [(⟨2, fun i => (i : ℝ), fun i => (i : ℝ) ^ 2 + 1, fun _ => 1, 1⟩ : LC)] (by
      intro k d hd
      rcases k with _ | k <;> simp at hd
      subst hd
      exact ⟨⟨fun i _ => by simp, Or.inr fun i _ => by simp⟩, fun i => i,
        fun i j hij => Fin.ext (by simpa using hij)⟩) (by intro k _; simp)
  refine ⟨v, h1, ?_⟩
  rw [show v - Real.log 24 = v - (1 : ℕ) * ((2 : ℕ) * ((2 : ℕ) - 1) / 2) * Real.log 24 by norm_num]
  exact h2

/-- Two data sets with one line each and a mixture of three components, in half units. -/
example : ∃ v,
    probLine4 (tfEnv 1 3 true mixEnv.typ mixEnv.pm (fun _ => 0) (fun _ _ => 3) fun _ => 0) [exSet, exSet] = .ok v ∧
    probLine4 (tfEnv 1 3 true mixEnv.typ (fun i => if i = 5 ∨ i = 8 ∨ i = 11 then 2 * mixEnv.pm i
      else if i = 2 ∨ i = 6 ∨ i = 9 ∨ i = 12 then mixEnv.pm i + Real.log 2
      else if i = 1 then mixEnv.pm i - Real.log 2 / 2 else mixEnv.pm i) (fun _ => 0) (fun _ _ => 3) fun _ => 0)
      [exSet.inUnit 2, exSet.inUnit 2] = .ok v := by
  have hk : ∀ k < 3, k = 0 ∨ k = 1 ∨ k = 2 := by omega
  obtain ⟨v, v4, ⟨-, -, -, h1⟩, -, -, -, h2⟩ := C134_mixture_partial (a := 2) (by norm_num) 1 3 true mixEnv.typ mixEnv.pm
    (fun i => if i = 5 ∨ i = 8 ∨ i = 11 then 2 * mixEnv.pm i
      else if i = 2 ∨ i = 6 ∨ i = 9 ∨ i = 12 then mixEnv.pm i + Real.log 2
      else if i = 1 then mixEnv.pm i - Real.log 2 / 2 else mixEnv.pm i) (fun _ => 0) (fun _ _ => 3) (fun _ => 0)
    (fun _ => 0) [exSet, exSet] exTransferOK.lineDataOK
    (fun _ => ⟨⟨by simp, fun _ => by simp, fun _ k hk' => by rcases hk k hk' with rfl | rfl | rfl <;> simp,
      fun _ k hk' => by rcases hk k hk' with rfl | rfl | rfl <;> simp,
      fun _ k hk' => by rcases hk k hk' with rfl | rfl | rfl <;> simp⟩, by simp, by simp⟩)
    (fun _ k hk' _ _ _ _ => by
      unfold SameSide
      rcases hk k hk' with rfl | rfl | rfl <;> simp [mixEnv, kEPS]
      rw [Real.exp_log two_pos]
      norm_num)
  refine ⟨v4, h1, ?_⟩
  simpa using h2

/-- One component: the same with no condition. -/
example (T : TF) (pm : ℕ → ℝ) (h : LineDataOK (tfEnv 1 1 true (fun _ => T) pm (fun _ => 0) (fun _ _ => 3) fun _ => 0)
      [exSet]) : ∃ v,
    probLine4 (tfEnv 1 1 true (fun _ => T) pm (fun _ => 0) (fun _ _ => 3) fun _ => 0) [exSet] = .ok v ∧
    probLine4 (tfEnv 1 1 true (fun _ => T) (fun i => if i = 5 then 2 * pm i
      else if i = 2 ∨ i = 6 then pm i + Real.log 2
      else if i = 1 then pm i - Real.log 2 / 2 else pm i) (fun _ => 0) (fun _ _ => 3) fun _ => 0)
      [exSet.inUnit 2] = .ok v := by
  obtain ⟨v, v4, ⟨-, -, -, h1⟩, -, -, -, h2⟩ := C134_line (a := 2) (by norm_num) 1 1 true T pm
    (fun i => if i = 5 then 2 * pm i else if i = 2 ∨ i = 6 then pm i + Real.log 2
      else if i = 1 then pm i - Real.log 2 / 2 else pm i) (fun _ => 0) (fun _ _ => 3) (fun _ => 0)
    (fun _ => 0) [exSet] h
    (fun _ => ⟨⟨by simp, fun _ => by simp, fun _ k hk' => by obtain rfl : k = 0 := by omega
                                                             simp,
      fun _ k hk' => by obtain rfl : k = 0 := by omega
                        simp,
      fun _ k hk' => by obtain rfl : k = 0 := by omega
                        simp⟩, by simp, by simp⟩)
  refine ⟨v4, h1, ?_⟩
  simpa using h2

/-- Ordinary options, days to hours. -/
example : ((lineCfgEx 1 0 [1, 2] true).inUnit 24).lagWindow 2 = (24 * 20, 24 * 30) := by
  have h := (C134_prior_partial (a := 24) (by norm_num) (lineCfgEx 1 0 [1, 2] true) (by norm_num [lineCfgEx])
    (by norm_num [lineCfgEx]) (by simp [lineCfgEx]) (by simp [lineCfgEx])
    (by norm_num [LineCfg.lagRange, lineCfgEx])).2.1 2
  rw [h]
  norm_num [LineCfg.lagWindow, LineCfg.lagRange, lineCfgEx, LineCfg.ordered]

/-- 50 days of data with the times in years. -/
noncomputable def shortCfg : LineCfg := { lineCfgEx 1 0 [1] true with tspan := 50 / 365.25 }

example (h : ℝ) (pm : Fin shortCfg.numVar → ℝ) : perturbCon shortCfg.conCfg
    ⟨[⟨2, by norm_num [LineCfg.numVar, lineCfgEx, shortCfg]⟩], h, 0, 0, fun _ _ => (0, 0)⟩ pm = .exit := by
  refine C134_prior_empty shortCfg (by norm_num [shortCfg]) ?_ _ pm
    ⟨2, by norm_num [LineCfg.numVar, lineCfgEx, shortCfg]⟩ [] rfl rfl
  have := Real.pi_lt_d2
  norm_num [shortCfg]
  linarith

/-- Mode without continuum, one line, one exponential component. -/
theorem vOneTf_ok : VmapOK (tfEnv 1 1 false (fun _ => .exp) (fun _ => 0) (fun _ => 0) (fun _ _ => 3) fun _ => 0) [[vOne]] := by
  intro k ls hd
  have : ls = [vOne] := by
    rcases k with _ | k <;> simp at hd
    exact hd.symm
  subst this
  refine ⟨by simp, fun a ha => ?_, ?_⟩
  · refine ⟨fun _ => ⟨0, ?_⟩, fun x y _ => Subsingleton.elim (α := Fin 1) x y⟩
    rw [List.mem_singleton.1 ha]
    norm_num [vOne]
  · have h : vmapCov (tfEnv 1 1 false (fun _ => .exp) (fun _ => 0) (fun _ => 0) (fun _ _ => 3) fun _ => 0) k [vOne] =
        (Matrix.diagonal fun _ => 3 / 2 : Matrix (Fin (totalN [vOne])) (Fin (totalN [vOne])) ℝ) := by
      rw [← vPC_cov]
      ext i j
      have hi := i.2
      have hj := j.2
      have hn : totalN [vOne] = 1 := rfl
      have hi' : (i : ℕ) = 0 := by omega
      have hj' : (j : ℕ) = 0 := by omega
      have l0 : locate [vOne] 0 = (0, 0) := by simp [locate, vOne]
      rw [Matrix.smul_apply, vPC_apply, diagonal_apply]
      simp only [Fin.ext_iff, hi', hj', l0]
      simp only [covEntry, sigCov, noiseVar, tfEnv, pmSigma, pmTau, pmSyserr, vPm, vSet, DSet.ser, DSet.series, vOne, vSigma,
        KEnv.kernels, KEnv.sll, KEnv.sll2, KEnv.comp, compAt, fpSll, sllExpExp, KEnv.taud, kEPS, List.range_succ]
      simp
      norm_num
    rw [h]
    exact Matrix.PosDef.diagonal (by norm_num)

example : ∃ v,
    probVmap4 (tfEnv 1 1 false (fun _ => .exp) (fun _ => 0) (fun _ => 0) (fun _ _ => 3) fun _ => 0) [[vOne]] = .ok v ∧
    probVmap4 (tfEnv 1 1 false (fun _ => .exp) (fun i => if i = 2 ∨ i = 6 then Real.log 24 else 0) (fun _ => 0)
      (fun _ _ => 3) fun _ => 0) [[vOne.inUnit 24]] = .ok v := by
  obtain ⟨v, v4, ⟨-, h1⟩, -, h2⟩ := C134_vmap (a := 24) (by norm_num) 1 1 false .exp (fun _ => 0)
    (fun i => if i = 2 ∨ i = 6 then Real.log 24 else 0) (fun _ => 0) (fun _ _ => 3) (fun _ => 0)
    (fun _ => 0) [[vOne]] vOneTf_ok
    (fun _ => ⟨by simp, fun _ => by simp, fun _ k hk => by obtain rfl : k = 0 := by omega
                                                           simp,
      fun _ k hk => by obtain rfl : k = 0 := by omega
                       simp,
      fun _ k hk => by obtain rfl : k = 0 := by omega
                       simp⟩) (fun _ => by simp)
  refine ⟨v4, h1, ?_⟩
  simpa using h2

end Mica
