import Verif.Proof.Gauss
import Verif.Proof.Line

/-! # C26-C29, C37: the likelihoods and the covariance matrices -/

namespace Mica

open Matrix MeasureTheory

/-! ### Loops over data sets -/

theorem probConLoop_eq (nq : ℕ) (pm : ℕ → ℝ) (idx : ℕ → ℕ) (mem : ℕ → ℝ) (T : ℕ → LC → ℝ) (ds : List LC)
    (k0 : ℕ) (p : ℝ)
    (h : ∀ (k : ℕ) d, ds[k]? = some d → conTerm nq d pm (idx (k0 + k)) mem = .ok (some (T (k0 + k) d))) :
    probConLoop nq pm idx mem ds k0 p = .ok (p + (ds.mapIdx fun k d => T (k0 + k) d).sum) := by
  induction ds generalizing k0 p with
  | nil => simp [probConLoop]
  | cons d ds ih =>
    have h0 := h 0 d (by simp)
    rw [add_zero] at h0
    rw [probConLoop, h0]
    simp only [Res.ok_bind]
    rw [ih (k0 + 1) _ fun k d' hd => by
      have := h (k + 1) d' (by simpa using hd)
      rwa [show k0 + (k + 1) = k0 + 1 + k by ring] at this]
    simp only [List.mapIdx_cons, List.sum_cons, add_zero, add_assoc, add_comm 1]

theorem probConSemiLoop_eq (nq : ℕ) (pm : ℕ → ℝ) (idx : ℕ → ℕ) (T : ℕ → LC → ℝ) (ds : List LC)
    (k0 : ℕ) (p : ℝ)
    (h : ∀ (k : ℕ) d, ds[k]? = some d → conTermSemi nq d pm (idx (k0 + k)) = some (T (k0 + k) d)) :
    probConSemiLoop nq pm idx ds k0 p = some (p + (ds.mapIdx fun k d => T (k0 + k) d).sum) := by
  induction ds generalizing k0 p with
  | nil => simp [probConSemiLoop]
  | cons d ds ih =>
    have h0 := h 0 d (by simp)
    rw [add_zero] at h0
    rw [probConSemiLoop, h0]
    simp only
    rw [ih (k0 + 1) _ fun k d' hd => by
      have := h (k + 1) d' (by simpa using hd)
      rwa [show k0 + (k + 1) = k0 + 1 + k by ring] at this]
    simp only [List.mapIdx_cons, List.sum_cons, add_zero, add_assoc, add_comm 1]

theorem probLineLoop_eq (term : ℕ → DSet → Res (Option ℝ)) (T : ℕ → DSet → ℝ) (ds : List DSet)
    (k0 : ℕ) (p : ℝ)
    (h : ∀ (k : ℕ) d, ds[k]? = some d → term (k0 + k) d = .ok (some (T (k0 + k) d))) :
    probLineLoop term ds k0 p = .ok (p + (ds.mapIdx fun k d => T (k0 + k) d).sum) := by
  induction ds generalizing k0 p with
  | nil => simp [probLineLoop]
  | cons d ds ih =>
    have h0 := h 0 d (by simp)
    rw [add_zero] at h0
    rw [probLineLoop, h0]
    simp only [Res.ok_bind]
    rw [ih (k0 + 1) _ fun k d' hd => by
      have := h (k + 1) d' (by simpa using hd)
      rwa [show k0 + (k + 1) = k0 + 1 + k by ring] at this]
    simp only [List.mapIdx_cons, List.sum_cons, add_zero, add_assoc, add_comm 1]

/-! ### Specification of the continuum likelihood -/

/-- Covariance of the continuum data of one data set under the parameters `pm` starting at `idx`. -/
noncomputable def conCov (pm : ℕ → ℝ) (idx : ℕ) (d : LC) : Matrix (Fin d.n) (Fin d.n) ℝ :=
  drwCov (Real.exp (pm (idx + 1)) ^ 2 * Real.exp (pm (idx + 2))) (1 / Real.exp (pm (idx + 2)))
    (fun i => d.t i) (fun i => d.fe i ^ 2 + ((Real.exp (pm idx) - 1) * d.em) ^ 2)

/-- The value of the trend with coefficients `p` at the data points: a polynomial in time. -/
noncomputable def polyTrend (nq : ℕ) (d : LC) (p : Fin nq → ℝ) : Fin d.n → ℝ :=
  fun i => ∑ j : Fin nq, p j * d.t i ^ (j : ℕ)

/-- Every data set has its times in order, noise or distinct times, and at least `nq` distinct times. -/
def ConDataOK (nq : ℕ) (pm : ℕ → ℝ) (idx : ℕ → ℕ) (ds : List LC) : Prop :=
  ∀ (k : ℕ) d, ds[k]? = some d → ConOK d ((Real.exp (pm (idx k)) - 1) * d.em) ∧ EnoughTimes d nq

theorem conCov_eq (pm : ℕ → ℝ) (idx : ℕ) (d : LC) :
    ssC d.t (pmSigma pm idx * pmSigma pm idx) (1 / pmTau pm idx) d.fe (pmSyserr pm idx d.em) d.n =
      conCov pm idx d := by
  have h : pmSigma pm idx * pmSigma pm idx = Real.exp (pm (idx + 1)) ^ 2 * Real.exp (pm (idx + 2)) := by
    rw [pmSigma, pmTau]
    have := Real.mul_self_sqrt (Real.exp_pos (pm (idx + 2))).le
    linear_combination Real.exp (pm (idx + 1)) ^ 2 * this
  rw [ssC, h]
  ext i j
  simp only [conCov, drwCov, pmTau, pmSyserr, sq]

theorem polyTrend_eq (nq : ℕ) (d : LC) (p : Fin nq → ℝ) :
    (trendMat d.t d.n nq).mulVec p = polyTrend nq d p := by
  ext i
  simp only [Matrix.mulVec, dotProduct, trendMat, polyTrend]
  apply Finset.sum_congr rfl
  intro j _
  rw [mul_comm]
  congr 1
  split
  · rename_i h; rw [h, pow_zero]
  · rfl

theorem conCov_posDef {pm : ℕ → ℝ} {idx : ℕ} {d : LC} (h : ConOK d ((Real.exp (pm idx) - 1) * d.em)) :
    (conCov pm idx d).PosDef := by
  have hs := pmSigma_pos pm idx
  rw [← conCov_eq]
  exact ssC_posDef (by positivity) (one_div_pos.2 (pmTau_pos pm idx)) h

/-! ### C26 -/

/-- The two continuum likelihoods for the sum over data sets of `margLL`. -/
theorem con_value (nq : ℕ) (pm : ℕ → ℝ) (idx : ℕ → ℕ) (mem : ℕ → ℝ) (ds : List LC)
    (h : ConDataOK nq pm idx ds) :
    probCon nq pm idx mem ds = .ok (ds.mapIdx fun k d =>
      margLL (conCov pm (idx k) d) (trendMat d.t d.n nq) (fun i => d.f i)).sum ∧
    probConSemi nq pm idx ds = some (ds.mapIdx fun k d =>
      margLL (conCov pm (idx k) d) (trendMat d.t d.n nq) (fun i => d.f i)).sum := by
  constructor
  · rw [probCon, probConLoop_eq nq pm idx mem
      (fun k d => margLL (conCov pm (idx k) d) (trendMat d.t d.n nq) (fun i => d.f i)), zero_add]
    · simp only [zero_add]
    · intro k d hd
      rw [zero_add, ← conCov_eq]
      exact conTerm_eq nq d pm (idx k) mem (h k d hd).1 (h k d hd).2
  · rw [probConSemi, probConSemiLoop_eq nq pm idx
      (fun k d => margLL (conCov pm (idx k) d) (trendMat d.t d.n nq) (fun i => d.f i)), zero_add]
    · simp only [zero_add]
    · intro k d hd
      rw [zero_add, ← conCov_eq]
      exact conTermSemi_eq nq d pm (idx k) (h k d hd).1 (h k d hd).2

/-- C26: the direct and the fast continuum likelihood return the same number, for any number of data
sets and whatever the matrix buffer held before. -/
theorem C26_con (nq : ℕ) (pm : ℕ → ℝ) (idx : ℕ → ℕ) (mem : ℕ → ℝ) (ds : List LC)
    (h : ConDataOK nq pm idx ds) :
    ∃ v, probCon nq pm idx mem ds = .ok v ∧ probConSemi nq pm idx ds = some v :=
  ⟨_, con_value nq pm idx mem ds h⟩

/-- Every data set meets the conditions under which the line likelihoods are defined: continuum as
before, enough distinct times in every light curve, positive definite covariance. -/
def LineDataOK (e : LineEnv) (ds : List DSet) : Prop :=
  ∀ (k : ℕ) d, ds[k]? = some d → ConOK d.con ((Real.exp (e.pm (e.idxc k)) - 1) * d.con.em) ∧
    (∀ a ∈ d.series, EnoughTimes a e.nq) ∧ (d.cov (e.K k) e.pm (e.idxc k) (e.idxl k)).PosDef

/-- The covariance of all data of a set (in absolute units). -/
noncomputable def lineCov (e : LineEnv) (k : ℕ) (d : DSet) : Matrix (Fin d.nall) (Fin d.nall) ℝ :=
  (pmSigma e.pm (e.idxc k) * pmSigma e.pm (e.idxc k)) • d.cov (e.K k) e.pm (e.idxc k) (e.idxl k)

theorem line_value (e : LineEnv) (ds : List DSet) (h : LineDataOK e ds) :
    let v := (ds.mapIdx fun k d => margLL (lineCov e k d) (d.trend e.nq) (fun i => d.fall i)).sum
    probLine1 e ds = .ok v ∧ probLine2 e ds = .ok v ∧ probLine3 e ds = .ok v := by
  intro v
  have hs := fun k => pmSigma_pos e.pm (e.idxc k)
  refine ⟨?_, ?_, ?_⟩
  · rw [probLine1, probLineLoop_eq _ (fun k d => margLL (lineCov e k d) (d.trend e.nq) (fun i => d.fall i)),
      zero_add]
    · simp only [zero_add, v]
    · intro k d hd
      obtain ⟨_, h2, h3⟩ := h k d hd
      rw [zero_add, LineEnv.PC, PCarr_eq]
      exact lineTerm1_eq _ (hs k) h3 (trend_injective d e.nq h2)
  · rw [probLine2, probLineLoop_eq _ (fun k d => margLL (lineCov e k d) (d.trend e.nq) (fun i => d.fall i)),
      zero_add]
    · simp only [zero_add, v]
    · intro k d hd
      obtain ⟨_, h2, h3⟩ := h k d hd
      rw [zero_add, LineEnv.PC, PCarr_eq]
      exact lineTerm2_eq _ (hs k) h3 (trend_injective d e.nq h2)
  · rw [probLine3, probLineLoop_eq _ (fun k d => margLL (lineCov e k d) (d.trend e.nq) (fun i => d.fall i)),
      zero_add]
    · simp only [zero_add, v]
    · intro k d hd
      obtain ⟨_, h2, h3⟩ := h k d hd
      rw [zero_add, LineEnv.PC, PCarr_eq]
      exact lineTerm3_eq _ (hs k) h3 (trend_injective d e.nq h2)

/-- What `prob_line_variability4` adds for a data set: without lines the covariance takes the place of its
inverse. -/
noncomputable def lineVal4 (e : LineEnv) (k : ℕ) (d : DSet) : ℝ :=
  if d.line.length = 0 then
    margLL ((pmSigma e.pm (e.idxc k) * pmSigma e.pm (e.idxc k)) • (d.cov (e.K k) e.pm (e.idxc k) (e.idxl k))⁻¹)
      (d.trend e.nq) (fun i => d.fall i) - Real.log (d.cov (e.K k) e.pm (e.idxc k) (e.idxl k)).det
  else margLL (lineCov e k d) (d.trend e.nq) (fun i => d.fall i)

theorem line_value4 (e : LineEnv) (ds : List DSet) (h : LineDataOK e ds) :
    probLine4 e ds = .ok (ds.mapIdx fun k d => lineVal4 e k d).sum := by
  rw [probLine4, probLineLoop_eq _ (fun k d => lineVal4 e k d), zero_add]
  · simp only [zero_add]
  · intro k d hd
    obtain ⟨h1, h2, h3⟩ := h k d hd
    rw [zero_add, LineEnv.PC, PCarr_eq, lineVal4]
    split
    · rename_i hl
      exact lineTerm4_noLine (e.K k) d e.pm (e.idxc k) (e.idxl k) e.nq h1 h3 (trend_injective d e.nq h2)
        (List.length_eq_zero_iff.1 hl)
    · rename_i hl
      exact lineTerm4_eq (e.K k) d e.pm (e.idxc k) (e.idxl k) e.nq h1 h3 (trend_injective d e.nq h2)
        (fun h0 => hl (by rw [h0]; rfl))

theorem line_value4_lines (e : LineEnv) (ds : List DSet) (h : LineDataOK e ds) (hl : ∀ d ∈ ds, d.line ≠ []) :
    probLine4 e ds = .ok (ds.mapIdx fun k d => margLL (lineCov e k d) (d.trend e.nq) (fun i => d.fall i)).sum := by
  rw [line_value4 e ds h]
  congr 2
  apply List.ext_getElem?
  intro k
  simp only [List.getElem?_mapIdx]
  rcases hd : ds[k]? with _ | d
  · rfl
  · simp only [Option.map_some]
    rw [lineVal4, if_neg]
    exact fun h0 => hl d (List.mem_of_getElem? hd) (List.length_eq_zero_iff.1 h0)

/-- C26: the three variants of the line likelihood that treat the matrix as a whole return the same number,
for any number of data sets, lines (none included), points, whatever the covariance functions are, provided the
covariance is positive definite. -/
theorem C26_line_whole (e : LineEnv) (ds : List DSet) (h : LineDataOK e ds) :
    ∃ v, probLine1 e ds = .ok v ∧ probLine2 e ds = .ok v ∧ probLine3 e ds = .ok v :=
  ⟨_, line_value e ds h⟩

/-- C26 (partial: every data set has a line): the fast variant returns the same number as well. -/
theorem C26_line_partial (e : LineEnv) (ds : List DSet) (h : LineDataOK e ds) (hl : ∀ d ∈ ds, d.line ≠ []) :
    ∃ v, probLine1 e ds = .ok v ∧ probLine2 e ds = .ok v ∧ probLine3 e ds = .ok v ∧ probLine4 e ds = .ok v :=
  ⟨_, (line_value e ds h).1, (line_value e ds h).2.1, (line_value e ds h).2.2, line_value4_lines e ds h hl⟩

/-! ### C27 -/

/-- C27: the continuum log-likelihood is the logarithm of the normal density of the data integrated over
all trend coefficients, up to a constant that depends only on the numbers of points. -/
theorem C27_con (nq : ℕ) (pm : ℕ → ℝ) (idx : ℕ → ℕ) (ds : List LC) (h : ConDataOK nq pm idx ds) :
    probConSemi nq pm idx ds = some (ds.mapIdx fun k d =>
      Real.log (∫ p : Fin nq → ℝ, gaussDens (conCov pm (idx k) d) ((fun i : Fin d.n => d.f i) - polyTrend nq d p)) +
      ((d.n : ℝ) - nq) / 2 * Real.log (2 * Real.pi)).sum := by
  rw [(con_value nq pm idx (fun _ => 0) ds h).2]
  congr 2
  apply List.ext_getElem?
  intro k
  simp only [List.getElem?_mapIdx]
  rcases hd : ds[k]? with _ | d
  · rfl
  · simp only [Option.map_some]
    obtain ⟨h1, e, he⟩ := h k d hd
    rw [exp_marg_pos (conCov_posDef h1) (trendMat_injective d.t d.n nq e he)]
    simp only [polyTrend_eq]

/-- C27: the value is that at the trend coefficients which minimise the quadratic form. -/
theorem C27_minimal (nq : ℕ) (d : LC) (pm : ℕ → ℝ) (idx : ℕ)
    (h : ConOK d ((Real.exp (pm idx) - 1) * d.em)) (hq : EnoughTimes d nq) :
    ∃ p0 : Fin nq → ℝ,
      let Q := fun p : Fin nq → ℝ => ((fun i : Fin d.n => d.f i) - polyTrend nq d p) ⬝ᵥ
        (conCov pm idx d)⁻¹.mulVec ((fun i : Fin d.n => d.f i) - polyTrend nq d p)
      conTermSemi nq d pm idx = some (-(1 / 2) * Q p0 - 1 / 2 * Real.log (conCov pm idx d).det -
        1 / 2 * Real.log ((trendMat d.t d.n nq)ᵀ * ((conCov pm idx d)⁻¹ * trendMat d.t d.n nq)).det) ∧
      ∀ p, p ≠ p0 → Q p0 < Q p := by
  have hC := conCov_posDef h
  obtain ⟨e, he⟩ := id hq
  have hL := trendMat_injective d.t d.n nq e he
  refine ⟨glsCoef (conCov pm idx d) (trendMat d.t d.n nq) (fun i => d.f i), ?_, ?_⟩
  · rw [conTermSemi_eq nq d pm idx h hq, conCov_eq, margLL, polyTrend_eq]
  · intro p hp
    have := quad_split hC hL (fun i => d.f i) p
    have hpos := (trend_posDef hC hL).dotProduct_mulVec_pos (sub_ne_zero.2 hp)
    simp only [star_trivial] at hpos
    simp only [← polyTrend_eq]
    linarith

/-- C27 (partial: every data set has a line): the log-likelihood of continuum and lines is the logarithm of the
normal density of all data integrated over the trend coefficients of all light curves, up to a constant. -/
theorem C27_line_partial (e : LineEnv) (ds : List DSet) (h : LineDataOK e ds) (hl : ∀ d ∈ ds, d.line ≠ []) :
    probLine4 e ds = .ok (ds.mapIdx fun k d =>
      Real.log (∫ p, gaussDens (lineCov e k d) ((fun i : Fin d.nall => d.fall i) - (d.trend e.nq).mulVec p)) +
      ((d.nall : ℝ) - (e.nq * (1 + d.line.length) : ℕ)) / 2 * Real.log (2 * Real.pi)).sum := by
  rw [line_value4_lines e ds h hl]
  congr 2
  apply List.ext_getElem?
  intro k
  simp only [List.getElem?_mapIdx]
  rcases hd : ds[k]? with _ | d
  · rfl
  · simp only [Option.map_some]
    obtain ⟨h1, h2, h3⟩ := h k d hd
    have hs := pmSigma_pos e.pm (e.idxc k)
    rw [exp_marg_pos (C := lineCov e k d) (h3.smul (show 0 < _ by positivity)) (trend_injective d e.nq h2)]

/-! ### C28 -/

/-- `d'` is `d` with a trend (a polynomial with `nq` coefficients, in particular a constant) added to
the fluxes. -/
def Shifted (nq : ℕ) (d d' : LC) : Prop :=
  d'.n = d.n ∧ d'.t = d.t ∧ d'.fe = d.fe ∧ d'.em = d.em ∧
  ∃ p : Fin nq → ℝ, ∀ i < d.n, d'.f i = d.f i + ∑ j : Fin nq, p j * d.t i ^ (j : ℕ)

/-- A constant offset is a trend. -/
theorem shifted_const (nq : ℕ) (hq : 0 < nq) (d : LC) (c : ℝ) :
    Shifted nq d { d with f := fun i => d.f i + c } := by
  refine ⟨rfl, rfl, rfl, rfl, fun j => if (j : ℕ) = 0 then c else 0, ?_⟩
  intro i _
  simp only [add_right_inj]
  rw [Finset.sum_eq_single (⟨0, hq⟩ : Fin nq)]
  · simp
  · intro j _ hj
    have : (j : ℕ) ≠ 0 := fun h => hj (Fin.ext h)
    simp [this]
  · simp

theorem margLL_shifted {nq : ℕ} {pm : ℕ → ℝ} {idx : ℕ} {d d' : LC} (h : Shifted nq d d')
    (h1 : ConOK d ((Real.exp (pm idx) - 1) * d.em)) (h2 : EnoughTimes d nq) :
    margLL (conCov pm idx d') (trendMat d'.t d'.n nq) (fun i => d'.f i) =
      margLL (conCov pm idx d) (trendMat d.t d.n nq) (fun i => d.f i) := by
  obtain ⟨n, t, f, fe, em⟩ := d
  obtain ⟨n', t', f', fe', em'⟩ := d'
  obtain ⟨rfl, rfl, rfl, rfl, p, hp⟩ := h
  obtain ⟨e, he⟩ := h2
  have hC := conCov_posDef h1
  have hL := trendMat_injective t' n' nq e he
  have hf : (fun i : Fin n' => f' i) = (fun i : Fin n' => f i) + (trendMat t' n' nq).mulVec p := by
    rw [polyTrend_eq nq ⟨n', t', f, fe', em'⟩ p]
    ext i
    exact hp i i.2
  have := margLL_shift hC hL (fun i => f i) p
  simp only at hf this ⊢
  rw [hf]
  exact this

theorem ConDataOK.shifted {nq : ℕ} {pm : ℕ → ℝ} {idx : ℕ → ℕ} {ds ds' : List LC}
    (h : ConDataOK nq pm idx ds) (hs : List.Forall₂ (Shifted nq) ds ds') : ConDataOK nq pm idx ds' := by
  intro k d' hd'
  have hk : k < ds'.length := by rw [List.getElem?_eq_some_iff] at hd'; exact hd'.1
  have hlen := hs.length_eq
  have hk2 : k < ds.length := by omega
  have hrel := hs.get hk2 hk
  have hd : ds[k]? = some ds[k] := List.getElem?_eq_getElem hk2
  have e' : ds'[k] = d' := by rw [List.getElem?_eq_getElem hk] at hd'; exact Option.some.inj hd'
  simp only [List.get_eq_getElem, e'] at hrel
  obtain ⟨h1, h2⟩ := h k _ hd
  generalize ds[k] = d at *
  obtain ⟨n, t, f, fe, em⟩ := d
  obtain ⟨n', t', f', fe', em'⟩ := d'
  obtain ⟨rfl, rfl, rfl, rfl, _⟩ := hrel
  exact ⟨h1, h2⟩

/-- C28: adding a different trend (in particular a constant) to each continuum light curve changes the
value of neither continuum likelihood. -/
theorem C28_con (nq : ℕ) (pm : ℕ → ℝ) (idx : ℕ → ℕ) (mem : ℕ → ℝ) (ds ds' : List LC)
    (h : ConDataOK nq pm idx ds) (hs : List.Forall₂ (Shifted nq) ds ds') :
    probConSemi nq pm idx ds' = probConSemi nq pm idx ds ∧
    probCon nq pm idx mem ds' = probCon nq pm idx mem ds := by
  have hv := con_value nq pm idx mem ds h
  have hv' := con_value nq pm idx mem ds' (h.shifted hs)
  have e : (ds'.mapIdx fun k d => margLL (conCov pm (idx k) d) (trendMat d.t d.n nq) (fun i => d.f i)) =
      ds.mapIdx fun k d => margLL (conCov pm (idx k) d) (trendMat d.t d.n nq) (fun i => d.f i) := by
    apply List.ext_getElem
    · simp [hs.length_eq]
    · intro k h1 h2
      simp only [List.length_mapIdx] at h1 h2
      simp only [List.getElem_mapIdx]
      have hrel := hs.get h2 h1
      simp only [List.get_eq_getElem] at hrel
      obtain ⟨c1, c2⟩ := h k _ (List.getElem?_eq_getElem h2)
      exact margLL_shifted hrel c1 c2
  rw [hv.1, hv.2, hv'.1, hv'.2, e]
  exact ⟨rfl, rfl⟩

/-- `margLL` with matrices given by functions of natural numbers. -/
noncomputable def margLLN (n q : ℕ) (C L : ℕ → ℕ → ℝ) (f : ℕ → ℝ) : ℝ :=
  margLL (Matrix.of fun i j : Fin n => C i j) (Matrix.of fun (i : Fin n) (j : Fin q) => L i j) (fun i => f i)

/-- `d'` is `d` with a trend added to each light curve. -/
def DShifted (nq : ℕ) (d d' : DSet) : Prop :=
  Shifted nq d.con d'.con ∧ List.Forall₂ (Shifted nq) d.line d'.line

theorem DShifted.series {nq : ℕ} {d d' : DSet} (h : DShifted nq d d') :
    List.Forall₂ (Shifted nq) d.series d'.series := List.Forall₂.cons h.1 h.2

theorem totalN_shifted {nq : ℕ} {l l' : List LC} (h : List.Forall₂ (Shifted nq) l l') : totalN l' = totalN l := by
  induction h with
  | nil => rfl
  | cons h _ ih => simp only [totalN, h.1, ih]

theorem locate_shifted {nq : ℕ} {l l' : List LC} (h : List.Forall₂ (Shifted nq) l l') :
    locate l' = locate l := by
  funext p
  induction h generalizing p with
  | nil => rfl
  | cons h _ ih => simp only [locate, h.1, ih]

theorem trendRow_shifted {nq : ℕ} {l l' : List LC} (h : List.Forall₂ (Shifted nq) l l') :
    trendRow nq l' = trendRow nq l := by
  funext s p c
  induction h generalizing s p c with
  | nil => rfl
  | cons h _ ih => simp only [trendRow, h.1, h.2.1, ih]

theorem getD_shifted {nq : ℕ} {l l' : List LC} (h : List.Forall₂ (Shifted nq) l l') (z : LC) (s : ℕ) :
    (l'.getD s z).t = (l.getD s z).t ∧ (l'.getD s z).fe = (l.getD s z).fe ∧
      (l'.getD s z).em = (l.getD s z).em := by
  induction h generalizing s with
  | nil => exact ⟨rfl, rfl, rfl⟩
  | cons h _ ih =>
    rcases s with _ | s
    · simpa using ⟨h.2.1, h.2.2.1, h.2.2.2.1⟩
    · simpa using ih s

theorem covEntry_shifted {nq : ℕ} {d d' : DSet} (h : DShifted nq d d') (K : Kernels) (pm : ℕ → ℝ)
    (idxc : ℕ) (idxl : ℕ → ℕ) : covEntry K d' pm idxc idxl = covEntry K d pm idxc idxl := by
  have hg := fun s => getD_shifted h.series ⟨0, fun _ => 0, fun _ => 0, fun _ => 0, 0⟩ s
  have h1 : ∀ s, (d'.ser s).t = (d.ser s).t := fun s => (hg s).1
  have h2 : ∀ s, (d'.ser s).fe = (d.ser s).fe := fun s => (hg s).2.1
  have h3 : ∀ s, (d'.ser s).em = (d.ser s).em := fun s => (hg s).2.2
  funext x y
  unfold covEntry sigCov noiseVar
  simp only [h1, h2, h3, h.1.2.2.2.1]

/-- The polynomial trends of all light curves are a trend of the concatenated data. -/
theorem fall_shifted {nq : ℕ} {l l' : List LC} (h : List.Forall₂ (Shifted nq) l l') :
    ∃ x : ℕ → ℝ, ∀ s0 p, p < totalN l → concat LC.f l' p = concat LC.f l p +
      ∑ c ∈ Finset.range (nq * (s0 + l.length)), trendRow nq l s0 p c * x (c - s0 * nq) := by
  induction h with
  | nil => exact ⟨fun _ => 0, fun s0 p hp => by simp [totalN] at hp⟩
  | @cons a b l l' h hl ih =>
    obtain ⟨y, hy⟩ := ih
    obtain ⟨hn, ht, hfe, hem, p0, hp0⟩ := h
    refine ⟨fun c => if h : c < nq then p0 ⟨c, h⟩ else y (c - nq), ?_⟩
    intro s0 p hp
    simp only [concat, trendRow, hn]
    split
    · rename_i hpa
      rw [hp0 p hpa, add_right_inj]
      have hsub : Finset.Ico (s0 * nq) (s0 * nq + nq) ⊆ Finset.range (nq * (s0 + (a :: l).length)) := by
        intro c hc
        rw [Finset.mem_Ico] at hc
        rw [Finset.mem_range]
        calc c < s0 * nq + nq := hc.2
          _ ≤ nq * (s0 + (a :: l).length) := by simp only [List.length_cons]; nlinarith
      rw [← Finset.sum_subset hsub]
      · rw [Finset.sum_Ico_eq_sum_range, Nat.add_sub_cancel_left, ← Fin.sum_univ_eq_sum_range
          (fun j => (if s0 * nq ≤ s0 * nq + j ∧ s0 * nq + j < s0 * nq + nq then
            if s0 * nq + j - s0 * nq = 0 then 1 else a.t p ^ (s0 * nq + j - s0 * nq) else 0) *
            if h : s0 * nq + j - s0 * nq < nq then p0 ⟨s0 * nq + j - s0 * nq, h⟩ else y (s0 * nq + j - s0 * nq - nq))]
        apply Finset.sum_congr rfl
        intro j _
        have hj := j.2
        simp only [Nat.add_sub_cancel_left, hj, dite_true, Fin.eta]
        rw [if_pos ⟨by omega, by omega⟩, mul_comm]
        congr 1
        split
        · rename_i h; rw [h, pow_zero]
        · rfl
      · intro c _ hc
        rw [Finset.mem_Ico, not_and_or] at hc
        rw [if_neg (by omega), zero_mul]
    · rename_i hpa
      rw [hy (s0 + 1) (p - a.n) (by simp only [totalN] at hp; omega), add_right_inj,
        show nq * (s0 + (a :: l).length) = nq * (s0 + 1 + l.length) by simp only [List.length_cons]; ring]
      apply Finset.sum_congr rfl
      intro c _
      by_cases hc : (s0 + 1) * nq ≤ c
      · have e1 : c - (s0 + 1) * nq = c - s0 * nq - nq := by
          rw [add_mul, one_mul]; omega
        have e2 : ¬ c - s0 * nq < nq := by rw [add_mul, one_mul] at hc; omega
        rw [dif_neg e2, e1]
      · have hz : ∀ (l : List LC) s p, s0 + 1 ≤ s → trendRow nq l s p c = 0 := by
          intro l
          induction l with
          | nil => intros; rfl
          | cons b l ih =>
            intro s p hs
            simp only [trendRow]
            split
            · rw [if_neg]
              intro hh
              have := Nat.mul_le_mul_right nq hs
              omega
            · exact ih (s + 1) _ (by omega)
        rw [hz l (s0 + 1) _ le_rfl, zero_mul, zero_mul]

theorem margLLN_line (e : LineEnv) (k : ℕ) (d : DSet) :
    margLL (lineCov e k d) (d.trend e.nq) (fun i => d.fall i) =
      margLLN (totalN d.series) (e.nq * (1 + d.line.length))
        (fun p q => pmSigma e.pm (e.idxc k) * pmSigma e.pm (e.idxc k) *
          covEntry (e.K k) d e.pm (e.idxc k) (e.idxl k) (locate d.series p) (locate d.series q))
        (trendRow e.nq d.series 0) (concat LC.f d.series) := rfl

theorem margLL_line_shifted (e : LineEnv) (k : ℕ) {d d' : DSet} (h : DShifted e.nq d d')
    (h2 : ∀ a ∈ d.series, EnoughTimes a e.nq) (h3 : (d.cov (e.K k) e.pm (e.idxc k) (e.idxl k)).PosDef) :
    margLL (lineCov e k d') (d'.trend e.nq) (fun i => d'.fall i) =
      margLL (lineCov e k d) (d.trend e.nq) (fun i => d.fall i) := by
  have hs := pmSigma_pos e.pm (e.idxc k)
  have hlen : d'.line.length = d.line.length := h.2.length_eq.symm
  obtain ⟨x, hx⟩ := fall_shifted h.series
  rw [margLLN_line, totalN_shifted h.series, hlen, locate_shifted h.series, covEntry_shifted h,
    trendRow_shifted h.series, margLLN_line]
  have hC : (lineCov e k d).PosDef := h3.smul (show 0 < _ by positivity)
  have hL := trend_injective d e.nq h2
  rw [← margLLN_line, ← margLL_shift hC hL (fun i => d.fall i) (fun c => x c)]
  rw [margLLN]
  congr 1
  ext i
  refine (hx 0 i i.2).trans ?_
  change _ = concat LC.f d.series i + ∑ c : Fin (e.nq * (1 + d.line.length)), trendRow e.nq d.series 0 i c * x c
  rw [Fin.sum_univ_eq_sum_range (fun c => trendRow e.nq d.series 0 i c * x c)]
  simp only [zero_mul, Nat.sub_zero, DSet.series, List.length_cons, zero_add, add_comm 1]

theorem margLL_noLine_shifted (e : LineEnv) (k : ℕ) {d d' : DSet} (h : DShifted e.nq d d')
    (h2 : ∀ a ∈ d.series, EnoughTimes a e.nq) (h3 : (d.cov (e.K k) e.pm (e.idxc k) (e.idxl k)).PosDef) (s : ℝ) (hs : 0 < s) :
    margLL (s • (d'.cov (e.K k) e.pm (e.idxc k) (e.idxl k))⁻¹) (d'.trend e.nq) (fun i => d'.fall i) =
      margLL (s • (d.cov (e.K k) e.pm (e.idxc k) (e.idxl k))⁻¹) (d.trend e.nq) (fun i => d.fall i) ∧
    (d'.cov (e.K k) e.pm (e.idxc k) (e.idxl k)).det = (d.cov (e.K k) e.pm (e.idxc k) (e.idxl k)).det := by
  have hlen : d'.line.length = d.line.length := h.2.length_eq.symm
  obtain ⟨x, hx⟩ := fall_shifted h.series
  have key : ∀ (n n' q q' : ℕ) (C C' L L' : ℕ → ℕ → ℝ) (f f' : ℕ → ℝ), n' = n → q' = q → C' = C → L' = L →
      (Matrix.of fun i j : Fin n => C i j).PosDef →
      Function.Injective (Matrix.of fun (i : Fin n) (j : Fin q) => L i j).mulVec →
      (∀ i < n, f' i = f i + ∑ c ∈ Finset.range q, L i c * x c) →
      margLL (s • (Matrix.of fun i j : Fin n' => C' i j)⁻¹) (Matrix.of fun (i : Fin n') (j : Fin q') => L' i j) (fun i => f' i) =
        margLL (s • (Matrix.of fun i j : Fin n => C i j)⁻¹) (Matrix.of fun (i : Fin n) (j : Fin q) => L i j) (fun i => f i) ∧
      (Matrix.of fun i j : Fin n' => C' i j).det = (Matrix.of fun i j : Fin n => C i j).det := by
    intro n n' q q' C C' L L' f f' hn hq hC hL hp hi hf
    subst hn hq hC hL
    refine ⟨?_, rfl⟩
    rw [← margLL_shift (hp.inv.smul hs) hi (fun i => f i) (fun c => x c)]
    congr 1
    ext i
    rw [hf i i.2]
    simp only [Pi.add_apply, Matrix.mulVec, dotProduct, Matrix.of_apply]
    rw [Fin.sum_univ_eq_sum_range (fun c => L' i c * x c)]
  refine key d.nall d'.nall (e.nq * (1 + d.line.length)) (e.nq * (1 + d'.line.length))
    (fun p q => covEntry (e.K k) d e.pm (e.idxc k) (e.idxl k) (locate d.series p) (locate d.series q))
    (fun p q => covEntry (e.K k) d' e.pm (e.idxc k) (e.idxl k) (locate d'.series p) (locate d'.series q))
    (trendRow e.nq d.series 0) (trendRow e.nq d'.series 0) (concat LC.f d.series) (concat LC.f d'.series)
    (totalN_shifted h.series) (by rw [hlen]) (by rw [covEntry_shifted h, locate_shifted h.series])
    (by rw [trendRow_shifted h.series]) h3 (trend_injective d e.nq h2) ?_
  intro i hi
  rw [hx 0 i hi]
  simp only [zero_mul, Nat.sub_zero, DSet.series, List.length_cons, zero_add, add_comm 1]

theorem lineVal4_shifted (e : LineEnv) (k : ℕ) {d d' : DSet} (h : DShifted e.nq d d')
    (h2 : ∀ a ∈ d.series, EnoughTimes a e.nq) (h3 : (d.cov (e.K k) e.pm (e.idxc k) (e.idxl k)).PosDef) :
    lineVal4 e k d' = lineVal4 e k d := by
  have hlen : d'.line.length = d.line.length := h.2.length_eq.symm
  have hs := pmSigma_pos e.pm (e.idxc k)
  unfold lineVal4
  by_cases hl : d.line.length = 0
  · rw [if_pos hl, if_pos (hlen.trans hl)]
    obtain ⟨e1, e2⟩ := margLL_noLine_shifted e k h h2 h3 (pmSigma e.pm (e.idxc k) * pmSigma e.pm (e.idxc k)) (by positivity)
    rw [e1, e2]
  · rw [if_neg hl, if_neg (fun h0 => hl (hlen.symm.trans h0))]
    exact margLL_line_shifted e k h h2 h3

/-- The conditions on the data do not involve the fluxes. -/
theorem LineDataOK.shifted {e : LineEnv} {ds ds' : List DSet} (h : LineDataOK e ds)
    (hs : List.Forall₂ (DShifted e.nq) ds ds') : LineDataOK e ds' := by
  intro k d' hd'
  have hk : k < ds'.length := by rw [List.getElem?_eq_some_iff] at hd'; exact hd'.1
  have hlen := hs.length_eq
  have hk2 : k < ds.length := by omega
  have hrel := hs.get hk2 hk
  have hd : ds[k]? = some ds[k] := List.getElem?_eq_getElem hk2
  have e' : ds'[k] = d' := by rw [List.getElem?_eq_getElem hk] at hd'; exact Option.some.inj hd'
  simp only [List.get_eq_getElem, e'] at hrel
  obtain ⟨h1, h2, h3⟩ := h k _ hd
  generalize ds[k] = d at *
  refine ⟨?_, ?_, ?_⟩
  · obtain ⟨⟨hn, ht, hfe, hem, _⟩, _⟩ := hrel
    unfold ConOK
    rw [hn, ht, hfe, hem]
    exact h1
  · have hf := hrel.series
    generalize d.series = l at *
    generalize d'.series = l' at *
    clear hrel h1 h3
    induction hf with
    | nil => intro a ha; simp at ha
    | @cons a b l l' hab _ ih =>
      intro c hc
      rcases List.mem_cons.1 hc with rfl | hc
      · obtain ⟨hn, ht, _⟩ := hab
        have := h2 a (by simp)
        unfold EnoughTimes at this ⊢
        rw [hn, ht]
        exact this
      · exact ih (fun c hc => h2 c (List.mem_cons_of_mem _ hc)) c hc
  · have key : ∀ (n n' : ℕ) (C : ℕ → ℕ → ℝ), n' = n → (Matrix.of fun i j : Fin n => C i j).PosDef →
        (Matrix.of fun i j : Fin n' => C i j).PosDef := by
      intro n n' C hn h; subst hn; exact h
    have := key d.nall d'.nall (fun p q => covEntry (e.K k) d e.pm (e.idxc k) (e.idxl k)
      (locate d.series p) (locate d.series q)) (totalN_shifted hrel.series) h3
    rw [← covEntry_shifted hrel, ← locate_shifted hrel.series] at this
    exact this

/-- C28: adding a different trend (in particular a constant) to every light curve, continuum or line,
changes none of the line likelihoods. -/
theorem C28_line (e : LineEnv) (ds ds' : List DSet) (h : LineDataOK e ds)
    (hs : List.Forall₂ (DShifted e.nq) ds ds') :
    probLine1 e ds' = probLine1 e ds ∧ probLine2 e ds' = probLine2 e ds ∧
    probLine3 e ds' = probLine3 e ds ∧ probLine4 e ds' = probLine4 e ds := by
  have hv := line_value e ds h
  have hv' := line_value e ds' (h.shifted hs)
  have hm : ∀ g : ℕ → DSet → ℝ, (∀ k d d', ds[k]? = some d → DShifted e.nq d d' → g k d' = g k d) →
      ds'.mapIdx g = ds.mapIdx g := by
    intro g hg
    apply List.ext_getElem
    · simp [hs.length_eq]
    · intro k h1 h2
      simp only [List.length_mapIdx] at h1 h2
      simp only [List.getElem_mapIdx]
      have hrel := hs.get h2 h1
      simp only [List.get_eq_getElem] at hrel
      exact hg k _ _ (List.getElem?_eq_getElem h2) hrel
  have e1 := hm (fun k d => margLL (lineCov e k d) (d.trend e.nq) (fun i => d.fall i)) fun k d d' hd hr =>
    margLL_line_shifted e k hr (h k d hd).2.1 (h k d hd).2.2
  have e4 := hm (fun k d => lineVal4 e k d) fun k d d' hd hr =>
    lineVal4_shifted e k hr (h k d hd).2.1 (h k d hd).2.2
  simp only [e1] at hv'
  simp only at hv
  rw [hv.1, hv.2.1, hv.2.2, hv'.1, hv'.2.1, hv'.2.2, line_value4 e ds h, line_value4 e ds' (h.shifted hs), e4]
  exact ⟨rfl, rfl, rfl, rfl⟩

/-! ### C29 -/

/-- C29: the matrix assembled for the continuum is symmetric positive semi-definite for any times (in
any order, repeated or not), any timescale and any errors. -/
theorem C29_psd (sigma tau syserr : ℝ) (d : LC) (mem : ℕ → ℝ) (ht : 0 < tau) :
    (matOf (runWrites (conWrites sigma tau 1 syserr d) mem) d.n d.n).PosSemidef := by
  rw [conPmat_eq]
  exact drwCov_posSemidef zero_le_one (one_div_pos.2 ht) _ _ fun i =>
    div_nonneg (add_nonneg (mul_self_nonneg _) (mul_self_nonneg _)) (mul_self_nonneg _)

/-- C29: it is positive definite if every point has noise. -/
theorem C29_pd (sigma tau syserr : ℝ) (d : LC) (mem : ℕ → ℝ) (ht : 0 < tau) (hs : 0 < sigma)
    (hN : ∀ i < d.n, 0 < d.fe i ^ 2 + syserr ^ 2) :
    (matOf (runWrites (conWrites sigma tau 1 syserr d) mem) d.n d.n).PosDef := by
  rw [conPmat_eq]
  refine drwCov_posDef one_pos (one_div_pos.2 ht) _ _ fun i => div_pos ?_ (mul_pos hs hs)
  have := hN i i.2
  rwa [sq, sq] at this

/-- C29: the damped-random-walk covariance of distinct times is positive definite even without noise. -/
theorem C29_distinct {n : ℕ} (tau : ℝ) (ht : 0 < tau) (t : ℕ → ℝ) (hinc : ∀ i, i + 1 < n → t i < t (i + 1)) :
    (Matrix.of fun i j : Fin n => Real.exp (-|t i - t j| / tau)).PosDef := by
  have h := ssC_posDef (d := ⟨n, t, fun _ => 0, fun _ => 0, 0⟩) (syserr := 0) (a := 1) (c := 1 / tau) one_pos
    (one_div_pos.2 ht) ⟨fun i hi => (hinc i hi).le, Or.inr hinc⟩
  convert h using 1
  ext i j
  simp only [ssC, drwCov, Matrix.of_apply, one_mul, mul_zero, add_zero, ite_self]
  congr 1
  ring

/-! ### C37 -/

/-- C37: `set_covar_Pmat_data_line` writes every address of the `nall x nall` matrix exactly once and no
other address. -/
theorem C37_once (K : Kernels) (d : DSet) (pm : ℕ → ℝ) (idxc : ℕ) (idxl : ℕ → ℕ) :
    ((lineWrites K d pm idxc idxl).map Prod.fst).Perm (List.range (d.nall * d.nall)) :=
  lineWrites_perm K d pm idxc idxl

/-- C37: for point `i` of light curve `s` and point `j` of light curve `s'` (0 is the continuum), the
entry of the matrix after either of the two assembly functions is the covariance of the two points plus
the noise variance on the diagonal, whatever the buffer held before. -/
theorem C37_entry (K : Kernels) (d : DSet) (pm : ℕ → ℝ) (idxc : ℕ) (idxl : ℕ → ℕ) (mem : ℕ → ℝ)
    (pre post pre' post' : List LC) (a a' : LC) (i j : ℕ) (hs : d.con :: d.line = pre ++ a :: post)
    (hs' : d.con :: d.line = pre' ++ a' :: post') (hi : i < a.n) (hj : j < a'.n) :
    let p := totalN pre + i
    let q := totalN pre' + j
    runWrites (lineWrites K d pm idxc idxl) mem (p * d.nall + q) =
      covEntry K d pm idxc idxl (pre.length, i) (pre'.length, j) ∧
    runWrites (lineWritesArr K d pm idxc idxl) mem (p * d.nall + q) =
      covEntry K d pm idxc idxl (pre.length, i) (pre'.length, j) := by
  intro p q
  have hp : p < d.nall := by
    rw [DSet.nall, DSet.series, hs, totalN_append]; simp only [totalN, p]; omega
  have hq : q < d.nall := by
    rw [DSet.nall, DSet.series, hs', totalN_append]; simp only [totalN, q]; omega
  have h1 : locate d.series p = (pre.length, i) := by
    rw [DSet.series, hs]; exact locate_split pre a post i hi
  have h2 : locate d.series q = (pre'.length, j) := by
    rw [DSet.series, hs']; exact locate_split pre' a' post' j hj
  rw [runWrites_line K d pm idxc idxl mem hp hq, runWrites_lineArr K d pm idxc idxl mem hp hq, h1, h2]
  exact ⟨rfl, rfl⟩

/-- C37: nothing outside of the matrix is touched. -/
theorem C37_outside (K : Kernels) (d : DSet) (pm : ℕ → ℝ) (idxc : ℕ) (idxl : ℕ → ℕ) (mem : ℕ → ℝ) (a : ℕ)
    (ha : d.nall * d.nall ≤ a) :
    runWrites (lineWrites K d pm idxc idxl) mem a = mem a ∧
    runWrites (lineWritesArr K d pm idxc idxl) mem a = mem a := by
  constructor
  · refine runWrites_notMem _ _ _ fun w hw he => ?_
    have := (lineWrites_val K d pm idxc idxl w hw).2
    omega
  · refine runWrites_notMem _ _ _ fun w hw he => ?_
    have := (lineWrites_val K d pm idxc idxl w ((lineWrites_mem_iff K d pm idxc idxl w).1 hw)).2
    omega

/-- C27, what the vector of data and the trend columns of the line likelihood are: entry number
`(points of the light curves before it) + i` belongs to point `i` of a light curve; its flux is in the data
vector and its row has the powers of its time in the columns of that light curve, zeros elsewhere. -/
theorem C27_layout (d : DSet) (nq : ℕ) (pre post : List LC) (a : LC) (i : ℕ) (hs : d.con :: d.line = pre ++ a :: post)
    (hi : i < a.n) :
    ∃ p : Fin d.nall, (p : ℕ) = totalN pre + i ∧ d.fall p = a.f i ∧
      ∀ c, d.trend nq p c = if (c : ℕ) / nq = pre.length then a.t i ^ ((c : ℕ) % nq) else 0 := by
  have hp : totalN pre + i < d.nall := by
    rw [DSet.nall, DSet.series, hs, totalN_append, totalN]; omega
  refine ⟨⟨_, hp⟩, rfl, ?_, fun c => ?_⟩
  · show concat LC.f d.series (totalN pre + i) = _
    rw [DSet.series, hs]; exact concat_split LC.f pre a post i hi
  · show trendRow nq d.series 0 (totalN pre + i) c = _
    rw [DSet.series, hs, trendRow_split nq 0 pre a post i c hi, zero_add]
    have hq : 0 < nq := by
      rcases Nat.eq_zero_or_pos nq with h | h
      · subst h; have := c.2; omega
      · exact h
    have e : (pre.length * nq ≤ (c : ℕ) ∧ (c : ℕ) < pre.length * nq + nq) ↔ (c : ℕ) / nq = pre.length := by
      rw [Nat.div_eq_iff hq]
      constructor <;> intro h <;> omega
    by_cases h : (c : ℕ) / nq = pre.length
    · rw [if_pos (e.2 h), if_pos h]
      congr 1
      have := Nat.div_add_mod (c : ℕ) nq
      rw [h, mul_comm] at this
      omega
    · rw [if_neg (fun x => h (e.1 x)), if_neg h]

/-- The third point of the second line of a data set with a continuum of 3 and a first line of 4 points. -/
example (c l1 l2 : LC) (h1 : c.n = 3) (h2 : l1.n = 4) (h3 : 2 < l2.n) : (⟨c, [l1, l2]⟩ : DSet).fall 9 = l2.f 2 := by
  obtain ⟨p, hp, hf, -⟩ := C27_layout ⟨c, [l1, l2]⟩ 1 [c, l1] [] l2 2 rfl h3
  simp only [totalN, h1, h2] at hp
  rw [← hf, hp]

/-! ### The hypotheses can be met -/

/-- Three continuum points, two of them at the same time, with noise. -/
noncomputable def exCon : LC :=
  ⟨3, fun i => if i = 0 then 0 else 1, fun i => i, fun _ => 1 / 10, 1 / 10⟩

theorem exCon_ok (s : ℝ) : ConOK exCon s := by
  refine ⟨fun i hi => ?_, Or.inl fun i _ => ?_⟩
  · have : i < 2 := by simp only [exCon] at hi; omega
    interval_cases i <;> simp [exCon]
  · simp only [exCon]
    nlinarith [mul_self_nonneg s]

theorem exCon_times : EnoughTimes exCon 2 := by
  refine ⟨fun k => ⟨k, by have := k.2; simp only [exCon]; omega⟩, ?_⟩
  intro a b hab
  fin_cases a <;> fin_cases b <;> simp [exCon] at hab ⊢

example : ∃ v, probCon 2 (fun _ => 0) (fun k => 3 * k) (fun _ => 0) [exCon, exCon] = .ok v ∧
    probConSemi 2 (fun _ => 0) (fun k => 3 * k) [exCon, exCon] = some v := by
  apply C26_con
  intro k d hd
  have : d = exCon := by
    rcases k with _ | _ | k <;> simp at hd
    · exact hd.symm
    · exact hd.symm
  subst this
  exact ⟨exCon_ok _, exCon_times⟩

/-- Offsets 7 and -2 on two continuum light curves. -/
example : probConSemi 2 (fun _ => 0) (fun k => 3 * k)
      [{ exCon with f := fun i => exCon.f i + 7 }, { exCon with f := fun i => exCon.f i + -2 }] =
    probConSemi 2 (fun _ => 0) (fun k => 3 * k) [exCon, exCon] := by
  refine (C28_con 2 (fun _ => 0) (fun k => 3 * k) (fun _ => 0) _ _ ?_
    (List.Forall₂.cons (shifted_const 2 (by norm_num) exCon 7)
      (List.Forall₂.cons (shifted_const 2 (by norm_num) exCon (-2)) List.Forall₂.nil))).1
  intro k d hd
  have : d = exCon := by
    rcases k with _ | _ | k <;> simp at hd
    · exact hd.symm
    · exact hd.symm
  subst this
  exact ⟨exCon_ok _, exCon_times⟩

example : (Matrix.of fun i j : Fin 4 => Real.exp (-|((i : ℕ) : ℝ) - ((j : ℕ) : ℝ)| / 2)).PosDef :=
  C29_distinct 2 two_pos (fun i => (i : ℝ)) fun i _ => by norm_num

/-- The entry for the second continuum point and the first point of the second line. -/
example (K : Kernels) (c l1 l2 : LC) (h : 1 < c.n) (h2 : 0 < l2.n) (pm : ℕ → ℝ) (mem : ℕ → ℝ) :
    runWrites (lineWrites K ⟨c, [l1, l2]⟩ pm 0 fun _ => 3) mem
      (1 * (c.n + (l1.n + (l2.n + 0))) + (c.n + l1.n)) = K.Slc (c.t 1) (l2.t 0) 1 := by
  have := (C37_entry K ⟨c, [l1, l2]⟩ pm 0 (fun _ => 3) mem [] [l1, l2] [c, l1] [] c l2 1 0 rfl rfl h h2).1
  simpa [totalN, covEntry, sigCov, DSet.ser, DSet.series, DSet.nall] using this

/-- A data set with one line whose signal is independent of the continuum (covariance functions zero
across, exponential within). -/
noncomputable def exEnv : LineEnv where
  nq := 1
  pm := fun _ => 0
  idxc := fun _ => 0
  idxl := fun _ _ => 0
  K := fun _ => ⟨fun _ _ _ => 0, fun t1 t2 _ => if t1 = t2 then 1 else 0, fun _ _ _ _ => 0⟩
  mem := fun _ => 0

noncomputable def exSet : DSet := ⟨⟨1, fun _ => 0, fun _ => 3, fun _ => 1, 1⟩, [⟨1, fun _ => 0, fun _ => 5, fun _ => 1, 1⟩]⟩

example : LineDataOK exEnv [exSet] := by
  intro k d hd
  have : d = exSet := by
    rcases k with _ | k <;> simp at hd
    exact hd.symm
  subst this
  refine ⟨⟨fun i hi => ?_, Or.inr fun i hi => ?_⟩, ?_, ?_⟩
  · simp [exSet] at hi
  · simp [exSet] at hi
  · intro a ha
    refine ⟨fun _ => ⟨0, ?_⟩, fun x y _ => Subsingleton.elim (α := Fin 1) x y⟩
    simp only [DSet.series, exSet, List.mem_cons, List.not_mem_nil, or_false] at ha
    rcases ha with rfl | rfl <;> norm_num
  · have e : exSet.cov (exEnv.K k) exEnv.pm (exEnv.idxc k) (exEnv.idxl k) =
        (Matrix.diagonal fun _ => 2 : Matrix (Fin exSet.nall) (Fin exSet.nall) ℝ) := by
      ext i j
      have hi := i.2
      have hj := j.2
      have hn : exSet.nall = 2 := rfl
      have hi' : (i : ℕ) = 0 ∨ (i : ℕ) = 1 := by omega
      have hj' : (j : ℕ) = 0 ∨ (j : ℕ) = 1 := by omega
      have l0 : locate exSet.series 0 = (0, 0) := by simp [locate, exSet, DSet.series]
      have l1 : locate exSet.series 1 = (1, 0) := by simp [locate, exSet, DSet.series]
      rw [DSet.cov, Matrix.of_apply, diagonal_apply]
      rcases hi' with a | a <;> rcases hj' with b | b <;> simp only [Fin.ext_iff, a, b, l0, l1] <;>
        simp only [covEntry, sigCov, noiseVar, exEnv, pmSigma, pmTau, pmSyserr, exSet, DSet.ser,
          DSet.series] <;> norm_num
    rw [e]
    exact Matrix.PosDef.diagonal (by simp)

/-- A data set with one continuum point and no line. -/
noncomputable def exNoLine : DSet := ⟨⟨1, fun _ => 0, fun _ => 3, fun _ => 1, 1⟩, []⟩

theorem exNoLine_cov (k : ℕ) : exNoLine.cov (exEnv.K k) exEnv.pm (exEnv.idxc k) (exEnv.idxl k) =
    (Matrix.diagonal fun _ => 2 : Matrix (Fin exNoLine.nall) (Fin exNoLine.nall) ℝ) := by
  ext i j
  have hi := i.2
  have hj := j.2
  have hn : exNoLine.nall = 1 := rfl
  have hi' : (i : ℕ) = 0 := by omega
  have hj' : (j : ℕ) = 0 := by omega
  have l0 : locate exNoLine.series 0 = (0, 0) := by simp [locate, exNoLine, DSet.series]
  rw [DSet.cov, Matrix.of_apply, diagonal_apply]
  simp only [Fin.ext_iff, hi', hj', l0]
  simp only [covEntry, sigCov, noiseVar, exEnv, pmSigma, pmTau, pmSyserr, exNoLine, DSet.ser, DSet.series]
  norm_num

theorem exNoLine_ok : LineDataOK exEnv [exNoLine] := by
  intro k d hd
  have : d = exNoLine := by
    rcases k with _ | k <;> simp at hd
    exact hd.symm
  subst this
  refine ⟨⟨fun i hi => ?_, Or.inr fun i hi => ?_⟩, ?_, ?_⟩
  · simp [exNoLine] at hi
  · simp [exNoLine] at hi
  · intro a ha
    refine ⟨fun _ => ⟨0, ?_⟩, fun x y _ => Subsingleton.elim (α := Fin 1) x y⟩
    simp only [DSet.series, exNoLine, List.mem_cons, List.not_mem_nil, or_false] at ha
    rw [ha]
    norm_num
  · rw [exNoLine_cov]
    exact Matrix.PosDef.diagonal (by simp)

/-- One point and a constant trend: the trend takes up the point whatever its variance. -/
theorem margLL_one {c : ℝ} (hc : 0 < c) {L : Matrix (Fin 1) (Fin 1) ℝ} (hL : ∀ i j, L i j = 1) (f : Fin 1 → ℝ) :
    margLL (Matrix.diagonal fun _ => c) L f = 0 := by
  have hinv : (Matrix.diagonal fun _ => c : Matrix (Fin 1) (Fin 1) ℝ)⁻¹ = Matrix.diagonal fun _ => c⁻¹ :=
    Matrix.inv_eq_right_inv (by rw [Matrix.diagonal_mul_diagonal, mul_inv_cancel₀ hc.ne', Matrix.diagonal_one])
  have hL1 : L = 1 := by
    ext i j
    rw [hL, Subsingleton.elim i j, Matrix.one_apply_eq]
  have hqi : (Matrix.diagonal fun _ => c⁻¹ : Matrix (Fin 1) (Fin 1) ℝ)⁻¹ = Matrix.diagonal fun _ => c :=
    Matrix.inv_eq_right_inv (by rw [Matrix.diagonal_mul_diagonal, inv_mul_cancel₀ hc.ne', Matrix.diagonal_one])
  subst hL1
  have hg : glsCoef (Matrix.diagonal fun _ => c) 1 f = f := by
    unfold glsCoef
    rw [Matrix.transpose_one, Matrix.one_mul, Matrix.mul_one, Matrix.one_mulVec, Matrix.mulVec_mulVec, hinv, hqi,
      Matrix.diagonal_mul_diagonal, mul_inv_cancel₀ hc.ne', Matrix.diagonal_one, Matrix.one_mulVec]
  unfold margLL
  rw [hg, Matrix.one_mulVec, sub_self, Matrix.transpose_one, Matrix.one_mul, Matrix.mul_one, hinv, Matrix.mulVec_zero,
    dotProduct_zero]
  simp only [Matrix.det_diagonal, Finset.univ_unique, Finset.prod_singleton, Real.log_inv]
  ring

/-- C26 and C27 fail for a data set without lines: the likelihood used for sampling returns `-log 2` where the
other three return the marginal likelihood, which is 0. -/
theorem C26_no_line : LineDataOK exEnv [exNoLine] ∧ probLine1 exEnv [exNoLine] = .ok 0 ∧
    probLine2 exEnv [exNoLine] = .ok 0 ∧ probLine3 exEnv [exNoLine] = .ok 0 ∧
    probLine4 exEnv [exNoLine] = .ok (-Real.log 2) ∧ -Real.log 2 ≠ 0 := by
  have key : ∀ c : ℝ, 0 < c → margLL (Matrix.diagonal fun _ => c : Matrix (Fin exNoLine.nall) (Fin exNoLine.nall) ℝ)
      (exNoLine.trend exEnv.nq) (fun i => exNoLine.fall i) = 0 := by
    intro c hc
    have hL : ∀ i j : Fin 1, exNoLine.trend exEnv.nq i j = 1 := by
      intro i j
      have hi : i = (0 : Fin 1) := Subsingleton.elim (α := Fin 1) _ _
      have hj : j = (0 : Fin 1) := Subsingleton.elim (α := Fin 1) _ _
      rw [hi, hj]
      simp [DSet.trend, trendRow, exNoLine, DSet.series, exEnv]
    exact margLL_one hc hL (fun i => exNoLine.fall i)
  have hs : pmSigma exEnv.pm (exEnv.idxc 0) = 1 := by simp [pmSigma, pmTau, exEnv]
  have hv := line_value exEnv [exNoLine] exNoLine_ok
  have h4 := line_value4 exEnv [exNoLine] exNoLine_ok
  have e1 : margLL (lineCov exEnv 0 exNoLine) (exNoLine.trend exEnv.nq) (fun i => exNoLine.fall i) = 0 := by
    rw [lineCov, hs, exNoLine_cov, one_mul, one_smul]
    exact key 2 two_pos
  have e4 : lineVal4 exEnv 0 exNoLine = -Real.log 2 := by
    have hinv : (Matrix.diagonal fun _ => 2 : Matrix (Fin exNoLine.nall) (Fin exNoLine.nall) ℝ)⁻¹ =
        Matrix.diagonal fun _ => 1 / 2 :=
      Matrix.inv_eq_right_inv (by rw [Matrix.diagonal_mul_diagonal]; norm_num)
    rw [lineVal4, if_pos (show exNoLine.line.length = 0 from rfl), hs, exNoLine_cov, one_mul, one_smul, hinv, key (1 / 2) (by norm_num), Matrix.det_diagonal]
    have : ∏ _i : Fin exNoLine.nall, (2 : ℝ) = 2 := by
      change ∏ _i : Fin 1, (2 : ℝ) = 2
      simp
    rw [this, zero_sub]
  simp only [List.mapIdx_cons, List.mapIdx_nil, List.sum_cons, List.sum_nil, add_zero, e1] at hv
  simp only [List.mapIdx_cons, List.mapIdx_nil, List.sum_cons, List.sum_nil, add_zero, e4] at h4
  exact ⟨exNoLine_ok, hv.1, hv.2.1, hv.2.2, h4, neg_ne_zero.2 (Real.log_pos one_lt_two).ne'⟩

/-! ### C75 -/

/-- A data set that has a continuum only. -/
def conOnly (d : LC) : DSet := ⟨d, []⟩

theorem conOnly_cov (e : LineEnv) (k : ℕ) (d : LC) : lineCov e k (conOnly d) = conCov e.pm (e.idxc k) d := by
  have hs := (pmSigma_pos e.pm (e.idxc k)).ne'
  rw [← conCov_eq]
  ext i j
  have hc := cov_lead (e.K k) (conOnly d) e.pm (e.idxc k) (e.idxl k) i j i.2 j.2
  rw [lineCov, Matrix.smul_apply, hc, smul_eq_mul, one_mul, mul_add]
  change _ = pmSigma e.pm (e.idxc k) * pmSigma e.pm (e.idxc k) * Real.exp (-(1 / pmTau e.pm (e.idxc k)) * |d.t i - d.t j|) +
    if i = j then d.fe i * d.fe i + pmSyserr e.pm (e.idxc k) d.em * pmSyserr e.pm (e.idxc k) d.em else 0
  congr 1
  split
  · simp only [conOnly]
    field_simp
  · rw [mul_zero]

theorem conOnly_ok (e : LineEnv) (ds : List LC) (h : ConDataOK e.nq e.pm e.idxc ds) : LineDataOK e (ds.map conOnly) := by
  intro k d hd
  rw [List.getElem?_map] at hd
  obtain ⟨c, hc, rfl⟩ := Option.map_eq_some_iff.1 hd
  obtain ⟨h1, h2⟩ := h k c hc
  have hs := pmSigma_pos e.pm (e.idxc k)
  refine ⟨h1, fun a ha => ?_, ?_⟩
  · rw [DSet.series, conOnly, List.mem_singleton] at ha
    rw [ha]; exact h2
  · have h3 : (lineCov e k (conOnly c)).PosDef := by
      rw [conOnly_cov]; exact conCov_posDef h1
    rw [lineCov] at h3
    have h4 := h3.smul (inv_pos.2 (mul_pos hs hs))
    rwa [smul_smul, inv_mul_cancel₀ (mul_pos hs hs).ne', one_smul] at h4

theorem conOnly_margLL (e : LineEnv) (k : ℕ) (d : LC) :
    margLL (lineCov e k (conOnly d)) ((conOnly d).trend e.nq) (fun i => (conOnly d).fall i) =
      margLL (conCov e.pm (e.idxc k) d) (trendMat d.t d.n e.nq) (fun i => d.f i) := by
  rw [conOnly_cov]
  have hf : (fun i : Fin (conOnly d).nall => (conOnly d).fall i) = fun i : Fin d.n => d.f i := by
    funext i
    have hi : (i : ℕ) < d.n := i.2
    simp only [DSet.fall, conOnly, DSet.series, concat, if_pos hi]
  rw [hf]
  have key : ∀ (q q' : ℕ) (C : Matrix (Fin d.n) (Fin d.n) ℝ) (L L' : ℕ → ℕ → ℝ) (f : Fin d.n → ℝ), q' = q →
      (∀ i < d.n, ∀ j < q, L' i j = L i j) →
      margLL C (fun (i : Fin d.n) (j : Fin q') => L' i j) f = margLL C (fun (i : Fin d.n) (j : Fin q) => L i j) f := by
    intro q q' C L L' f hq hL
    subst hq
    congr 1
    ext i j
    exact hL i i.2 j j.2
  refine key e.nq (e.nq * (1 + 0)) _ (fun i j => if j = 0 then 1 else d.t i ^ j) (trendRow e.nq (conOnly d).series 0) _ (by simp) ?_
  intro i hi j hj
  simp only [conOnly, DSet.series, trendRow, if_pos hi, zero_mul, Nat.sub_zero, zero_add, zero_le, hj, and_self, if_true]

/-- C75 (partial: the three variants that are not used for sampling): data sets with a continuum only
contribute to the likelihood of a run with lines what they contribute in a run with the continuum alone. -/
theorem C75_whole_partial (e : LineEnv) (ds : List LC) (h : ConDataOK e.nq e.pm e.idxc ds) :
    ∃ v, probConSemi e.nq e.pm e.idxc ds = some v ∧ probLine1 e (ds.map conOnly) = .ok v ∧
      probLine2 e (ds.map conOnly) = .ok v ∧ probLine3 e (ds.map conOnly) = .ok v := by
  have hv := line_value e _ (conOnly_ok e ds h)
  have he : ((ds.map conOnly).mapIdx fun k d => margLL (lineCov e k d) (d.trend e.nq) (fun i => d.fall i)) =
      ds.mapIdx fun k d => margLL (conCov e.pm (e.idxc k) d) (trendMat d.t d.n e.nq) (fun i => d.f i) := by
    apply List.ext_getElem?
    intro k
    simp only [List.getElem?_mapIdx, List.getElem?_map]
    rcases ds[k]? with _ | d
    · rfl
    · simp only [Option.map_some]
      rw [conOnly_margLL]
  simp only [he] at hv
  exact ⟨_, (con_value e.nq e.pm e.idxc (fun _ => 0) ds h).2, hv⟩

/-- C75 fails for the likelihood that is used: a single point contributes `-log 2`, in a continuum run 0. -/
theorem C75_used : ∃ d : LC, ConDataOK exEnv.nq exEnv.pm exEnv.idxc [d] ∧
    probConSemi exEnv.nq exEnv.pm exEnv.idxc [d] = some 0 ∧ probLine4 exEnv [conOnly d] = .ok (-Real.log 2) := by
  have hd : ConDataOK exEnv.nq exEnv.pm exEnv.idxc [exNoLine.con] := by
    intro k d hd
    have e : d = exNoLine.con := by
      rcases k with _ | k <;> simp at hd
      exact hd.symm
    subst e
    rcases k with _ | k
    · obtain ⟨h1, h2, _⟩ := exNoLine_ok 0 exNoLine rfl
      exact ⟨h1, h2 _ List.mem_cons_self⟩
    · simp at hd
  obtain ⟨v, h1, h2, _⟩ := C75_whole_partial exEnv [exNoLine.con] hd
  have h3 := C26_no_line.2.1
  refine ⟨exNoLine.con, hd, ?_, C26_no_line.2.2.2.2.1⟩
  have h4 : probLine1 exEnv [exNoLine] = .ok v := h2
  rw [h3] at h4
  rw [h1, Res.ok.inj h4]

/-- Two continuum light curves of three points with a linear trend. -/
example : ∃ v, probLine3 { exEnv with nq := 2 } [conOnly exCon, conOnly exCon] = .ok v := by
  obtain ⟨v, _, _, _, h⟩ := C75_whole_partial { exEnv with nq := 2 } [exCon, exCon] (by
    intro k d hd
    have : d = exCon := by
      rcases k with _ | _ | k <;> simp at hd
      · exact hd.symm
      · exact hd.symm
    subst this
    exact ⟨exCon_ok _, exCon_times⟩)
  exact ⟨v, h⟩

end Mica
