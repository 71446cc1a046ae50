import Verif.Props.Labels

/-!
# C136: a model with more components contains those with fewer

A component may be split into several with the same lag and width whose amplitudes add up, and components of zero
amplitude may be added: no likelihood changes.
-/

namespace Mica

open Matrix

/-! ### The covariance functions are linear in the amplitudes -/

theorem fpSlc_lin (T : TF) (t f c w D : ℝ) : fpSlc T t ⟨f, c, w⟩ D = f * fpSlc T t ⟨1, c, w⟩ D := by
  cases T <;> simp only [fpSlc, slcGau, slcTop, slcGam, slcExp] <;> ring

theorem scale_out (S x y k : ℝ) (h : x = k * y) : S * x = k * (S * y) := by rw [h]; ring

theorem sllGauGau_lin (t f c w g c' w' D : ℝ) :
    sllGauGau t ⟨f, c, w⟩ ⟨g, c', w'⟩ D = f * g * sllGauGau t ⟨1, c, w⟩ ⟨1, c', w'⟩ D := by
  unfold sllGauGau
  exact scale_out _ _ _ _ (by ring)

theorem sllGauTop_lin (t f c w g c' w' D : ℝ) :
    sllGauTop t ⟨f, c, w⟩ ⟨g, c', w'⟩ D = f * g * sllGauTop t ⟨1, c, w⟩ ⟨1, c', w'⟩ D := by
  unfold sllGauTop
  exact scale_out _ _ _ _ (by ring)

theorem sllGauGam_lin (t f c w g c' w' D : ℝ) :
    sllGauGam t ⟨f, c, w⟩ ⟨g, c', w'⟩ D = f * g * sllGauGam t ⟨1, c, w⟩ ⟨1, c', w'⟩ D := by
  unfold sllGauGam
  exact scale_out _ _ _ _ (by ring)

theorem sllGauExp_lin (t f c w g c' w' D : ℝ) :
    sllGauExp t ⟨f, c, w⟩ ⟨g, c', w'⟩ D = f * g * sllGauExp t ⟨1, c, w⟩ ⟨1, c', w'⟩ D := by
  unfold sllGauExp
  exact scale_out _ _ _ _ (by ring)

theorem sllTopTop_lin (t f c w g c' w' D : ℝ) :
    sllTopTop t ⟨f, c, w⟩ ⟨g, c', w'⟩ D = f * g * sllTopTop t ⟨1, c, w⟩ ⟨1, c', w'⟩ D := by
  unfold sllTopTop
  exact scale_out _ _ _ _ (by ring)

theorem sllGamTop_lin (t f c w g c' w' D : ℝ) :
    sllGamTop t ⟨f, c, w⟩ ⟨g, c', w'⟩ D = f * g * sllGamTop t ⟨1, c, w⟩ ⟨1, c', w'⟩ D := by
  unfold sllGamTop
  exact scale_out _ _ _ _ (by ring)

theorem sllGamGam_lin (t f c w g c' w' D : ℝ) :
    sllGamGam t ⟨f, c, w⟩ ⟨g, c', w'⟩ D = f * g * sllGamGam t ⟨1, c, w⟩ ⟨1, c', w'⟩ D := by
  unfold sllGamGam
  exact scale_out _ _ _ _ (by ring)

theorem sllExpTop_lin (t f c w g c' w' D : ℝ) :
    sllExpTop t ⟨f, c, w⟩ ⟨g, c', w'⟩ D = f * g * sllExpTop t ⟨1, c, w⟩ ⟨1, c', w'⟩ D := by
  unfold sllExpTop
  exact scale_out _ _ _ _ (by ring)

theorem sllExpGam_lin (t f c w g c' w' D : ℝ) :
    sllExpGam t ⟨f, c, w⟩ ⟨g, c', w'⟩ D = f * g * sllExpGam t ⟨1, c, w⟩ ⟨1, c', w'⟩ D := by
  unfold sllExpGam
  exact scale_out _ _ _ _ (by ring)

theorem sllExpExp_lin (t f c w g c' w' D : ℝ) :
    sllExpExp t ⟨f, c, w⟩ ⟨g, c', w'⟩ D = f * g * sllExpExp t ⟨1, c, w⟩ ⟨1, c', w'⟩ D := by
  unfold sllExpExp
  exact scale_out _ _ _ _ (by ring)

theorem fpSll_lin (T T' : TF) (t f c w g c' w' D : ℝ) :
    fpSll T T' t ⟨f, c, w⟩ ⟨g, c', w'⟩ D = f * g * fpSll T T' t ⟨1, c, w⟩ ⟨1, c', w'⟩ D := by
  cases T <;> cases T' <;> simp only [fpSll, sllTopGau, sllTopGam, sllTopExp, sllGamGau, sllGamExp, sllExpGau]
  · exact sllGauGau_lin t f c w g c' w' D
  · exact sllGauTop_lin t f c w g c' w' D
  · exact sllGauGam_lin t f c w g c' w' D
  · exact sllGauExp_lin t f c w g c' w' D
  · rw [sllGauTop_lin]; ring
  · exact sllTopTop_lin t f c w g c' w' D
  · rw [sllGamTop_lin]; ring
  · rw [sllExpTop_lin]; ring
  · rw [sllGauGam_lin]; ring
  · exact sllGamTop_lin t f c w g c' w' D
  · exact sllGamGam_lin t f c w g c' w' D
  · rw [sllExpGam_lin]; ring
  · rw [sllGauExp_lin]; ring
  · exact sllExpTop_lin t f c w g c' w' D
  · exact sllExpGam_lin t f c w g c' w' D
  · exact sllExpExp_lin t f c w g c' w' D

/-! ### Parameters of a larger and of a smaller model -/

/-- Amplitude of component `k` of the line whose parameters start at `idx`. -/
noncomputable def ampAt (lin : Bool) (pm : ℕ → ℝ) (idx k : ℕ) : ℝ :=
  if lin then pm (idx + 1 + 3 * k) else Real.exp (pm (idx + 1 + 3 * k))

/-- The parameters `pm'` of a model with `ng'` components describe the same transfer functions as the parameters
`pm` of one with `ng`: continuum and systematic errors are the same; of line `j`, component `k'` of the larger model
has no amplitude (`g j k' = none`), or it is a part of component `k` of the smaller one (`g j k' = some k`), with
its type, lag and width; and the amplitudes of the parts of a component add up to its amplitude. -/
structure Contained (lin : Bool) (ng ng' J : ℕ) (typ typ' : ℕ → TF) (pm pm' : ℕ → ℝ) (idxc idxc' : ℕ)
    (idxl idxl' : ℕ → ℕ) (g : ℕ → ℕ → Option ℕ) : Prop where
  con : ∀ r < 3, pm' (idxc' + r) = pm (idxc + r)
  sys : ∀ j < J, pm' (idxl' j) = pm (idxl j)
  extra : ∀ j < J, ∀ k' < ng', g j k' = none → ampAt lin pm' (idxl' j) k' = 0
  part : ∀ j < J, ∀ k' < ng', ∀ k, g j k' = some k → k < ng ∧ typ' k' = typ k ∧
    pm' (idxl' j + 1 + 3 * k' + 1) = pm (idxl j + 1 + 3 * k + 1) ∧
    pm' (idxl' j + 1 + 3 * k' + 2) = pm (idxl j + 1 + 3 * k + 2)
  amp : ∀ j < J, ∀ k < ng,
    ∑ k' ∈ (Finset.range ng').filter (fun k' => g j k' = some k), ampAt lin pm' (idxl' j) k' = ampAt lin pm (idxl j) k

section
variable {lin : Bool} {ng ng' J : ℕ} {typ typ' : ℕ → TF} {pm pm' : ℕ → ℝ} {idxc idxc' : ℕ} {idxl idxl' : ℕ → ℕ}
  {g : ℕ → ℕ → Option ℕ}

/-- A sum over the components of the larger model of something linear in the amplitude and otherwise depending on
type, lag and width is the sum over those of the smaller model. -/
theorem Contained.sum_eq (h : Contained lin ng ng' J typ typ' pm pm' idxc idxc' idxl idxl' g) {j : ℕ} (hj : j < J)
    (F : TF → ℝ → ℝ → ℝ) :
    ∑ k' ∈ Finset.range ng', ampAt lin pm' (idxl' j) k' *
        F (typ' k') (pm' (idxl' j + 1 + 3 * k' + 1)) (Real.exp (pm' (idxl' j + 1 + 3 * k' + 2))) =
      ∑ k ∈ Finset.range ng, ampAt lin pm (idxl j) k *
        F (typ k) (pm (idxl j + 1 + 3 * k + 1)) (Real.exp (pm (idxl j + 1 + 3 * k + 2))) := by
  have hr : ∀ k ∈ Finset.range ng, ampAt lin pm (idxl j) k *
        F (typ k) (pm (idxl j + 1 + 3 * k + 1)) (Real.exp (pm (idxl j + 1 + 3 * k + 2))) =
      ∑ k' ∈ Finset.range ng', if g j k' = some k then ampAt lin pm' (idxl' j) k' *
        F (typ' k') (pm' (idxl' j + 1 + 3 * k' + 1)) (Real.exp (pm' (idxl' j + 1 + 3 * k' + 2))) else 0 := by
    intro k hk
    rw [← Finset.sum_filter, ← h.amp j hj k (Finset.mem_range.1 hk), Finset.sum_mul]
    refine Finset.sum_congr rfl fun k' hk' => ?_
    obtain ⟨h1, h2⟩ := Finset.mem_filter.1 hk'
    obtain ⟨-, e1, e2, e3⟩ := h.part j hj k' (Finset.mem_range.1 h1) k h2
    rw [e1, e2, e3]
  rw [Finset.sum_congr rfl hr, Finset.sum_comm]
  refine Finset.sum_congr rfl fun k' hk' => ?_
  have hk' := Finset.mem_range.1 hk'
  cases hg : g j k' with
  | none => rw [h.extra j hj k' hk' hg]; simp
  | some k =>
    have hk := (h.part j hj k' hk' k hg).1
    simp only [Option.some.injEq]
    rw [Finset.sum_ite_eq, if_pos (Finset.mem_range.2 hk)]

theorem KEnv.slc_amp (lin : Bool) (ng : ℕ) (typ : ℕ → TF) (pm : ℕ → ℝ) (idxc : ℕ) (idxl : ℕ → ℕ) (t1 t2 : ℝ) (j : ℕ) :
    (KEnv.mk ng lin typ pm idxc idxl).slc t1 t2 j = ∑ k ∈ Finset.range ng, ampAt lin pm (idxl j) k *
      fpSlc (typ k) (Real.exp (pm (idxc + 2))) ⟨1, pm (idxl j + 1 + 3 * k + 1), Real.exp (pm (idxl j + 1 + 3 * k + 2))⟩
        (t2 - t1) := by
  rw [KEnv.slc, foldl_add_range, zero_add]
  exact Finset.sum_congr rfl fun k _ => fpSlc_lin _ _ _ _ _ _

theorem KEnv.sll2_amp (lin : Bool) (ng : ℕ) (typ : ℕ → TF) (pm : ℕ → ℝ) (idxc : ℕ) (idxl : ℕ → ℕ) (t1 t2 : ℝ) (j l : ℕ) :
    (KEnv.mk ng lin typ pm idxc idxl).sll2 t1 t2 j l = ∑ k ∈ Finset.range ng, ampAt lin pm (idxl j) k *
      ∑ k2 ∈ Finset.range ng, ampAt lin pm (idxl l) k2 *
      fpSll (typ k) (typ k2) (Real.exp (pm (idxc + 2)))
        ⟨1, pm (idxl j + 1 + 3 * k + 1), Real.exp (pm (idxl j + 1 + 3 * k + 2))⟩
        ⟨1, pm (idxl l + 1 + 3 * k2 + 1), Real.exp (pm (idxl l + 1 + 3 * k2 + 2))⟩ (t1 - t2) := by
  rw [KEnv.sll2, foldl_add_range2, zero_add]
  refine Finset.sum_congr rfl fun k _ => ?_
  rw [Finset.mul_sum]
  refine Finset.sum_congr rfl fun k2 _ => ?_
  rw [← mul_assoc]
  exact fpSll_lin _ _ _ _ _ _ _ _ _ _

theorem Contained.slc (h : Contained lin ng ng' J typ typ' pm pm' idxc idxc' idxl idxl' g) {j : ℕ} (hj : j < J)
    (t1 t2 : ℝ) :
    (KEnv.mk ng' lin typ' pm' idxc' idxl').slc t1 t2 j = (KEnv.mk ng lin typ pm idxc idxl).slc t1 t2 j := by
  rw [KEnv.slc_amp, KEnv.slc_amp, h.con 2 (by omega)]
  exact h.sum_eq hj fun T c w => fpSlc T (Real.exp (pm (idxc + 2))) ⟨1, c, w⟩ (t2 - t1)

theorem Contained.sll2 (h : Contained lin ng ng' J typ typ' pm pm' idxc idxc' idxl idxl' g) {j l : ℕ} (hj : j < J)
    (hl : l < J) (t1 t2 : ℝ) :
    (KEnv.mk ng' lin typ' pm' idxc' idxl').sll2 t1 t2 j l = (KEnv.mk ng lin typ pm idxc idxl).sll2 t1 t2 j l := by
  rw [KEnv.sll2_amp, KEnv.sll2_amp, h.con 2 (by omega)]
  refine (h.sum_eq hj fun T c w => ∑ k2 ∈ Finset.range ng', ampAt lin pm' (idxl' l) k2 *
      fpSll T (typ' k2) (Real.exp (pm (idxc + 2))) ⟨1, c, w⟩
        ⟨1, pm' (idxl' l + 1 + 3 * k2 + 1), Real.exp (pm' (idxl' l + 1 + 3 * k2 + 2))⟩ (t1 - t2)).trans ?_
  refine Finset.sum_congr rfl fun k _ => ?_
  congr 1
  exact h.sum_eq hl fun T c w => fpSll (typ k) T (Real.exp (pm (idxc + 2)))
    ⟨1, pm (idxl j + 1 + 3 * k + 1), Real.exp (pm (idxl j + 1 + 3 * k + 2))⟩ ⟨1, c, w⟩ (t1 - t2)

theorem Contained.sigCov (h : Contained lin ng ng' J typ typ' pm pm' idxc idxc' idxl idxl' g) (tau : ℝ) (d : DSet)
    (hd : d.line.length ≤ J) (x y : ℕ × ℕ) (hx : x.1 < d.series.length) (hy : y.1 < d.series.length) :
    sigCov (KEnv.mk ng' lin typ' pm' idxc' idxl').kernels tau d x y =
      Mica.sigCov (KEnv.mk ng lin typ pm idxc idxl).kernels tau d x y := by
  obtain ⟨s, i⟩ := x
  obtain ⟨s', i'⟩ := y
  simp only [DSet.series, List.length_cons] at hx hy
  rcases s with _ | s <;> rcases s' with _ | s' <;> simp only [Mica.sigCov, KEnv.kernels]
  · exact h.slc (by omega) _ _
  · exact h.slc (by omega) _ _
  · have hs : s < J := by omega
    have hs' : s' < J := by omega
    simp only [KEnv.sll_eq_sll2, h.sll2 hs hs, h.sll2 hs hs', h.sll2 hs' hs]

theorem Contained.covEntry (h : Contained lin ng ng' J typ typ' pm pm' idxc idxc' idxl idxl' g) (d : DSet)
    (hd : d.line.length ≤ J) (x y : ℕ × ℕ) (hx : x.1 < d.series.length) (hy : y.1 < d.series.length) :
    covEntry (KEnv.mk ng' lin typ' pm' idxc' idxl').kernels d pm' idxc' idxl' x y =
      Mica.covEntry (KEnv.mk ng lin typ pm idxc idxl).kernels d pm idxc idxl x y := by
  have h0 := h.con 0 (by omega)
  have h1 := h.con 1 (by omega)
  have h2 := h.con 2 (by omega)
  rw [add_zero, add_zero] at h0
  have hsig : pmSigma pm' idxc' = pmSigma pm idxc := by simp only [pmSigma, pmTau, h1, h2]
  have ht : pmTau pm' idxc' = pmTau pm idxc := by simp only [pmTau, h2]
  have hn : noiseVar d pm' idxc' idxl' x = noiseVar d pm idxc idxl x := by
    obtain ⟨s, i⟩ := x
    simp only [DSet.series, List.length_cons] at hx
    rcases s with _ | s
    · simp only [noiseVar, hsig, pmSyserr, h0]
    · simp only [noiseVar, hsig, pmSyserr, h.sys s (by omega)]
  unfold Mica.covEntry
  rw [hn, ht, h.sigCov _ d hd x y hx hy]

end

/-- C136: whatever the outcome, the line likelihoods of a model with more components, at parameters that split
components of the smaller model into parts and add components without amplitude, are those of the smaller model:
all data sets, numbers of components, types and mixtures, widths and amplitudes, inside and outside the band around
the damping timescale. -/
theorem C136_likelihood (nq ng ng' : ℕ) (lin : Bool) (typ typ' : ℕ → TF) (pm pm' : ℕ → ℝ) (idxc idxc' : ℕ → ℕ)
    (idxl idxl' : ℕ → ℕ → ℕ) (mem mem' : ℕ → ℝ) (ds : List DSet) (g : ℕ → ℕ → ℕ → Option ℕ)
    (h : ∀ k d, ds[k]? = some d →
      Contained lin ng ng' d.line.length typ typ' pm pm' (idxc k) (idxc' k) (idxl k) (idxl' k) (g k)) :
    let e := tfEnv nq ng lin typ pm idxc idxl mem
    let e' := tfEnv nq ng' lin typ' pm' idxc' idxl' mem'
    probLine1 e' ds = probLine1 e ds ∧ probLine2 e' ds = probLine2 e ds ∧ probLine3 e' ds = probLine3 e ds ∧
      probLine4 e' ds = probLine4 e ds := by
  intro e e'
  have hPC : ∀ (k : ℕ) d, ds[k]? = some d → e'.PC k d = e.PC k d := by
    intro k d hd
    rw [LineEnv.PC, LineEnv.PC, PCarr_eq, PCarr_eq]
    ext p q
    exact (h k d hd).covEntry d le_rfl _ _ (locate_series_lt _ _ p.2) (locate_series_lt _ _ q.2)
  have hs : ∀ (k : ℕ) d, ds[k]? = some d → pmSigma e'.pm (e'.idxc k) = pmSigma e.pm (e.idxc k) ∧
      pmTau e'.pm (e'.idxc k) = pmTau e.pm (e.idxc k) ∧
      ∀ em, pmSyserr e'.pm (e'.idxc k) em = pmSyserr e.pm (e.idxc k) em := by
    intro k d hd
    have h0 := (h k d hd).con 0 (by omega)
    have h1 := (h k d hd).con 1 (by omega)
    have h2 := (h k d hd).con 2 (by omega)
    rw [add_zero, add_zero] at h0
    refine ⟨?_, ?_, fun em => ?_⟩
    · simp only [pmSigma, pmTau, e, e', tfEnv, h1, h2]
    · simp only [pmTau, e, e', tfEnv, h2]
    · simp only [pmSyserr, e, e', tfEnv, h0]
  refine ⟨probLineLoop_eqOn ds 0 0 ?_, probLineLoop_eqOn ds 0 0 ?_, probLineLoop_eqOn ds 0 0 ?_,
    probLineLoop_eqOn ds 0 0 ?_⟩
  · intro k d hd
    rw [zero_add, hPC k d hd, (hs k d hd).1]; rfl
  · intro k d hd
    rw [zero_add, hPC k d hd, (hs k d hd).1]; rfl
  · intro k d hd
    rw [zero_add, hPC k d hd, (hs k d hd).1]; rfl
  · intro k d hd
    rw [zero_add, hPC k d hd]
    simp only [lineTerm4, (hs k d hd).1, (hs k d hd).2.1, (hs k d hd).2.2]
    rfl

/-- C136 for the mode without continuum. -/
theorem C136_vmap (nq ng ng' : ℕ) (lin : Bool) (typ typ' : ℕ → TF) (pm pm' : ℕ → ℝ) (idxc idxc' : ℕ → ℕ)
    (idxl idxl' : ℕ → ℕ → ℕ) (mem mem' : ℕ → ℝ) (ds : List (List LC)) (g : ℕ → ℕ → ℕ → Option ℕ)
    (h : ∀ k d, ds[k]? = some d →
      Contained lin ng ng' d.length typ typ' pm pm' (idxc k) (idxc' k) (idxl k) (idxl' k) (g k)) :
    let e := tfEnv nq ng lin typ pm idxc idxl mem
    let e' := tfEnv nq ng' lin typ' pm' idxc' idxl' mem'
    probVmap3 e' ds = probVmap3 e ds ∧ probVmap4 e' ds = probVmap4 e ds := by
  intro e e'
  have hs : ∀ (k : ℕ) d, ds[k]? = some d → vSigma e'.pm (e'.idxc k) = vSigma e.pm (e.idxc k) := by
    intro k d hd
    have h1 := (h k d hd).con 1 (by omega)
    simp only [vSigma, e, e', tfEnv, h1]
  have hPC : ∀ (k : ℕ) d, ds[k]? = some d → vPC (e'.K k) e'.pm (e'.idxc k) (e'.idxl k) d e'.mem =
      vPC (e.K k) e.pm (e.idxc k) (e.idxl k) d e.mem := by
    intro k d hd
    have hk := h k d hd
    rw [vPC_eq, vPC_eq]
    ext p q
    have hp := locate_series_lt d p p.2
    have hq := locate_series_lt d q q.2
    have hn : noiseVar (vSet d) (vPm pm' (idxc' k) (idxl' k)) 0 (fun j => j + 3) ((locate d p).1 + 1, (locate d p).2) =
        noiseVar (vSet d) (vPm pm (idxc k) (idxl k)) 0 (fun j => j + 3) ((locate d p).1 + 1, (locate d p).2) := by
      simp only [noiseVar, vPm_sigma]
      simp only [vSigma, pmSyserr, vPm, hk.con 1 (by omega), hk.sys _ hp]
    show covEntry (KEnv.mk ng' lin typ' pm' (idxc' k) (idxl' k)).kernels (vSet d) (vPm pm' (idxc' k) (idxl' k)) 0 _ _ _ =
      covEntry (KEnv.mk ng lin typ pm (idxc k) (idxl k)).kernels (vSet d) (vPm pm (idxc k) (idxl k)) 0 _ _ _
    unfold Mica.covEntry
    rw [hn, vPm_tau, vPm_tau, hk.con 2 (by omega), hk.sigCov _ (vSet d) le_rfl _ _
      (by simpa [DSet.series, vSet] using hp) (by simpa [DSet.series, vSet] using hq)]
  constructor
  · refine vLoop_eqOn ds 0 0 fun k d hd => ?_
    rw [zero_add, hPC k d hd, hs k d hd]; rfl
  · refine vLoop_eqOn ds 0 0 fun k d hd => ?_
    rw [zero_add, hPC k d hd, hs k d hd]; rfl

/-- The vector `lab1` with its first component (amplitude 1) split into parts of amplitudes 3 and -2 and a component
without amplitude. -/
noncomputable def nest4 : ℕ → ℝ := fun i => [0, 0, 0, 0, 3, 7, 3, 2, 20, 5, -2, 7, 3, 0, 1, 1].getD i 0

theorem nest4_contained : Contained true 2 4 1 (fun k => if k = 0 then .gauss else .exp)
    (fun k => if k = 1 then .exp else if k = 3 then .tophat else .gauss) lab1 nest4 0 0 (fun _ => 3) (fun _ => 3)
    (fun _ k => if k = 3 then none else if k = 1 then some 1 else some 0) where
  con := by intro r hr; interval_cases r <;> simp [lab1, nest4]
  sys := by intro j _; simp [lab1, nest4]
  extra := by
    intro j _ k hk h
    interval_cases k <;> simp [ampAt, nest4] at h ⊢
  part := by
    intro j _ k' hk' k h
    interval_cases k' <;> simp at h <;> subst h <;> simp [lab1, nest4]
  amp := by
    intro j _ k hk
    interval_cases k <;> simp [Finset.sum_filter, Finset.sum_range_succ, ampAt, lab1, nest4]
    norm_num

example : probLine4 (tfEnv 1 4 true (fun k => if k = 1 then .exp else if k = 3 then .tophat else .gauss) nest4 (fun _ => 0)
      (fun _ _ => 3) fun _ => 5) [exSet] =
    probLine4 (tfEnv 1 2 true (fun k => if k = 0 then .gauss else .exp) lab1 (fun _ => 0) (fun _ _ => 3) fun _ => 0)
      [exSet] :=
  (C136_likelihood 1 2 4 true _ _ lab1 nest4 (fun _ => 0) (fun _ => 0) (fun _ _ => 3) (fun _ _ => 3) _ _ [exSet]
    (fun _ _ k => if k = 3 then none else if k = 1 then some 1 else some 0) (by
    intro k d hd
    rcases k with _ | k
    · obtain rfl : exSet = d := by simpa using hd
      exact nest4_contained
    · simp at hd)).2.2.2

end Mica
