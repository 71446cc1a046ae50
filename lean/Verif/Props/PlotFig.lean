import Verif.Proof.PlotFig
import Verif.Proof.Quantile
import Verif.Props.Kernel
import Verif.Props.Pmap

/-!
# C128, C129: the transfer functions and the lags made by plotfig.py are those of the fitted model
-/

namespace Mica

open MeasureTheory

variable {c : LineCfg} {fv : ℕ}

/-- `indx_line[m]` of the script for a run with configuration `c`, `fv` for `FlagUniformVarParams`. -/
def plotBase (c : LineCfg) (fv m : ℕ) : ℕ :=
  plotIndx (plotNumVar fv c.nl.length) c.uniTf c.ng (fun i => c.nl.getD i 0) m

/-- **C128.** The columns the script reads are the parameters of the fitted model: component `k` of line `j` of data
set `m`, whether transfer functions are common to all data sets or not. -/
theorem C128_columns (hv : c.uniVar = decide (fv = 1)) {m j : ℕ} (hj : j < c.nl.getD m 0) (k p : ℕ) :
    plotCol (plotBase c fv m) c.ng (j + 1) k p = c.idxLine m j + 1 + 3 * k + p ∧
      (k < c.ng → p < 3 → plotCol (plotBase c fv m) c.ng (j + 1) k p < c.numParams) := by
  have hm : m < c.nl.length := by
    by_contra h
    rw [List.getD_eq_default _ _ (by omega)] at hj; omega
  have e : plotCol (plotBase c fv m) c.ng (j + 1) k p = c.idxLine m j + 1 + 3 * k + p := by
    unfold plotCol plotBase
    rw [plotIndx_eq _ _ _ _ _ hm.le, c.idxLine_eq m j hj, LineCfg.blk, LineCfg.bno, LineCfg.numVar, plotNumVar, hv]
    simp only [decide_eq_true_eq, Nat.add_sub_cancel]
    ring
  refine ⟨e, fun hk hp => ?_⟩
  have := c.addr_lt (q := 1 + 3 * k + p) (c.bno_lt m j hj) (by unfold LineCfg.blk; omega)
  rw [e, c.idxLine_eq m j hj]
  omega

theorem plotAmp_eq (hv : c.uniVar = decide (fv = 1)) {m j : ℕ} (hj : j < c.nl.getD m 0) (neg : Bool) (typ : ℕ → TF)
    (row : ℕ → ℝ) (k : ℕ) :
    plotAmp row false neg (plotBase c fv m) c.ng (j + 1) k = ((fitted c neg typ row m).comp j k).f := by
  unfold plotAmp
  rw [(C128_columns hv hj k 0).1]
  rfl

theorem plotAmp_pmap (e : PmapEnv) (hv : e.c.uniVar = decide (fv = 1)) {m j : ℕ} (hj : j < e.c.nl.getD m 0)
    (row : ℕ → ℝ) (k : ℕ) :
    plotAmp row true false (plotBase e.c fv m) e.c.ng (j + 1) k =
      if k = 0 then Real.exp (row (e.c.idxLine m j + 1))
      else Real.exp (row (e.c.idxLine m j + 1)) * Real.exp (row (e.c.idxLine m j + 1 + 3 * k)) := by
  unfold plotAmp
  rw [(C128_columns hv hj k 0).1, (C128_columns hv hj 0 0).1]
  by_cases h : k = 0
  · simp [h]
  · simp only [if_true, h, if_false, Nat.mul_zero, Nat.add_zero]
    rw [← Real.exp_add, add_comm]

/-- Exactly what the script computes for the general, variable and mixture models. -/
theorem C128_exact (hv : c.uniVar = decide (fv = 1)) {m j : ℕ} (hj : j < c.nl.getD m 0) (neg : Bool) (typetf : List ℕ)
    (hlen : typetf.length = c.ng) (row : ℕ → ℝ) (tau : List ℝ) :
    plotTran tau row false neg (plotBase c fv m) c.ng (j + 1) typetf =
      some (tau.map fun t => ∑ k ∈ Finset.range c.ng,
        let q := (fitted c neg (fun k => plotType (typetf.getD k 0)) row m).comp j k
        q.f * (tfDens (plotType (typetf.getD k 0)) q.c q.w t +
          if 3 ≤ typetf.getD k 0 ∧ t = q.c - q.w then 1 / q.w else 0)) := by
  unfold plotTran
  rw [replicate_zero_map]
  obtain ⟨ix, h⟩ := plotLoop_own tau row false neg (plotBase c fv m) c.ng (j + 1) typetf 0 (fun _ => 0) none (Or.inl rfl)
  rw [h, Option.map_some, hlen]
  congr 1
  refine List.map_congr_left fun t _ => ?_
  rw [zero_add]
  refine Finset.sum_congr rfl fun k _ => ?_
  rw [Nat.zero_add, plotAmp_eq hv hj neg (fun k => plotType (typetf.getD k 0)) row, (C128_columns hv hj k 1).1,
    (C128_columns hv hj k 2).1]
  show _ * plotDens _ (row (c.idxLine m j + 1 + 3 * k + 1)) (Real.exp (row (c.idxLine m j + 1 + 3 * k + 2))) t =
    _ * (tfDens _ (row (c.idxLine m j + 1 + 3 * k + 1)) (Real.exp (row (c.idxLine m j + 1 + 3 * k + 2))) t +
      if 3 ≤ typetf.getD k 0 ∧ t = row (c.idxLine m j + 1 + 3 * k + 1) - Real.exp (row (c.idxLine m j + 1 + 3 * k + 2)) then
        1 / Real.exp (row (c.idxLine m j + 1 + 3 * k + 2)) else 0)
  congr 1
  generalize row (c.idxLine m j + 1 + 3 * k + 1) = x
  have hw := Real.exp_pos (row (c.idxLine m j + 1 + 3 * k + 2))
  generalize Real.exp (row (c.idxLine m j + 1 + 3 * k + 2)) = w at *
  generalize typetf.getD k 0 = tt
  by_cases h3 : 3 ≤ tt ∧ t = x - w
  · obtain ⟨h3, rfl⟩ := h3
    unfold plotDens plotType plotOnset uncut
    have e0 : tt ≠ 0 := by omega
    have e1 : tt ≠ 1 := by omega
    have e2 : tt ≠ 2 := by omega
    simp [e0, e1, e2, tfDens, h3, plotOnset]
  · rw [if_neg h3, add_zero]
    exact plotDens_eq tt x hw t fun h h' => h3 ⟨h, h'⟩

/-- **C128.** For the general, variable and mixture models the script computes the transfer function of the fitted model
at every point of the grid, for every sample.  Missing: a point of the grid exactly where an exponential component
begins (there the script takes the limit from above, see `C128_exact`), and photometric mode (`C128_pmap`). -/
theorem C128_transfer_partial (hv : c.uniVar = decide (fv = 1)) {m j : ℕ} (hj : j < c.nl.getD m 0) (neg : Bool)
    (typetf : List ℕ) (hlen : typetf.length = c.ng) (row : ℕ → ℝ) (tau : List ℝ)
    (hon : ∀ t ∈ tau, ∀ k < c.ng, 3 ≤ typetf.getD k 0 →
      t ≠ row (c.idxLine m j + 1 + 3 * k + 1) - Real.exp (row (c.idxLine m j + 1 + 3 * k + 2))) :
    plotTran tau row false neg (plotBase c fv m) c.ng (j + 1) typetf =
      some (tau.map (transfer (fitted c neg (fun k => plotType (typetf.getD k 0)) row m) j)) := by
  rw [C128_exact hv hj neg typetf hlen row tau]
  congr 1
  refine List.map_congr_left fun t ht => ?_
  rw [transfer_comp]
  refine Finset.sum_congr rfl fun k hk => ?_
  simp only
  rw [if_neg, add_zero]
  · rfl
  · rintro ⟨h3, h⟩
    exact hon t ht k (Finset.mem_range.1 hk) h3 h

theorem sum_first {n : ℕ} (hn : 1 ≤ n) (f : ℕ → ℝ) :
    ∑ k ∈ Finset.range n, f k = f 0 + ∑ k ∈ Finset.Ico 1 n, f k := by
  rw [Finset.range_eq_Ico, Finset.sum_eq_sum_Ico_succ_bot (by omega)]

/-- **C128.** Photometric mode with Gaussians or top hats: the transfer function of the fitted model, ratios applied. -/
theorem C128_pmap (e : PmapEnv) (hv : e.c.uniVar = decide (fv = 1)) {m j : ℕ} (hj : j < e.c.nl.getD m 0) (hng : 1 ≤ e.c.ng)
    (tt : ℕ) (htt : tt ≤ 1) (htyp : e.typ = plotType tt) (row : ℕ → ℝ) (tau : List ℝ) :
    plotTran tau row true false (plotBase e.c fv m) e.c.ng (j + 1) (List.replicate e.c.ng tt) =
      some (tau.map (transfer (fittedPmap e row m) j)) := by
  unfold plotTran
  rw [replicate_zero_map]
  obtain ⟨ix, h⟩ := plotLoop_own tau row true false (plotBase e.c fv m) e.c.ng (j + 1) (List.replicate e.c.ng tt) 0
    (fun _ => 0) none (Or.inr fun t ht => by rw [List.eq_of_mem_replicate ht]; exact htt)
  rw [h, Option.map_some, List.length_replicate]
  congr 1
  refine List.map_congr_left fun t _ => ?_
  show _ = transfer (KEnv.mk e.c.ng false (fun _ => e.typ) (e.trans row) (e.c.idxCon m) (e.c.idxLine m)) j t
  rw [C83_transfer e row m j hj hng t, zero_add, sum_first hng]
  have dens : ∀ k < e.c.ng, plotDens ((List.replicate e.c.ng tt).getD k 0) (row (plotCol (plotBase e.c fv m) e.c.ng (j + 1) (0 + k) 1))
      (Real.exp (row (plotCol (plotBase e.c fv m) e.c.ng (j + 1) (0 + k) 2))) t =
      tfDens e.typ (row (e.c.idxLine m j + 1 + 3 * k + 1)) (Real.exp (row (e.c.idxLine m j + 1 + 3 * k + 2))) t := by
    intro k hk
    rw [Nat.zero_add, (C128_columns hv hj k 1).1, (C128_columns hv hj k 2).1, htyp,
      List.getD_eq_getElem _ _ (by simpa using hk), List.getElem_replicate]
    exact plotDens_eq tt _ (Real.exp_pos _) t (by omega)
  congr 1
  · rw [dens 0 (by omega), Nat.zero_add, plotAmp_pmap e hv hj, if_pos rfl]
  · refine Finset.sum_congr rfl fun k hk => ?_
    rw [Finset.mem_Ico] at hk
    rw [dens k hk.2, Nat.zero_add, plotAmp_pmap e hv hj, if_neg (by omega)]

/-- Photometric mode with gamma or exponential functions, exactly: the later components are cut where the first one
begins, not where they begin themselves. -/
theorem C128_pmap_exact (e : PmapEnv) (hv : e.c.uniVar = decide (fv = 1)) {m j : ℕ} (hj : j < e.c.nl.getD m 0)
    (hng : 1 ≤ e.c.ng) (tt : ℕ) (htt : 2 ≤ tt) (row : ℕ → ℝ) (tau : List ℝ) :
    let a := e.c.idxLine m j + 1
    plotTran tau row true false (plotBase e.c fv m) e.c.ng (j + 1) (List.replicate e.c.ng tt) =
      some (tau.map fun t => if t < plotOnset tt (row (a + 1)) (Real.exp (row (a + 2))) then 0 else
        Real.exp (row a) * uncut tt (row (a + 1)) (Real.exp (row (a + 2))) t +
        ∑ k ∈ Finset.Ico 1 e.c.ng, Real.exp (row a) * Real.exp (row (a + 3 * k)) *
          uncut tt (row (a + 3 * k + 1)) (Real.exp (row (a + 3 * k + 2))) t) := by
  intro a
  obtain ⟨n, hn⟩ : ∃ n, e.c.ng = n + 1 := ⟨e.c.ng - 1, by omega⟩
  have ecol : ∀ k p, plotCol (plotBase e.c fv m) e.c.ng (j + 1) k p = a + 3 * k + p := fun k p => (C128_columns hv hj k p).1
  have hamp : ∀ k, plotAmp row true false (plotBase e.c fv m) e.c.ng (j + 1) k =
      if k = 0 then Real.exp (row a) else Real.exp (row a) * Real.exp (row (a + 3 * k)) := plotAmp_pmap e hv hj row
  unfold plotTran
  rw [replicate_zero_map]
  conv_lhs => rw [show List.replicate e.c.ng tt = tt :: List.replicate n tt by rw [hn]; rfl]
  obtain ⟨ix, h1, h2⟩ := plotStep_own tau row true false (plotBase e.c fv m) e.c.ng (j + 1) 0 tt (fun _ => 0) none (Or.inl (by simp))
  rw [plotLoop, h1, h2 htt]
  show (plotLoop _ _ _ _ _ _ _ _ _ _).map _ = _
  rw [plotLoop_stale _ _ _ _ _ _ _ htt _ _ (by omega), Option.map_some]
  congr 1
  refine List.map_congr_left fun t _ => ?_
  simp only [ecol, hamp, if_true, zero_add, Nat.mul_zero, Nat.add_zero]
  have d0 : plotDens tt (row (a + 1)) (Real.exp (row (a + 2))) t =
      if plotOnset tt (row (a + 1)) (Real.exp (row (a + 2))) ≤ t then uncut tt (row (a + 1)) (Real.exp (row (a + 2))) t else 0 := by
    unfold plotDens
    rw [if_neg (by omega), if_neg (by omega)]
  rw [d0]
  by_cases h : t < plotOnset tt (row (a + 1)) (Real.exp (row (a + 2)))
  · rw [if_pos h, if_neg (not_le.2 h)]
    simp only [if_neg (not_le.2 h), mul_zero, Finset.sum_const_zero, add_zero]
  · rw [if_neg h, if_pos (not_lt.1 h)]
    simp only [if_pos (not_lt.1 h)]
    rw [Finset.sum_Ico_eq_sum_range, hn, Nat.add_sub_cancel]
    congr 1
    refine Finset.sum_congr rfl fun i _ => ?_
    rw [if_neg (by omega)]

/-- Photometric mode with gamma or exponential functions: right at the lags where all components have begun or none
has.  Missing: the lags in between, where it fails (`C128_pmap_fails`). -/
theorem C128_pmap_partial (e : PmapEnv) (hv : e.c.uniVar = decide (fv = 1)) {m j : ℕ} (hj : j < e.c.nl.getD m 0)
    (hng : 1 ≤ e.c.ng) (tt : ℕ) (htt : 2 ≤ tt) (htyp : e.typ = plotType tt) (row : ℕ → ℝ) (tau : List ℝ)
    (hon : ∀ t ∈ tau,
      (∀ k < e.c.ng, plotOnset tt (row (e.c.idxLine m j + 1 + 3 * k + 1)) (Real.exp (row (e.c.idxLine m j + 1 + 3 * k + 2))) < t) ∨
      (∀ k < e.c.ng, t < plotOnset tt (row (e.c.idxLine m j + 1 + 3 * k + 1)) (Real.exp (row (e.c.idxLine m j + 1 + 3 * k + 2))))) :
    plotTran tau row true false (plotBase e.c fv m) e.c.ng (j + 1) (List.replicate e.c.ng tt) =
      some (tau.map (transfer (fittedPmap e row m) j)) := by
  rw [C128_pmap_exact e hv hj hng tt htt row tau]
  congr 1
  refine List.map_congr_left fun t ht => ?_
  show _ = transfer (KEnv.mk e.c.ng false (fun _ => e.typ) (e.trans row) (e.c.idxCon m) (e.c.idxLine m)) j t
  rw [C83_transfer e row m j hj hng t]
  have dens : ∀ x w : ℝ, 0 < w → t ≠ plotOnset tt x w → tfDens e.typ x w t = if t < plotOnset tt x w then 0 else uncut tt x w t := by
    intro x w hw hne
    rw [htyp, ← plotDens_eq tt x hw t]
    · unfold plotDens
      rw [if_neg (by omega), if_neg (by omega)]
      by_cases h : t < plotOnset tt x w
      · rw [if_pos h, if_neg (not_le.2 h)]
      · rw [if_neg h, if_pos (not_lt.1 h)]
    · intro h3 h
      apply hne
      rw [h, plotOnset, if_neg (by omega)]
  rcases hon t ht with h | h
  · rw [if_neg (not_lt.2 (h 0 (by omega)).le), dens _ _ (Real.exp_pos _) (h 0 (by omega)).ne',
      if_neg (not_lt.2 (h 0 (by omega)).le)]
    congr 1
    refine Finset.sum_congr rfl fun k hk => ?_
    rw [Finset.mem_Ico] at hk
    rw [dens _ _ (Real.exp_pos _) (h k hk.2).ne', if_neg (not_lt.2 (h k hk.2).le)]
  · rw [if_pos (h 0 (by omega)), dens _ _ (Real.exp_pos _) (h 0 (by omega)).ne, if_pos (h 0 (by omega)), mul_zero, zero_add]
    symm
    refine Finset.sum_eq_zero fun k hk => ?_
    rw [Finset.mem_Ico] at hk
    rw [dens _ _ (Real.exp_pos _) (h k hk.2).ne, if_pos (h k hk.2), mul_zero]

/-- Two gamma functions in photometric mode: lags 2 and 12, widths 1, equal amplitudes. -/
noncomputable def pmapEx (typ : TF) : PmapEnv := ⟨{ lineCfgEx 4 0 [1] false with ng := 2, uniVar := true }, 0, typ, fun _ => 0⟩

/-- The sample with lags 2 and 12, widths 1, equal amplitudes. -/
def pmapRow : ℕ → ℝ := fun i => if i = 5 then 2 else if i = 8 then 12 else 0

theorem pmapEx_idx (typ : TF) : (pmapEx typ).c.idxLine 0 0 = 3 := rfl

/-- **C128, negation.** In photometric mode with two gamma functions the script's transfer function is negative at lag 1,
where that of the fitted model is positive. -/
theorem C128_pmap_fails : ∃ v, plotTran [1] pmapRow true false (plotBase (pmapEx .gamma).c 1 0) 2 1 [2, 2] = some [v] ∧ v < 0 ∧
    0 < transfer (fittedPmap (pmapEx .gamma) pmapRow 0) 0 1 := by
  have hj : 0 < (pmapEx .gamma).c.nl.getD 0 0 := by decide
  refine ⟨_, C128_pmap_exact (fv := 1) (pmapEx .gamma) rfl hj (by decide) 2 le_rfl pmapRow [1], ?_, ?_⟩
  · rw [pmapEx_idx]
    beta_reduce
    rw [if_neg (by norm_num [plotOnset, pmapRow])]
    rw [show Finset.Ico 1 (pmapEx .gamma).c.ng = {1} from rfl, Finset.sum_singleton]
    norm_num [uncut, plotOnset, pmapRow]
    have h1 : Real.exp (-1) < 1 := by rw [Real.exp_lt_one_iff]; norm_num
    have h2 : 1 < Real.exp 9 := Real.one_lt_exp_iff.2 (by norm_num)
    linarith
  · show 0 < transfer (KEnv.mk _ false (fun _ => .gamma) ((pmapEx .gamma).trans pmapRow) ((pmapEx .gamma).c.idxCon 0) ((pmapEx .gamma).c.idxLine 0)) 0 1
    have := C83_transfer (pmapEx .gamma) pmapRow 0 0 hj (by decide) 1
    simp only at this
    refine lt_of_lt_of_eq ?_ this.symm
    rw [pmapEx_idx, show Finset.Ico 1 (pmapEx .gamma).c.ng = {1} from rfl, Finset.sum_singleton]
    show 0 < _ * tfDens .gamma _ _ _ + _ * _ * tfDens .gamma _ _ _
    norm_num [tfDens, pmapRow]
    exact Real.exp_pos _

/-- **C128.** A row of `tranfunc_*`: the value is the median over the samples, the two limits are not negative, and about
68.3% of the samples (all but one entry) lie between them. -/
theorem C128_rows (vals : List ℝ) (hx : 1 ≤ vals.length) :
    let r := plotRow vals
    IsQuantile vals (1 / 2) r.1 ∧ IsQuantile vals 0.1585 (r.1 - r.2.1) ∧ IsQuantile vals 0.8415 (r.1 + r.2.2) ∧
      0 ≤ r.2.1 ∧ 0 ≤ r.2.2 ∧
      ((vals.length : ℝ) - 1) * 0.683 - 1 < (vals.countP fun v => decide (r.1 - r.2.1 ≤ v ∧ v ≤ r.1 + r.2.2) : ℕ) := by
  have e1 : (50 / 100 : ℝ) = 1 / 2 := by norm_num
  have e2 : ((100 - 68.3) / 2 / 100 : ℝ) = 0.1585 := by norm_num
  have e3 : ((100 - (100 - 68.3) / 2) / 100 : ℝ) = 0.8415 := by norm_num
  simp only [plotRow, e1, e2, e3, sub_sub_cancel, add_sub_cancel]
  refine ⟨npQuantile_is _ hx (by norm_num) (by norm_num), npQuantile_is _ hx (by norm_num) (by norm_num),
    npQuantile_is _ hx (by norm_num) (by norm_num), ?_, ?_, ?_⟩
  · exact sub_nonneg.2 (npQuantile_mono _ hx (by norm_num) (by norm_num) (by norm_num))
  · exact sub_nonneg.2 (npQuantile_mono _ hx (by norm_num) (by norm_num) (by norm_num))
  · have := npQuantile_between vals hx (q := 0.1585) (r := 0.8415) (by norm_num) (by norm_num) (by norm_num)
    rwa [show (0.8415 - 0.1585 : ℝ) = 0.683 by norm_num] at this

/-! ## C129 -/

/-- **C129.** For every sample the lag that enters the table is the centroid `∫ s ψ(s) ds / ∫ ψ(s) ds` of the transfer
function of the fitted model. -/
theorem C129_centroid (hv : c.uniVar = decide (fv = 1)) {m j : ℕ} (hj : j < c.nl.getD m 0) (typ : ℕ → TF) (row : ℕ → ℝ) :
    plotLag row false (plotBase c fv m) c.ng (j + 1) =
      (∫ s, s * transfer (fitted c false typ row m) j s) / ∫ s, transfer (fitted c false typ row m) j s := by
  obtain ⟨h1, h2⟩ := C61_transfer (fitted c false typ row m) j
  rw [h1, h2]
  unfold plotLag
  rw [foldl_add_sum, foldl_add_sum]
  congr 1
  · refine Finset.sum_congr rfl fun k _ => ?_
    rw [plotAmp_eq hv hj false typ row, (C128_columns hv hj k 1).1, mul_comm]
    rfl
  · exact Finset.sum_congr rfl fun k _ => plotAmp_eq hv hj false typ row k

/-- **C129.** The same in photometric mode, for all types. -/
theorem C129_centroid_pmap (e : PmapEnv) (hv : e.c.uniVar = decide (fv = 1)) {m j : ℕ} (hj : j < e.c.nl.getD m 0)
    (row : ℕ → ℝ) :
    plotLag row true (plotBase e.c fv m) e.c.ng (j + 1) =
      (∫ s, s * transfer (fittedPmap e row m) j s) / ∫ s, transfer (fittedPmap e row m) j s := by
  obtain ⟨h1, h2⟩ := C61_transfer (fittedPmap e row m) j
  rw [h1, h2]
  unfold plotLag
  rw [foldl_add_sum, foldl_add_sum]
  have ht := fun k hk => (pmap_trans_line e row m j hj).2 k hk
  have hf : ∀ k < e.c.ng, plotAmp row true false (plotBase e.c fv m) e.c.ng (j + 1) k = ((fittedPmap e row m).comp j k).f := by
    intro k hk
    rw [plotAmp_pmap e hv hj, ← (ht k hk).1]
    rfl
  congr 1
  · refine Finset.sum_congr rfl fun k hk => ?_
    rw [Finset.mem_range] at hk
    rw [hf k hk, (C128_columns hv hj k 1).1, ← (ht k hk).2.1, mul_comm]
    rfl
  · exact Finset.sum_congr rfl fun k hk => hf k (Finset.mem_range.1 hk)

/-- The lag of a sample lies between the smallest and the largest lag of its components. -/
theorem C129_between (row : ℕ → ℝ) (pmap : Bool) (base ng j : ℕ) (hng : 1 ≤ ng) (lo hi : ℝ)
    (h : ∀ k < ng, lo ≤ row (plotCol base ng j k 1) ∧ row (plotCol base ng j k 1) ≤ hi) :
    lo ≤ plotLag row pmap base ng j ∧ plotLag row pmap base ng j ≤ hi := by
  have hp : ∀ k, 0 < plotAmp row pmap false base ng j k := by
    intro k
    unfold plotAmp
    split_ifs <;> simp_all [Real.exp_pos]
  unfold plotLag
  rw [foldl_add_sum, foldl_add_sum]
  have hs : 0 < ∑ k ∈ Finset.range ng, plotAmp row pmap false base ng j k :=
    Finset.sum_pos (fun k _ => hp k) ⟨0, by simp; omega⟩
  rw [le_div_iff₀ hs, div_le_iff₀ hs, Finset.mul_sum, Finset.mul_sum]
  exact ⟨Finset.sum_le_sum fun k hk => mul_le_mul_of_nonneg_right (h k (Finset.mem_range.1 hk)).1 (hp k).le,
    Finset.sum_le_sum fun k hk => mul_le_mul_of_nonneg_right (h k (Finset.mem_range.1 hk)).2 (hp k).le⟩

/-- **C129.** A line of the table: median and limits of the lags of the samples; the limits are not negative and at least
68.3% of the samples (up to one and a fraction) lie between them. -/
theorem C129_limits (rows : List (ℕ → ℝ)) (hr : 1 ≤ rows.length) (pmap : Bool) (base ng j : ℕ) :
    let xs := rows.map fun row => plotLag row pmap base ng j
    let r := plotLagLine rows pmap base ng j
    IsQuantile xs (1 / 2) r.1 ∧ IsQuantile xs 0.1585 (r.1 - r.2.1) ∧ IsQuantile xs 0.8415 (r.1 + r.2.2) ∧
      0 ≤ r.2.1 ∧ 0 ≤ r.2.2 ∧
      ((rows.length : ℝ) - 1) * 0.683 - 1 < (xs.countP fun v => decide (r.1 - r.2.1 ≤ v ∧ v ≤ r.1 + r.2.2) : ℕ) := by
  intro xs r
  have hx : 1 ≤ xs.length := by simpa [xs] using hr
  have hl : xs.length = rows.length := by simp [xs]
  have e : r = plotRow xs := by
    simp only [r, plotLagLine, plotRow, xs]
    norm_num
  have := C128_rows xs hx
  rw [hl] at this
  rw [e]
  exact this

/-- **C129.** The table does not depend on the order of the samples. -/
theorem C129_order (rows rows' : List (ℕ → ℝ)) (h : rows.Perm rows') (pmap : Bool) (base ng j : ℕ) :
    plotLagLine rows pmap base ng j = plotLagLine rows' pmap base ng j := by
  unfold plotLagLine
  have hp := h.map fun row => plotLag row pmap base ng j
  simp only [npQuantile_perm hp]

/-- **C129.** If all lags of all samples are moved by the same time, the lag in the table moves by it and the limits stay. -/
theorem C129_shift (rows : List (ℕ → ℝ)) (hr : 1 ≤ rows.length) (pmap : Bool) (base ng j : ℕ) (hng : 1 ≤ ng) (d : ℝ)
    (f : (ℕ → ℝ) → ℕ → ℝ)
    (h0 : ∀ row ∈ rows, ∀ k < ng, f row (plotCol base ng j k 0) = row (plotCol base ng j k 0))
    (h1 : ∀ row ∈ rows, ∀ k < ng, f row (plotCol base ng j k 1) = row (plotCol base ng j k 1) + d) :
    plotLagLine (rows.map f) pmap base ng j =
      ((plotLagLine rows pmap base ng j).1 + d, (plotLagLine rows pmap base ng j).2) := by
  have hp : ∀ (row : ℕ → ℝ) k, 0 < plotAmp row pmap false base ng j k := by
    intro row k
    unfold plotAmp
    split_ifs <;> simp_all [Real.exp_pos]
  have key : ∀ row ∈ rows, plotLag (f row) pmap base ng j = 1 * plotLag row pmap base ng j + d := by
    intro row hrow
    unfold plotLag
    rw [foldl_add_sum, foldl_add_sum, foldl_add_sum, foldl_add_sum]
    have ha : ∀ k ∈ Finset.range ng, plotAmp (f row) pmap false base ng j k = plotAmp row pmap false base ng j k := by
      intro k hk
      unfold plotAmp
      rw [h0 row hrow k (Finset.mem_range.1 hk), h0 row hrow 0 (by omega)]
    rw [Finset.sum_congr rfl ha]
    have hs : 0 < ∑ k ∈ Finset.range ng, plotAmp row pmap false base ng j k :=
      Finset.sum_pos (fun k _ => hp row k) ⟨0, by simp; omega⟩
    rw [one_mul, div_add' _ _ _ hs.ne', Finset.mul_sum, ← Finset.sum_add_distrib]
    congr 1
    refine Finset.sum_congr rfl fun k hk => ?_
    rw [ha k hk, h1 row hrow k (Finset.mem_range.1 hk)]
    ring
  have e : ((rows.map f).map fun row => plotLag row pmap base ng j) =
      (rows.map fun row => plotLag row pmap base ng j).map fun x => 1 * x + d := by
    rw [List.map_map, List.map_map]
    exact List.map_congr_left fun row hrow => key row hrow
  unfold plotLagLine
  simp only [e]
  have hx : 1 ≤ (rows.map fun row => plotLag row pmap base ng j).length := by simpa using hr
  rw [npQuantile_affine _ hx 1 d (by norm_num) (by norm_num) (by norm_num), npQuantile_affine _ hx 1 d (by norm_num) (by norm_num) (by norm_num),
    npQuantile_affine _ hx 1 d (by norm_num) (by norm_num) (by norm_num)]
  simp only [one_mul, Prod.mk.injEq]
  exact ⟨trivial, by ring, by ring⟩

/-! ## Which results are plotted -/

/-- Outside the mixture model all results from `NumCompLow` to `NumCompUpp` components are plotted. -/
theorem C128_runs (l u : ℕ) (mix : Option ℕ) (n : ℕ) :
    ∃ ns, plotRuns false (some l) (some u) mix = some ns ∧ (n ∈ ns ↔ l ≤ n ∧ n ≤ u) ∧ ns.Nodup := by
  refine ⟨_, rfl, ?_, List.nodup_range'⟩
  rw [List.mem_range'_1]; omega

/-- **C128, negation.** In the mixture model, whose results all have as many components as `StrTypeTFMix` has digits,
they are plotted, and nothing else, iff `NumCompUpp` happens to be that number. -/
theorem C128_runs_mmap (low upp : Option ℕ) (n : ℕ) : plotRuns true low upp (some n) = some [n] ↔ upp = some n := by
  cases upp with
  | none => simp [plotRuns]
  | some u =>
    simp only [plotRuns, Option.some.injEq]
    constructor
    · intro h
      have := congrArg List.length h
      simp at this
      omega
    · rintro rfl
      simp

/-! ### Examples -/

/-- Two data sets with two and one lines, three components of different types with responses of either sign. -/
example (row : ℕ → ℝ) (tau : List ℝ) :
    plotTran tau row false true (plotBase (lineCfgEx 0 2 [2, 1] false) 0 1) 3 1 [0, 1, 2] =
      some (tau.map (transfer (fitted (lineCfgEx 0 2 [2, 1] false) true (fun k => plotType ([0, 1, 2].getD k 0)) row 1) 0)) :=
  C128_transfer_partial (c := lineCfgEx 0 2 [2, 1] false) (fv := 0) (m := 1) (j := 0) rfl (by decide) true [0, 1, 2] rfl row tau
    (fun t _ k hk h3 => by
      exfalso
      have : k < 3 := hk
      interval_cases k <;> simp at h3)

example (row : ℕ → ℝ) (tau : List ℝ) :
    plotTran tau row true false (plotBase (pmapEx .tophat).c 1 0) 2 1 [1, 1] =
      some (tau.map (transfer (fittedPmap (pmapEx .tophat) row 0) 0)) :=
  C128_pmap (fv := 1) (pmapEx .tophat) rfl (by decide) (by decide) 1 le_rfl rfl row tau

example : plotTran [20, -5] pmapRow true false (plotBase (pmapEx .gamma).c 1 0) 2 1 [2, 2] =
    some ([20, -5].map (transfer (fittedPmap (pmapEx .gamma) pmapRow 0) 0)) :=
  C128_pmap_partial (fv := 1) (pmapEx .gamma) rfl (by decide) (by decide) 2 le_rfl rfl pmapRow _ (by
    intro t ht
    simp only [List.mem_cons, List.not_mem_nil, or_false] at ht
    rw [pmapEx_idx]
    rcases ht with rfl | rfl
    · left
      intro k hk
      have : k < 2 := hk
      interval_cases k <;> norm_num [plotOnset, pmapRow]
    · right
      intro k hk
      have : k < 2 := hk
      interval_cases k <;> norm_num [plotOnset, pmapRow])

end Mica
