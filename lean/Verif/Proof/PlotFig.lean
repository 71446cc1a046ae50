import Verif.Spec.PlotFig
import Verif.Spec.Kernel
import Verif.Proof.LineLayout
import Mathlib.Algebra.BigOperators.Fin

/-!
# Lemmas about plotfig.py
-/

namespace Mica

/-- `indx_line` in terms of the number of lines before. -/
theorem plotIndx_eq (nv ft ng : ℕ) (nl : List ℕ) (i : ℕ) (hi : i ≤ nl.length) :
    plotIndx nv ft ng (fun i => nl.getD i 0) i = nv + (if ft = 1 then 0 else (nl.take i).sum) * (1 + ng * 3) := by
  induction i with
  | zero => simp [plotIndx]
  | succ i ih =>
    have h1 : i < nl.length := hi
    rw [plotIndx, ih h1.le]
    by_cases h : ft = 1
    · simp [h]
    · simp only [h, if_false]
      rw [List.take_add_one, List.sum_append, List.getElem?_eq_getElem h1, List.getD_eq_getElem _ _ h1]
      simp only [Option.toList_some, List.sum_singleton]
      ring

theorem map_getD (tau : List ℝ) (S : ℝ → ℝ) (i : ℕ) (hi : i < tau.length) : (tau.map S).getD i 0 = S (tau.getD i 0) := by
  rw [List.getD_eq_getElem _ _ (by simpa using hi), List.getD_eq_getElem _ _ hi, List.getElem_map]

theorem map_range_getD (tau : List ℝ) (S : ℝ → ℝ) : (List.range tau.length).map (fun i => S (tau.getD i 0)) = tau.map S := by
  refine List.ext_getElem (by simp) fun i h1 h2 => ?_
  have hi : i < tau.length := by simpa using h1
  simp [hi]

theorem plotAddAll_map (tau : List ℝ) (S f : ℝ → ℝ) : plotAddAll tau (tau.map S) f = tau.map fun t => S t + f t := by
  unfold plotAddAll
  rw [List.length_map, ← map_range_getD tau fun t => S t + f t]
  refine List.map_congr_left fun i hi => ?_
  rw [map_getD _ _ _ (List.mem_range.1 hi)]

theorem plotAddAt_map (tau : List ℝ) (S f : ℝ → ℝ) (cen : ℝ) :
    plotAddAt tau (tau.map S) (plotWhere tau cen) f = tau.map fun t => S t + if cen ≤ t then f t else 0 := by
  unfold plotAddAt
  rw [List.length_map, ← map_range_getD tau fun t => S t + if cen ≤ t then f t else 0]
  refine List.map_congr_left fun i hi => ?_
  rw [map_getD _ _ _ (List.mem_range.1 hi)]
  have : i ∈ plotWhere tau cen ↔ cen ≤ tau.getD i 0 := by
    unfold plotWhere
    rw [List.mem_filter]
    simp only [hi, true_and, decide_eq_true_eq]
  by_cases h : cen ≤ tau.getD i 0
  · rw [if_pos (this.2 h)]; simp only [h, if_true]
  · rw [if_neg (fun h' => h (this.1 h'))]; simp only [h, if_false, add_zero]

/-- The profile the script plots. -/
noncomputable def plotDens (tt : ℕ) (c w t : ℝ) : ℝ :=
  if tt = 0 then 1 / w * Real.exp (-0.5 * (t - c) ^ 2 / w ^ 2) / Real.sqrt (2 * Real.pi)
  else if tt = 1 then 1 / w / 2 * npHeaviside (w - |t - c|)
  else if plotOnset tt c w ≤ t then uncut tt c w t else 0

theorem plotDens_eq (tt : ℕ) (c : ℝ) {w : ℝ} (hw : 0 < w) (t : ℝ) (hon : 3 ≤ tt → t ≠ c - w) :
    plotDens tt c w t = tfDens (plotType tt) c w t := by
  unfold plotDens plotType
  by_cases h0 : tt = 0
  · simp only [h0, if_true, tfDens]
    rw [show -0.5 * (t - c) ^ 2 / w ^ 2 = -(t - c) ^ 2 / (2 * w ^ 2) by field_simp; ring]
    have : Real.sqrt (2 * Real.pi) ≠ 0 := (Real.sqrt_pos.2 (by positivity)).ne'
    field_simp
  by_cases h1 : tt = 1
  · subst h1
    simp only [one_ne_zero, if_false, if_true, tfDens, npHeaviside]
    by_cases h : |t - c| ≤ w
    · rw [if_neg (by linarith), if_pos h]; field_simp
    · rw [if_pos (by linarith), if_neg h]; ring
  by_cases h2 : tt = 2
  · subst h2
    simp only [show (2 : ℕ) ≠ 0 by norm_num, show (2 : ℕ) ≠ 1 by norm_num, if_false, if_true, tfDens, plotOnset, uncut]
    rcases lt_trichotomy (c - 2 * w) t with h | h | h
    · rw [if_pos h.le, if_pos h]; ring
    · rw [if_pos h.le, if_neg (by linarith), h]; ring
    · rw [if_neg (by linarith), if_neg (by linarith)]
  · simp only [h0, h1, h2, if_false, tfDens, plotOnset, uncut]
    have hne := hon (by omega)
    by_cases h : c - w < t
    · rw [if_pos h.le, if_pos h]
    · rw [if_neg (fun h' => h (lt_of_le_of_ne h' (Ne.symm hne))), if_neg h]

/-- One component with its own `idx_tau`. -/
theorem plotStep_own (tau : List ℝ) (row : ℕ → ℝ) (pmap neg : Bool) (base ng j k tt : ℕ) (S : ℝ → ℝ) (ix : Option (List ℕ))
    (h : ¬ (pmap = true ∧ k ≠ 0) ∨ tt ≤ 1) :
    ∃ ix', plotStep tau row pmap neg base ng j k tt ⟨tau.map S, ix⟩ =
      some ⟨tau.map fun t => S t + plotAmp row pmap neg base ng j k *
        plotDens tt (row (plotCol base ng j k 1)) (Real.exp (row (plotCol base ng j k 2))) t, ix'⟩ ∧
      (2 ≤ tt → ix' = some (plotWhere tau (plotOnset tt (row (plotCol base ng j k 1)) (Real.exp (row (plotCol base ng j k 2)))))) := by
  unfold plotStep plotDens
  by_cases h0 : tt = 0
  · refine ⟨ix, ?_, by omega⟩
    simp only [h0, if_true]
    rw [plotAddAll_map]
    congr 2
    refine List.map_congr_left fun t _ => ?_
    ring
  by_cases h1 : tt = 1
  · subst h1
    refine ⟨ix, ?_, by omega⟩
    simp only [one_ne_zero, if_false, if_true]
    rw [plotAddAll_map]
    congr 2
    refine List.map_congr_left fun t _ => ?_
    ring
  · have h' : ¬ (pmap = true ∧ k ≠ 0) := h.resolve_right (by omega)
    refine ⟨_, ?_, fun _ => rfl⟩
    simp only [h0, h1, if_false, if_neg h']
    show some _ = some _
    congr 2
    have e : (if tt = 2 then row (plotCol base ng j k 1) - 2 * Real.exp (row (plotCol base ng j k 2))
        else row (plotCol base ng j k 1) - Real.exp (row (plotCol base ng j k 2))) =
        plotOnset tt (row (plotCol base ng j k 1)) (Real.exp (row (plotCol base ng j k 2))) := rfl
    rw [e, plotAddAt_map]
    refine List.map_congr_left fun t _ => ?_
    unfold uncut
    split_ifs <;> ring

/-- One later component of a gamma or exponential function in photometric mode: cut where the first component is. -/
theorem plotStep_stale (tau : List ℝ) (row : ℕ → ℝ) (neg : Bool) (base ng j k tt : ℕ) (S : ℝ → ℝ) (cen : ℝ)
    (hk : k ≠ 0) (ht : 2 ≤ tt) :
    plotStep tau row true neg base ng j k tt ⟨tau.map S, some (plotWhere tau cen)⟩ =
      some ⟨tau.map fun t => S t + plotAmp row true neg base ng j k *
        (if cen ≤ t then uncut tt (row (plotCol base ng j k 1)) (Real.exp (row (plotCol base ng j k 2))) t else 0),
        some (plotWhere tau cen)⟩ := by
  unfold plotStep
  have h0 : tt ≠ 0 := by omega
  have h1 : tt ≠ 1 := by omega
  simp only [h0, h1, if_false, ne_eq, hk, not_false_eq_true, and_self, if_true]
  congr 2
  have e : (if tt = 2 then row (plotCol base ng j k 1) - 2 * Real.exp (row (plotCol base ng j k 2))
      else row (plotCol base ng j k 1) - Real.exp (row (plotCol base ng j k 2))) =
      plotOnset tt (row (plotCol base ng j k 1)) (Real.exp (row (plotCol base ng j k 2))) := rfl
  rw [e, plotAddAt_map]
  refine List.map_congr_left fun t _ => ?_
  unfold uncut
  split_ifs <;> ring

/-- The loop if every component has its own `idx_tau`. -/
theorem plotLoop_own (tau : List ℝ) (row : ℕ → ℝ) (pmap neg : Bool) (base ng j : ℕ) (ts : List ℕ) (k : ℕ) (S : ℝ → ℝ)
    (ix : Option (List ℕ)) (h : pmap = false ∨ ∀ tt ∈ ts, tt ≤ 1) :
    ∃ ix', plotLoop tau row pmap neg base ng j k ts ⟨tau.map S, ix⟩ =
      some ⟨tau.map fun t => S t + ∑ i ∈ Finset.range ts.length, plotAmp row pmap neg base ng j (k + i) *
        plotDens (ts.getD i 0) (row (plotCol base ng j (k + i) 1)) (Real.exp (row (plotCol base ng j (k + i) 2))) t, ix'⟩ := by
  induction ts generalizing k S ix with
  | nil => exact ⟨ix, by simp [plotLoop]⟩
  | cons tt ts ih =>
    obtain ⟨ix1, h1, -⟩ := plotStep_own tau row pmap neg base ng j k tt S ix
      (h.imp (fun h => by simp [h]) fun h => h tt (by simp))
    obtain ⟨ix2, h2⟩ := ih (k + 1) _ ix1 (h.imp_right fun h t ht => h t (by simp [ht]))
    refine ⟨ix2, ?_⟩
    rw [plotLoop, h1]
    show plotLoop _ _ _ _ _ _ _ _ _ _ = _
    rw [h2]
    congr 2
    refine List.map_congr_left fun t _ => ?_
    rw [List.length_cons, Finset.sum_range_succ']
    simp only [List.getD_cons_succ, List.getD_cons_zero, Nat.add_zero]
    rw [add_assoc, add_comm (plotAmp row pmap neg base ng j k * _)]
    congr 2
    refine Finset.sum_congr rfl fun i _ => ?_
    rw [show k + 1 + i = k + (i + 1) by omega]

/-- The loop over the later components in photometric mode. -/
theorem plotLoop_stale (tau : List ℝ) (row : ℕ → ℝ) (neg : Bool) (base ng j tt : ℕ) (ht : 2 ≤ tt) (n k : ℕ) (hk : 1 ≤ k)
    (S : ℝ → ℝ) (cen : ℝ) :
    plotLoop tau row true neg base ng j k (List.replicate n tt) ⟨tau.map S, some (plotWhere tau cen)⟩ =
      some ⟨tau.map fun t => S t + ∑ i ∈ Finset.range n, plotAmp row true neg base ng j (k + i) *
        (if cen ≤ t then uncut tt (row (plotCol base ng j (k + i) 1)) (Real.exp (row (plotCol base ng j (k + i) 2))) t else 0),
        some (plotWhere tau cen)⟩ := by
  induction n generalizing k S with
  | zero => simp [plotLoop]
  | succ n ih =>
    rw [List.replicate_succ, plotLoop, plotStep_stale tau row neg base ng j k tt S cen (by omega) ht]
    show plotLoop _ _ _ _ _ _ _ _ _ _ = _
    rw [ih (k + 1) (by omega)]
    congr 2
    refine List.map_congr_left fun t _ => ?_
    rw [Finset.sum_range_succ']
    simp only [Nat.add_zero]
    rw [add_assoc, add_comm (plotAmp row true neg base ng j k * _)]
    congr 2
    refine Finset.sum_congr rfl fun i _ => ?_
    rw [show k + 1 + i = k + (i + 1) by omega]

theorem replicate_zero_map (tau : List ℝ) : List.replicate tau.length (0 : ℝ) = tau.map fun _ => 0 := by
  rw [List.map_const']

theorem foldl_add_sum (f : ℕ → ℝ) (n : ℕ) : (List.range n).foldl (fun s k => s + f k) 0 = ∑ k ∈ Finset.range n, f k := by
  induction n with
  | zero => simp
  | succ n ih => rw [List.range_succ, List.foldl_append, ih, Finset.sum_range_succ]; rfl

end Mica
