import Verif.Model.Kernel

/-!
# Transfer functions and lags made by plotfig.py

The script reads `posterior_sample1d.txt_n` as an array (`sample`), prints a table of lags and writes
`tranfunc_{m}_{j}.txt_n`.  A row of `sample` is taken as a function of the column; NumPy's arithmetic is that of `ℝ`;
figures are left out.  `j` is the number of the line as the script counts, from 1 on.
-/

namespace Mica

/-- `num_params_var`, plotfig.py:424-427 (`nd` data sets). -/
def plotNumVar (flagvar nd : ℕ) : ℕ := if flagvar = 1 then 3 else 3 * nd

/-- `indx_line[i]`, plotfig.py:458-464; `nl i` is `len(nl[i])-1`, the number of lines of data set `i`. -/
def plotIndx (nv flagtran ng : ℕ) (nl : ℕ → ℕ) : ℕ → ℕ
  | 0 => nv
  | i + 1 => if flagtran = 1 then nv else plotIndx nv flagtran ng nl i + nl i * (1 + ng * 3)

/-- `indx_line[m] + (j-1)*(ngau*3+1) + 1+k*3+p` with `base` for `indx_line[m]`; throughout plotfig.py. -/
def plotCol (base ng j k p : ℕ) : ℕ := base + (j - 1) * (ng * 3 + 1) + 1 + k * 3 + p

/-- `int(typetf[k])` read as a type: `== 0`, `== 1`, `== 2` and else, plotfig.py:145-146, 172, 199, 229. -/
def plotType (tt : ℕ) : TF := if tt = 0 then .gauss else if tt = 1 then .tophat else if tt = 2 then .gamma else .exp

/-- The variables of `_calculate_tran` that live through its loop: `tran`, and `idx_tau` once it has a value. -/
structure PlotTran where
  tran : List ℝ
  idxTau : Option (List ℕ)

open Classical in
/-- `np.where(tau >= cen)[0]`. -/
noncomputable def plotWhere (tau : List ℝ) (cen : ℝ) : List ℕ :=
  (List.range tau.length).filter fun i => cen ≤ tau.getD i 0

/-- `tran[idx] += f(tau[idx])` for an array of distinct indices. -/
noncomputable def plotAddAt (tau tran : List ℝ) (idx : List ℕ) (f : ℝ → ℝ) : List ℝ :=
  (List.range tran.length).map fun i => if i ∈ idx then tran.getD i 0 + f (tau.getD i 0) else tran.getD i 0

/-- `tran[:] += f(tau)`. -/
noncomputable def plotAddAll (tau tran : List ℝ) (f : ℝ → ℝ) : List ℝ :=
  (List.range tran.length).map fun i => tran.getD i 0 + f (tau.getD i 0)

open Classical in
/-- `np.heaviside(x, 1.0)`. -/
noncomputable def npHeaviside (x : ℝ) : ℝ := if x < 0 then 0 else 1

/-- `amp` of component `k`: general, variable and mixture model with the sign switch (e.g. plotfig.py:148-152), or
photometric mode, where later components are relative to the first (157-166). -/
noncomputable def plotAmp (row : ℕ → ℝ) (pmap neg : Bool) (base ng j k : ℕ) : ℝ :=
  if pmap then
    if k = 0 then Real.exp (row (plotCol base ng j k 0))
    else Real.exp (row (plotCol base ng j k 0) + row (plotCol base ng j 0 0))
  else if neg then row (plotCol base ng j k 0) else Real.exp (row (plotCol base ng j k 0))

/-- Body of the loop of `_calculate_tran`, plotfig.py:144-256, for `typemodel` 1 (`pmap`) or one of 0, 2, 3.  In
photometric mode the branches for `k > 0` of gamma and exponential functions do not compute `idx_tau` (221-227, 250-256);
using a local variable without a value raises an exception (`none`). -/
noncomputable def plotStep (tau : List ℝ) (row : ℕ → ℝ) (pmap neg : Bool) (base ng j k tt : ℕ) (s : PlotTran) :
    Option PlotTran :=
  let amp := plotAmp row pmap neg base ng j k
  let sig := Real.exp (row (plotCol base ng j k 2))
  let c := row (plotCol base ng j k 1)
  if tt = 0 then
    some { s with tran := plotAddAll tau s.tran fun t =>
      amp / sig * Real.exp (-0.5 * (t - c) ^ 2 / sig ^ 2) / Real.sqrt (2 * Real.pi) }
  else if tt = 1 then
    some { s with tran := plotAddAll tau s.tran fun t => amp / sig / 2 * npHeaviside (sig - |t - c|) }
  else
    let cen := if tt = 2 then c - 2 * sig else c - sig
    let f := fun t => if tt = 2 then amp / sig ^ 2 * (t - cen) * Real.exp (-(t - cen) / sig)
      else amp / sig * Real.exp (-(t - cen) / sig)
    let idx := if pmap ∧ k ≠ 0 then s.idxTau else some (plotWhere tau cen)
    match idx with
    | none => none
    | some ix => some { tran := plotAddAt tau s.tran ix f, idxTau := idx }

/-- The loop, from component `k` on. -/
noncomputable def plotLoop (tau : List ℝ) (row : ℕ → ℝ) (pmap neg : Bool) (base ng j : ℕ) :
    ℕ → List ℕ → PlotTran → Option PlotTran
  | _, [], s => some s
  | k, tt :: ts, s =>
    match plotStep tau row pmap neg base ng j k tt s with
    | none => none
    | some s' => plotLoop tau row pmap neg base ng j (k + 1) ts s'

/-- `_calculate_tran`, plotfig.py:135-258: the transfer function of a sample on the grid `tau`. -/
noncomputable def plotTran (tau : List ℝ) (row : ℕ → ℝ) (pmap neg : Bool) (base ng j : ℕ) (typetf : List ℕ) :
    Option (List ℝ) :=
  (plotLoop tau row pmap neg base ng j 0 typetf ⟨List.replicate tau.length 0, none⟩).map (·.tran)

/-! ## Quantiles -/

open Classical in
/-- Sorted copy of an array of numbers. -/
noncomputable def npSorted (xs : List ℝ) : List ℝ := xs.mergeSort fun a b => a ≤ b

/-- `np.quantile(xs, q)` and `np.percentile(xs, 100 q)` with the default method `linear`: at the place `(n-1) q` of
the sorted array, interpolating between neighbours. -/
noncomputable def npQuantile (xs : List ℝ) (q : ℝ) : ℝ :=
  let s := npSorted xs
  let v := ((xs.length : ℝ) - 1) * q
  let i := ⌊v⌋₊
  s.getD i 0 + (s.getD (min (i + 1) (xs.length - 1)) 0 - s.getD i 0) * (v - i)

/-- A row of `tranfunc_{m}_{j}.txt_n` without the lag: median, median minus lower, upper minus median of the values
`vals` of all samples at this lag (plotfig.py:883-887). -/
noncomputable def plotRow (vals : List ℝ) : ℝ × ℝ × ℝ :=
  let best := npQuantile vals (50 / 100)
  (best, best - npQuantile vals ((100 - 68.3) / 2 / 100), npQuantile vals ((100 - (100 - 68.3) / 2) / 100) - best)

/-- `sample_lag/weight_lag` of a sample, plotfig.py:498-523 (without negative responses). -/
noncomputable def plotLag (row : ℕ → ℝ) (pmap : Bool) (base ng j : ℕ) : ℝ :=
  ((List.range ng).foldl (fun s k => s + row (plotCol base ng j k 1) * plotAmp row pmap false base ng j k) 0) /
    ((List.range ng).foldl (fun s k => s + plotAmp row pmap false base ng j k) 0)

/-- A line of the table: `lag`, `err1`, `err2` (plotfig.py:525-528). -/
noncomputable def plotLagLine (rows : List (ℕ → ℝ)) (pmap : Bool) (base ng j : ℕ) : ℝ × ℝ × ℝ :=
  let xs := rows.map fun row => plotLag row pmap base ng j
  let lag := npQuantile xs 0.5
  (lag, lag - npQuantile xs ((1 - 0.683) / 2), npQuantile xs (1 - (1 - 0.683) / 2) - lag)

/-! ## Which results are plotted -/

/-- The numbers of components for which `plot_results` is called by `plot_results_all`, plotfig.py:1017-1036, 1066
(`none`: exception).  `low`, `upp` are the values of `NumCompLow`, `NumCompUpp` if the parameter file has them, `mix`
the length of `StrTypeTFMix`, `mmap` whether `TypeModel` is 3. -/
def plotRuns (mmap : Bool) (low upp mix : Option ℕ) : Option (List ℕ) :=
  match mmap with
  | false =>
    match low, upp with
    | some l, some u => some (List.range' l (u + 1 - l))
    | _, _ => none
  | true =>
    match mix, upp with
    | some n, some u => some (List.range' n (u + 1 - n))
    | _, _ => none

end Mica
