import Verif.Model.PlotFig

/-!
# Which rows of the files the panels of plotfig.py and plotdecomp.py show

`ns` has a list for each data set: the numbers of points of the continuum and of the lines from the header of the file
(plotfig.py:401-410, 436-443, plotdecomp.py:190-212).
-/

namespace Mica

variable {α : Type*}

/-- `a[i:j]` of Python for `i, j ≥ 0`. -/
def sliceOf (l : List α) (i j : ℕ) : List α := (l.take j).drop i

/-- `indx_con_data[i]`, `indx_con_rec[i]`, plotfig.py:447-455. -/
def plotStart (ns : List (List ℕ)) : ℕ → ℕ
  | 0 => 0
  | i + 1 => (ns.getD i []).sum + plotStart ns i

/-- `con0`, `sall_con0` (plotfig.py:560-561). -/
def plotCon (rows : List α) (ns : List (List ℕ)) (m : ℕ) : List α :=
  sliceOf rows (plotStart ns m) (plotStart ns m + (ns.getD m []).getD 0 0)

/-- `hb`, `sall_hb` (plotfig.py:651-652), `j ≥ 1`. -/
def plotLine (rows : List α) (ns : List (List ℕ)) (m j : ℕ) : List α :=
  sliceOf rows (plotStart ns m + ((ns.getD m []).take j).sum) (plotStart ns m + ((ns.getD m []).take (j + 1)).sum)

/-- `idx_q` for data set `m`, plotfig.py:552, 983. -/
def plotTrendStart (ns : List (List ℕ)) (nq : ℕ) : ℕ → ℕ
  | 0 => 0
  | i + 1 => plotTrendStart ns nq i + (ns.getD i []).length * nq

/-- The rows of `trend` used for light curve `j` (0: continuum), plotfig.py:597-598, 692-693. -/
def plotTrend (rows : List α) (ns : List (List ℕ)) (nq m j : ℕ) : List α :=
  sliceOf rows (plotTrendStart ns nq m + j * nq) (plotTrendStart ns nq m + j * nq + nq)

/-! ## Continuum only: `plot_results_con`, plotfig.py:271-387 -/

/-- `indx_con_data[i]` there (305-313); `ncon` is the flattened list of the numbers in the header (281-286). -/
def plotConStart (ncon : List ℕ) : ℕ → ℕ
  | 0 => 0
  | i + 1 => ncon.getD i 0 + plotConStart ncon i

/-- `con0` of panel `m` (plotfig.py:336). -/
def plotOnly (rows : List α) (ns : List (List ℕ)) (m : ℕ) : List α :=
  sliceOf rows (plotConStart ns.flatten m) (plotConStart ns.flatten m + ns.flatten.getD m 0)

/-! ## plotdecomp.py -/

/-- The loop that fills `indx_line` in plotdecomp.py:225-229, `n` turns to go, with the local variable `nl` (`none` while it
has no value; its use then raises an exception, `none`). -/
def decompIndxLoop (ng : ℕ) (nl : Option (ℕ → ℕ)) : ℕ → List ℕ → Option (List ℕ)
  | 0, l => some l
  | n + 1, l =>
    match nl with
    | none => none
    | some f => decompIndxLoop ng nl n (l ++ [l.getLastD 0 + (f (l.length - 1) - 1) * (1 + ng * 3)])

/-- `indx_line`, plotdecomp.py:215-229.  `nl` gets its first value at line 254. -/
def decompIndx (ng nd : ℕ) : Option (List ℕ) := decompIndxLoop ng none (nd - 1) [3 * nd]

/-- `con_data`, `con_rec` (plotdecomp.py:255-256). -/
def decompCon (rows : List α) (ns : List (List ℕ)) (m : ℕ) : List α := sliceOf rows 0 ((ns.getD m []).getD 0 0)

/-- `idx_hb` for line `j ≥ 1` (plotdecomp.py:258-259, 358-359). -/
def decompStart (n : List ℕ) : ℕ → ℕ
  | 0 => 0
  | 1 => n.getD 0 0
  | j + 2 => decompStart n (j + 1) + n.getD (j + 1) 0

/-- `hb_data`, `hb_rec`, `l0` (plotdecomp.py:275-276, 337). -/
def decompLinePanel (rows : List α) (ns : List (List ℕ)) (m j : ℕ) : List α :=
  sliceOf rows (decompStart (ns.getD m []) j) (decompStart (ns.getD m []) j + (ns.getD m []).getD j 0)

/-- The row of `trend.txt` whose value is drawn as mean of line `j` of the first data set if responses may be negative:
`fq[idx_q+1, 0]` (plotdecomp.py:251, 333), the same for all `j`. -/
def decompMean (rows : List α) (_j : ℕ) : Option α := rows[0 + 1]?

/-- Body of the loop of `_calculate_tran` of plotdecomp.py (59-182): the same text as that of plotfig.py except for the
first component of an exponential function in photometric mode (173). -/
noncomputable def decompStep (tau : List ℝ) (row : ℕ → ℝ) (pmap neg : Bool) (base ng j k tt : ℕ) (s : PlotTran) :
    Option PlotTran :=
  if pmap = true ∧ k = 0 ∧ 3 ≤ tt then
    let amp := plotAmp row pmap neg base ng j k
    let sig := Real.exp (row (plotCol base ng j k 2))
    let cen := row (plotCol base ng j k 1) - sig
    some { tran := plotAddAt tau s.tran (plotWhere tau cen) fun t => amp / sig * (t - cen) * Real.exp (-(t - cen) / sig),
           idxTau := some (plotWhere tau cen) }
  else plotStep tau row pmap neg base ng j k tt s

/-- The loop, from component `k` on. -/
noncomputable def decompLoop (tau : List ℝ) (row : ℕ → ℝ) (pmap neg : Bool) (base ng j : ℕ) :
    ℕ → List ℕ → PlotTran → Option PlotTran
  | _, [], s => some s
  | k, tt :: ts, s =>
    match decompStep tau row pmap neg base ng j k tt s with
    | none => none
    | some s' => decompLoop tau row pmap neg base ng j (k + 1) ts s'

/-- `_calculate_tran`, plotdecomp.py:59-182. -/
noncomputable def decompTran (tau : List ℝ) (row : ℕ → ℝ) (pmap neg : Bool) (base ng j : ℕ) (typetf : List ℕ) :
    Option (List ℝ) :=
  (decompLoop tau row pmap neg base ng j 0 typetf ⟨List.replicate tau.length 0, none⟩).map (·.tran)

end Mica
