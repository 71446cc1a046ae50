import Verif.Model.PlotFig
import Verif.Model.LineParams
import Verif.Model.Pmap

/-!
# What the table of lags and the files `tranfunc_*` should contain
-/

namespace Mica

/-- The kernel of data set `m` in the likelihood of the general (`lin` for either sign of responses), variable and
mixture models: components of types `typ`, parameters `row`. -/
def fitted (c : LineCfg) (lin : Bool) (typ : ℕ → TF) (row : ℕ → ℝ) (m : ℕ) : KEnv :=
  ⟨c.ng, lin, typ, row, c.idxCon m, c.idxLine m⟩

/-- The kernel of data set `m` in the likelihood of photometric mode. -/
noncomputable def fittedPmap (e : PmapEnv) (row : ℕ → ℝ) (m : ℕ) : KEnv :=
  ⟨e.c.ng, false, fun _ => e.typ, e.trans row, e.c.idxCon m, e.c.idxLine m⟩

/-- `vals` has at least the share `q` of its entries at or below `x` and at least `1-q` at or above, up to one entry. -/
def IsQuantile (vals : List ℝ) (q x : ℝ) : Prop :=
  ((vals.countP fun v => decide (v < x) : ℕ) : ℝ) < ((vals.length : ℝ) - 1) * q + 1 ∧
  ((vals.countP fun v => decide (x < v) : ℕ) : ℝ) < ((vals.length : ℝ) - 1) * (1 - q) + 1

/-- Where the component begins, for gamma and exponential functions. -/
noncomputable def plotOnset (tt : ℕ) (c w : ℝ) : ℝ := if tt = 2 then c - 2 * w else c - w

/-- The formula of the script for gamma and exponential functions, not cut at the plotOnset. -/
noncomputable def uncut (tt : ℕ) (c w t : ℝ) : ℝ :=
  if tt = 2 then 1 / w ^ 2 * (t - plotOnset tt c w) * Real.exp (-(t - plotOnset tt c w) / w)
  else 1 / w * Real.exp (-(t - plotOnset tt c w) / w)

end Mica
