import Verif.Model.LineParams
import Verif.Model.Priors
import Verif.Model.Misc
import Verif.Model.Line
import Verif.Model.Kernel

/-!
# Photometric mode (src/mc_pmap.c, src/dnest_pmap.c)

The preparation of the prior ranges and the likelihood.  The draws and moves are those of
`Verif.Model.LineParams` with `ratioPrior` set.
-/

namespace Mica

/-- The changes to the array `width_prior`, src/mc_pmap.c:211-217: the lower limit of the first component is
lowered to `log(0.01)`, that of the others is raised to `log(1.0)`. -/
noncomputable def pmapWidths (ngUpp : ℕ) (w : List ℝ) : List ℝ :=
  (List.range (ngUpp - 1)).foldl
    (fun w i => w.set ((i + 1) * 2) (max (w.getD ((i + 1) * 2) 0) (Real.log 1)))
    (w.set 0 (min (w.getD 0 0) (Real.log 0.01)))

/-- What the parameters of a run in photometric mode depend on: `b` the options and data summaries (those
read_parset overrides are replaced: `type_lag_prior` is 4, `flag_uniform_tranfuns` and `flag_negative_resp`
are 0, src/read.c:388-401, 475-487), the strings of the priors as read by src/init.c:82-134 (widths),
src/mc_line.c:2375-2403 as called by `mc_pmap_init` (lags) and src/mc_pmap.c:146-209 (ratios), for
`ngUpp = num_gaussian_upper` components. -/
noncomputable def pmapCfg (lf : List Char → Option (ℝ × List Char)) (b : LineCfg) (ngUpp : ℕ)
    (lagStr widthStr ratioStr : List Char) : Res LineCfg := do
  let w ← widthPriorOf lf ngUpp b.widthRange widthStr
  let l ← lagPriorOf lf ngUpp lagStr
  let r ← ratioPriorOf lf ngUpp ratioStr
  return { b with
    typeLag := 4, uniTf := 0, negResp := false,
    lagPrior := fun i => l.getD i 0,
    widthPrior := some fun i => (pmapWidths ngUpp w).getD i 0,
    ratioPrior := some fun i => r.getD i 0 }

/-- The configuration of a run in photometric mode; `typ` is the one transfer function type (`TypeTF`). -/
structure PmapEnv where
  c : LineCfg
  nq : ℕ
  typ : TF
  mem : ℕ → ℝ

/-- `transform_response_ratio(model, model_trans)`, src/mc_pmap.c:235-254, on parameter vectors. -/
noncomputable def PmapEnv.trans (e : PmapEnv) (pm : ℕ → ℝ) : ℕ → ℝ := fun i =>
  (transformRatio e.c.numVar (e.c.numLine / e.c.blk) e.c.ng
    ((List.range e.c.numParams).map pm)).getD i 0

/-- The line model with the parameters `pm`: indices `idx_con_pm`, `idx_line_pm`, one transfer function type,
logarithmic amplitudes. -/
noncomputable def PmapEnv.line (e : PmapEnv) (pm : ℕ → ℝ) : LineEnv where
  nq := e.nq
  pm := pm
  idxc := e.c.idxCon
  idxl := e.c.idxLine
  K := fun k => (KEnv.mk e.c.ng false (fun _ => e.typ) pm (e.c.idxCon k) (e.c.idxLine k)).kernels
  mem := e.mem

/-- `prob_line_variability4_pmap`, src/mc_pmap.c:280-412: the code of `prob_line_variability4` with the
covariance matrix filled from `model_trans` and everything else from `model`. -/
noncomputable def probPmap (e : PmapEnv) (pm : ℕ → ℝ) (ds : List DSet) : Res ℝ :=
  probLineLoop (fun k d => lineTerm4 e.nq d pm (e.c.idxCon k) ((e.line (e.trans pm)).PC k d)) ds 0 0

end Mica
