import Mathlib.Analysis.SpecialFunctions.Log.Basic
import Mathlib.Analysis.SpecialFunctions.Trigonometric.Basic
import Verif.Model.Wrap
import Verif.Model.Sort

/-!
# Parameters of the continuum-line model (src/dnest_line.c, src/init.c)

The layout of the parameter vector, prior ranges, fixed parameters, the initial draw and the two
perturbation moves.  A parameter vector is a function `ℕ → ℝ`; only indices below `numParams` are
allocated in the code.  Simplifications: `double` is ℝ; random numbers are inputs; the `-l` option
(`load_par_names`, src/dnest_line.c:191-205) is not used.
-/

namespace Mica

/-- The options and data summaries the line model's parameters depend on.
`uniVar`: `flag_uniform_var_params == 1`; `uniTf`: `flag_uniform_tranfuns`;
`nl`: `dataset[i].nlset` for each data set; `ng`: `num_gaussian`;
`typeLag`: `type_lag_prior`; `typeTf`: `type_tf`; `lagLow`, `lagUpp`: `lag_limit_low/upper`;
`tspan`, `tcad`: `tspan_max`, `tcadence_min`; `widthLow/Upp`: the width limits if they were set;
`negResp`: `flag_negative_resp != 0`; `lagPrior`: the array `lag_prior`;
`widthPrior`: the array `width_prior` if `str_width_prior` is not empty;
`varPar`, `varStd`: `var_param`, `var_param_std`;
`conSys`, `lineSys`: `flag_con_sys_err != 0`, `flag_line_sys_err != 0`;
`posivity`: `flag_lag_posivity != 0`; `gap`: `flag_gap == 1`;
`ratioPrior`: the array `resp_ratio_prior` in photometric mode (`TypeModel` 1), where
`dnest_pmap` (src/dnest_pmap.c:24-138) does what `dnest_line` does with `type_lag_prior` 4.
In mixed mode (`TypeModel` 3) `dnest_mmap` (src/dnest_mmap.c:24-196) does what `dnest_line` does,
except that no widths are fixed, as with `typeTf` other than 1. -/
structure LineCfg where
  uniVar : Bool
  uniTf : ℕ
  nl : List ℕ
  ng : ℕ
  typeLag : ℕ
  typeTf : ℕ
  lagLow : ℝ
  lagUpp : ℝ
  tspan : ℝ
  tcad : ℝ
  widthLow : Option ℝ
  widthUpp : Option ℝ
  negResp : Bool
  lagPrior : ℕ → ℝ
  widthPrior : Option (ℕ → ℝ)
  varPar : ℕ → ℝ
  varStd : ℕ → ℝ
  conSys : Bool
  lineSys : Bool
  posivity : Bool
  gap : Bool
  gapCenter : ℕ → ℝ
  gapWidth : ℕ → ℝ
  ratioPrior : Option (ℕ → ℝ) := none

namespace LineCfg
variable (c : LineCfg)

/-! ## Layout -/

/-- `num_params_var`, src/init.c:32-39. -/
def numVar : ℕ := if c.uniVar then 3 else 3 * c.nl.length

/-- `idx_con_pm[i]`, src/init.c:314-325. -/
def idxCon (i : ℕ) : ℕ := if c.uniVar then 0 else 3 * i

/-- Number of parameters of one line, `1+3*num_gaussian`. -/
def blk : ℕ := 1 + 3 * c.ng

/-- `nlset_max`, src/read.c (running maximum over the data sets). -/
def nlMax : ℕ := c.nl.foldl max 0

/-- `num_params_line`, src/dnest_line.c:48-60. -/
def numLine : ℕ :=
  if c.uniTf = 1 then c.blk * c.nlMax
  else c.nl.foldl (fun n l => n + c.blk * l) 0

/-- `num_params`, src/dnest_line.c:62. -/
def numParams : ℕ := c.numVar + c.numLine

/-- One row of `idx_line_pm` in the not fully uniform case, src/dnest_line.c:247-253; the counter
`np` has the value `np + j` at line `j` of the row. -/
def idxRow (np n : ℕ) : List ℕ := (List.range n).map fun j => c.blk * (np + j) + c.numVar

/-- The loop over data sets, src/dnest_line.c:245-255. -/
def idxLoop (np : ℕ) : List ℕ → List (List ℕ)
  | [] => []
  | n :: ns => c.idxRow np n :: idxLoop (np + n) ns

/-- `set_idx_line_pm`, src/dnest_line.c:230-258: the initialised cells of `idx_line_pm`. -/
def idxRows : List (List ℕ) :=
  if c.uniTf = 1 then c.nl.map fun n => (List.range n).map fun j => c.blk * j + c.numVar
  else c.idxLoop 0 c.nl

/-- `idx_line_pm[i][j]` (for `j < dataset[i].nlset`; other cells are never initialised). -/
def idxLine (i j : ℕ) : ℕ := ((c.idxRows).getD i []).getD j 0

/-- `get_idx_set`, src/dnest_line.c:261-272.  The loop runs down from `nset-1`; the cell
`idx_line_pm[i][0]` of a data set without lines is uninitialised memory, whose use is undefined. -/
def getIdxSetLoop (which : ℕ) : ℕ → Res ℕ
  | 0 => .ok 0
  | i + 1 =>
    match ((c.idxRows).getD i [])[0]? with
    | none => .ub
    | some a => if a ≤ which then .ok i else getIdxSetLoop which i

/-- `get_idx_set`, src/dnest_line.c:261-272. -/
def getIdxSet (which : ℕ) : Res ℕ := c.getIdxSetLoop which c.nl.length

/-- `((which - num_params_var)%(1+3*num_gaussian)-1)%3`, the parameter's role within its component:
`get_idx_param`, src/proto.h:297, and src/dnest_line.c:714, 762.  C's `%` truncates. -/
def roleOf (which : ℕ) : Int :=
  ((((which : Int) - c.numVar).tmod c.blk) - 1).tmod 3

/-- `*igau` of `check_gauss_center`, src/dnest_line.c:716. -/
def compOf (which : ℕ) : Int :=
  ((((which : Int) - c.numVar).tmod c.blk) - 1).tdiv 3

/-! ## Prior ranges -/

/-- `type_lag_prior_pr == 0`, src/mc_line.c:76-80: the ordered lag prior. -/
def ordered : Bool := c.typeLag = 0 ∧ 1 < c.ng

/-- `var_range_model`, src/init.c:42-49. -/
noncomputable def varRange (q : ℕ) : ℝ × ℝ :=
  match q with
  | 0 => (Real.log 1, Real.log (1 + 10))
  | 1 => (Real.log (1 / 10 ^ 4), Real.log 10)
  | _ => (Real.log 1, Real.log (c.tspan * 2 * Real.pi))

/-- `line_range_model[1]`, src/init.c:56-65. -/
noncomputable def ampRange : ℝ × ℝ :=
  if c.negResp then (-10, 10) else (Real.log (1 / 10 ^ 5), Real.log 10)

/-- Range of the amplitude of component `k`, src/dnest_line.c:340-342; in photometric mode the range
of its ratio to the first amplitude for `k > 0`, src/dnest_pmap.c:183-193. -/
noncomputable def ampWindow (k : ℕ) : ℝ × ℝ :=
  match c.ratioPrior with
  | none => c.ampRange
  | some r => if k = 0 then c.ampRange else (r ((k - 1) * 2), r ((k - 1) * 2 + 1))

/-- `line_range_model[2]`, src/init.c:67-68. -/
noncomputable def lagRange : ℝ × ℝ := (max c.lagLow (-c.tspan / 2), min c.lagUpp (c.tspan / 2))

/-- `line_range_model[3]`, src/init.c:70-80. -/
noncomputable def widthRange : ℝ × ℝ :=
  (match c.widthLow with
    | some w => Real.log w
    | none => Real.log (c.tcad / 10),
   match c.widthUpp with
    | some w => min (Real.log w) (Real.log (c.tspan / 3))
    | none => Real.log (c.tspan / 3))

/-- Range of continuum parameter `q` of the triple starting at `j`, src/dnest_line.c:303-330. -/
noncomputable def varParRange (j q : ℕ) : ℝ × ℝ :=
  (max (c.varPar (j + q) - 5 * c.varStd (j + q)) (c.varRange q).1,
   min (c.varPar (j + q) + 5 * c.varStd (j + q)) (c.varRange q).2)

/-- Range of the lag of component `k`, src/dnest_line.c:344-359, src/dnest_pmap.c:196-197. -/
noncomputable def lagWindow (k : ℕ) : ℝ × ℝ :=
  if c.typeLag = 4 then (c.lagPrior (k * 2), c.lagPrior (k * 2 + 1))
  else if c.ordered then c.lagRange
  else (c.lagRange.1 + k * (c.lagRange.2 - c.lagRange.1) / c.ng,
        c.lagRange.1 + (k + 1) * (c.lagRange.2 - c.lagRange.1) / c.ng)

/-- Range of the width of component `k`, src/dnest_line.c:362-379, src/dnest_pmap.c:200-201. -/
noncomputable def widthWindow (k : ℕ) : ℝ × ℝ :=
  match c.widthPrior with
  | none =>
    if c.typeLag = 3 ∧ 1 < c.ng then
      (Real.log ((c.lagRange.2 - c.lagRange.1) / ((c.ng : ℝ) - 1) / 2),
       Real.log ((c.lagRange.2 - c.lagRange.1) / ((c.ng : ℝ) - 1)))
    else c.widthRange
  | some w => (w (k * 2), w (k * 2 + 1))

/-- Ranges of one line's parameters, src/dnest_line.c:333-381. -/
noncomputable def lineBlockRanges : List (ℝ × ℝ) :=
  (Real.log 1, Real.log (1 + 10)) ::
    (List.range c.ng).flatMap fun k => [c.ampWindow k, c.lagWindow k, c.widthWindow k]

/-- `set_par_range_line`, src/dnest_line.c:297-384 (`set_par_range_pmap`, src/dnest_pmap.c:140-206): the ranges in the order they are written
(`i` counts up by one with every range).  The `+= 3` and `+= 1+3*num_gaussian` loops run
`num_params_var/3` and `num_params_line/(1+3*num_gaussian)` times. -/
noncomputable def parRanges : List (ℝ × ℝ) :=
  ((List.range (c.numVar / 3)).flatMap fun t =>
      [c.varParRange (3 * t) 0, c.varParRange (3 * t) 1, c.varParRange (3 * t) 2]) ++
  (List.range (c.numLine / c.blk)).flatMap fun _ => c.lineBlockRanges

/-- `par_range_model[i]`. -/
noncomputable def rng (i : ℕ) : ℝ × ℝ := (c.parRanges).getD i (0, 0)

/-! ## Fixed parameters -/

/-- Writes of the innermost component loop, src/dnest_line.c:113-118, 148-153: the counter `ic` is
`ic + 3*i` at component `i`; `off` is 1 for lags and 2 for widths. -/
noncomputable def fixComps (off : ℕ) (val : ℕ → ℝ) (ic : ℕ) : List (ℕ × ℝ) :=
  (List.range c.ng).map fun i => (ic + 3 * i + off, val i)

/-- Loop over the lines of a data set, src/dnest_line.c:110-119, 145-154. -/
noncomputable def fixLines (off : ℕ) (val : ℕ → ℝ) (ic : ℕ) : ℕ → List (ℕ × ℝ)
  | 0 => []
  | n + 1 => c.fixComps off val (ic + 1) ++ fixLines off val (ic + 1 + 3 * c.ng) n

/-- Loop over the data sets, src/dnest_line.c:107-120, 142-155. -/
noncomputable def fixSets (off : ℕ) (val : ℕ → ℝ) (ic : ℕ) : List ℕ → List (ℕ × ℝ)
  | [] => []
  | n :: ns => c.fixLines off val ic n ++ fixSets off val (ic + n * (1 + 3 * c.ng)) ns

/-- Both cases of src/dnest_line.c:105-132 (`off = 1`) and 140-167 (`off = 2`). -/
noncomputable def fixAll (off : ℕ) (val : ℕ → ℝ) : List (ℕ × ℝ) :=
  if c.uniTf = 1 then
    (List.range c.nlMax).flatMap fun j =>
      (List.range c.ng).map fun i => (c.numVar + j * (1 + 3 * c.ng) + 1 + i * 3 + off, val i)
  else c.fixSets off val c.numVar c.nl

/-- `dlag`, src/dnest_line.c:104, 139 (from the configured, not the clipped, lag limits). -/
noncomputable def dlag : ℝ := (c.lagUpp - c.lagLow) / ((c.ng : ℝ) - 1)

/-- The addresses of lags and widths of the data sets after the first, with the address of the same
quantity in the first data set: the loops of src/dnest_line.c:171-189 and 280-294. -/
def shared : List (ℕ × ℕ) :=
  (List.range (c.nl.length - 1)).flatMap fun i =>
    (List.range (c.nl.getD (i + 1) 0)).flatMap fun j =>
      (List.range c.ng).flatMap fun k =>
        [(c.idxLine (i + 1) j + 1 + k * 3 + 1, c.idxLine 0 j + 1 + k * 3 + 1),
         (c.idxLine (i + 1) j + 1 + k * 3 + 2, c.idxLine 0 j + 1 + k * 3 + 2)]

/-- All assignments `par_fix[a] = 1; par_fix_val[a] = v` in program order,
src/dnest_line.c:81-189. -/
noncomputable def fixWrites : List (ℕ × ℝ) :=
  (if c.conSys then [] else (List.range (c.numVar / 3)).map fun t => (3 * t, Real.log 1)) ++
  (if c.lineSys then [] else
    (List.range (c.numLine / c.blk)).map fun b => (c.blk * b + c.numVar, Real.log 1)) ++
  (if 2 ≤ c.typeLag ∧ c.typeLag ≤ 3 then c.fixAll 1 (fun i => c.lagLow + i * c.dlag) else []) ++
  (if c.typeTf = 1 ∧ c.typeLag = 3 then c.fixAll 2 (fun _ => Real.log (c.dlag / 2)) else []) ++
  (if c.uniTf = 2 then c.shared.map fun p => (p.1, 99.9) else [])

end LineCfg

/-- Assignments in program order to the arrays `par_fix`/`par_fix_val`. -/
noncomputable def applyFix (ws : List (ℕ × ℝ)) : ℕ → Option ℝ :=
  ws.foldl (fun f w => Function.update f w.1 (some w.2)) fun _ => none

namespace LineCfg
variable (c : LineCfg)

/-- `par_fix[i]`/`par_fix_val[i]` after src/dnest_line.c:74-189: `some v` iff `par_fix[i] == 1`. -/
noncomputable def fix : ℕ → Option ℝ := applyFix c.fixWrites

/-! ## Copying of shared lags and widths -/

/-- `set_center_width`, src/dnest_line.c:275-295.  `idx_line_pm[0][j]` is uninitialised for `j` not
below the number of lines of the first data set. -/
noncomputable def setCenterWidth (pm : ℕ → ℝ) : Res (ℕ → ℝ) :=
  if c.nl.tail.all (fun n => n ≤ c.nl.headD 0) then
    .ok (c.shared.foldl (fun pm p => Function.update pm p.1 (pm p.2)) pm)
  else .ub

/-- `if(parset.flag_uniform_tranfuns == 2) set_center_width(model);`,
src/dnest_line.c:526-529, 639-642, 699-702. -/
noncomputable def share (pm : ℕ → ℝ) : Res (ℕ → ℝ) :=
  if c.uniTf = 2 then c.setCenterWidth pm else .ok pm

/-! ## Initial draw -/

/-- `width_factor`, src/init.c:169, 203, 237, 271. -/
noncomputable def widthFactor : ℝ :=
  match c.typeTf with
  | 0 => 3
  | 1 => 1
  | _ => 0

/-- `lag_factor`, src/init.c:170, 204, 238, 272. -/
noncomputable def lagFactor : ℝ :=
  match c.typeTf with
  | 2 => 1
  | _ => 0

end LineCfg

/-- `mica_cmp`, src/dnest_line.c:830-833. -/
noncomputable def micaCmp (a b : ℝ) : Int := if a ≥ b then 1 else -1

/-- Random numbers of one initial draw: `z i`, `u i` the normal and uniform number used for
parameter `i`; `v b t` the two uniform numbers of try `t` of line `b` in the positivity loop. -/
structure LineDraw where
  z : ℕ → ℝ
  u : ℕ → ℝ
  v : ℕ → ℕ → ℝ × ℝ

namespace LineCfg
variable (c : LineCfg)

/-- First two loops of `from_prior_line`, src/dnest_line.c:465-474, one parameter.  A range that is
empty makes `dnest_wrap` stop the program. -/
noncomputable def drawVar (d : LineDraw) : ℕ → (ℕ → ℝ) → Res (ℕ → ℝ)
  | 0, pm => .ok pm
  | n + 1, pm => do
    let pm ← drawVar d n pm
    let x ← dnestWrap (d.z n * ((c.rng n).2 - (c.rng n).1)) (c.rng n).1 (c.rng n).2
    return Function.update pm n x

/-- Second loop of `from_prior_line`, src/dnest_line.c:471-474. -/
noncomputable def drawLine (d : LineDraw) (pm : ℕ → ℝ) : ℕ → ℝ := fun i =>
  if c.numVar ≤ i ∧ i < c.numParams then
    (c.rng i).1 + d.u i * ((c.rng i).2 - (c.rng i).1)
  else pm i

/-- Sorting of the lags of the line whose parameters start at `num_params_var + i`,
src/dnest_line.c:484-494. -/
noncomputable def sortBlock (pm : ℕ → ℝ) (i : ℕ) : ℕ → ℝ :=
  let ic := c.numVar + i + 1
  let centers := msortC micaCmp ((List.range c.ng).map fun j => pm (ic + j * 3 + 1))
  (List.range c.ng).foldl (fun pm j => Function.update pm (ic + j * 3 + 1) (centers.getD j 0)) pm

/-- The sorting loop over lines, src/dnest_line.c:477-497. -/
noncomputable def sortAll (pm : ℕ → ℝ) : ℕ → ℝ :=
  if c.ordered then
    (List.range (c.numLine / c.blk)).foldl (fun pm b => c.sortBlock pm (c.blk * b)) pm
  else pm

/-- The `while` loop of src/dnest_line.c:506-517 on `(pm[ic-1], pm[ic])`; `n` is `101 - j`. -/
noncomputable def posLoop (ic : ℕ) (v : ℕ → ℝ × ℝ) : ℕ → ℝ × ℝ → ℝ × ℝ
  | 0, p => p
  | n + 1, p =>
    if p.1 - c.widthFactor * p.2 < 0 then
      let a := (c.rng (ic - 1)).1 + (v (100 - n)).1 * ((c.rng (ic - 1)).2 - (c.rng (ic - 1)).1)
      let b := (c.rng ic).1 + (v (100 - n)).2 * ((c.rng ic).2 - (c.rng ic).1)
      if n = 0 then (a, a / c.widthFactor) else posLoop ic v n (a, b)
    else p

/-- One line of the positivity loop, src/dnest_line.c:502-518 (`ic = num_params_var + i + 2`). -/
noncomputable def posBlock (d : LineDraw) (pm : ℕ → ℝ) (b : ℕ) : ℕ → ℝ :=
  let ic := c.numVar + c.blk * b + 2
  let p := c.posLoop ic (d.v b) 101 (pm (ic - 1), pm ic)
  Function.update (Function.update pm (ic - 1) p.1) ic p.2

/-- The positivity loop, src/dnest_line.c:500-519. -/
noncomputable def posAll (d : LineDraw) (pm : ℕ → ℝ) : ℕ → ℝ :=
  if c.posivity then
    (List.range (c.numLine / c.blk)).foldl (fun pm b => c.posBlock d pm b) pm
  else pm

/-- The loop writing fixed values, src/dnest_line.c:521-525. -/
noncomputable def putFixed (pm : ℕ → ℝ) : ℕ → ℝ := fun i =>
  match c.fix i with
  | some v => v
  | none => pm i

/-- `from_prior_line`, src/dnest_line.c:459-532 (`from_prior_mmap`, src/dnest_mmap.c:199-271, is the same;
`from_prior_pmap`, src/dnest_pmap.c:282-325, without the sorting and copying, which do not take place with
`type_lag_prior` 4 and `flag_uniform_tranfuns` 0), on freshly allocated memory `mem`. -/
noncomputable def fromPrior (d : LineDraw) (mem : ℕ → ℝ) : Res (ℕ → ℝ) := do
  let pm ← c.drawVar d c.numVar mem
  c.share (c.putFixed (c.posAll d (c.sortAll (c.drawLine d pm))))

/-! ## Moves -/

/-- The `do..while(par_fix[which] == 1)` loop, src/dnest_line.c:577-581, 655-659. -/
noncomputable def pick : List (Fin c.numParams) → Res (Fin c.numParams)
  | [] => .hang
  | w :: ws => if (c.fix w).isSome then pick ws else .ok w

/-- Step width: `perturb_line_prior0`, src/dnest_line.c:584-597 (`a = 0`, `b = 10`) and
`perturb_line_prior1`, src/dnest_line.c:662-675 (`a = 5`, `b = 15`). -/
noncomputable def stepWidth (a b : Int) (s : ConStep c.numParams) (which : Fin c.numParams) : ℝ :=
  let wl := if s.levelUpdate - a > s.sizeLevels - b then s.sizeLevels - b else s.levelUpdate - a
  if wl > 0 then (s.limits (wl - 1) which).2 - (s.limits (wl - 1) which).1
  else (c.rng which).2 - (c.rng which).1

/-- `check_positivity`, src/dnest_line.c:732-749. -/
noncomputable def checkPositivity (pm : ℕ → ℝ) (which : ℕ) : ℝ :=
  if c.roleOf which = 1 ∧ pm which - c.widthFactor * Real.exp (pm (which + 1)) < 0 then -100
  else if c.roleOf which = 2 ∧ pm (which - 1) - c.widthFactor * Real.exp (pm which) < 0 then -100
  else 0

/-- One of the two branches of `check_gap`, src/dnest_line.c:769-776, 780-787, for data set `i`. -/
noncomputable def gapPenalty (i : ℕ) (centre width : ℝ) : ℝ :=
  let lag := centre + c.lagFactor * Real.exp width
  let gap := lag - ⌊lag / 365.25⌋ * 365.25
  let dgap := |gap - c.gapCenter i|
  if dgap < c.gapWidth i ∧ width < Real.log (c.gapWidth i) then
    -100 * (1 - (dgap / c.gapWidth i) ^ 2)
  else 0

/-- `check_gap`, src/dnest_line.c:754-792. -/
noncomputable def checkGap (pm : ℕ → ℝ) (which : ℕ) : Res ℝ := do
  let i ← c.getIdxSet which
  return if c.roleOf which = 1 then c.gapPenalty i (pm which) (pm (which + 1))
    else if c.roleOf which = 2 then c.gapPenalty i (pm (which - 1)) (pm which)
    else 0

/-- `-0.5*pow((pm[which]-var_param[which])/var_param_std[which], 2.0)`. -/
noncomputable def varTerm (which : ℕ) (x : ℝ) : ℝ :=
  -(1 / 2) * ((x - c.varPar which) / c.varStd which) ^ 2

/-- The range a moved lag is folded into under the ordered prior, src/dnest_line.c:609-621. -/
noncomputable def orderedBounds (pm : ℕ → ℝ) (which : ℕ) : ℝ × ℝ :=
  if c.roleOf which = 1 then
    if c.compOf which = 0 then ((c.rng which).1, pm (which + 3))
    else if c.compOf which < (c.ng : Int) - 1 then (pm (which - 3), pm (which + 3))
    else (pm (which - 3), (c.rng which).2)
  else c.rng which

/-- The range a moved parameter is folded into: src/dnest_line.c:602, 609-625 and 680, 686. -/
noncomputable def bounds (pm : ℕ → ℝ) (which : ℕ) : ℝ × ℝ :=
  if c.ordered ∧ c.numVar ≤ which then c.orderedBounds pm which else c.rng which

/-- The value returned as `logH` for the moved vector `q`: src/dnest_line.c:601-603, 629-636 and
679-681, 688-695. -/
noncomputable def moveLogH (pm q : ℕ → ℝ) (which : ℕ) : Res ℝ :=
  if which < c.numVar then .ok (0 - c.varTerm which (pm which) + c.varTerm which (q which))
  else do
    let g ← if c.gap then c.checkGap q which else .ok 0
    return (if c.posivity then c.checkPositivity q which else 0) + g

/-- `perturb_line_prior0` if the ordered prior is in force, else `perturb_line_prior1`
(src/dnest_line.c:33-36, 570-645, 648-705; the same functions for the other modes: `perturb_mmap_prior0`,
src/dnest_mmap.c:307-382, `perturb_mmap_prior1`, src/dnest_mmap.c:385-442, `perturb_pmap`,
src/dnest_pmap.c:363-415): the new vector and `logH`. -/
noncomputable def perturb (s : ConStep c.numParams) (pm : ℕ → ℝ) : Res ((ℕ → ℝ) × ℝ) := do
  let which ← c.pick s.cands
  let w := if c.ordered then c.stepWidth 0 10 s which else c.stepWidth 5 15 s which
  let x ← dnestWrap (pm which + s.h * w) (c.bounds pm which).1 (c.bounds pm which).2
  let q := Function.update pm which x
  let logH ← c.moveLogH pm q which
  let q' ← c.share q
  return (q', logH)

/-- Any number of moves, each kept or dropped by the sampler (`update_particle`,
cdnest/dnest.c:729-779). -/
noncomputable def run : List (ConStep c.numParams × Bool) → (ℕ → ℝ) → Res (ℕ → ℝ)
  | [], pm => .ok pm
  | (s, keep) :: ss, pm => do
    let q ← c.perturb s pm
    run ss (if keep then q.1 else pm)

/-- An initial draw followed by any number of moves. -/
noncomputable def chain (d : LineDraw) (mem : ℕ → ℝ) (ss : List (ConStep c.numParams × Bool)) :
    Res (ℕ → ℝ) := do
  let pm ← c.fromPrior d mem
  c.run ss pm

end LineCfg
end Mica
