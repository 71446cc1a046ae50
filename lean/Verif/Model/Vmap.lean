import Mathlib.Analysis.SpecialFunctions.Exp
import Verif.Model.LineParams

/-!
# The virtual-continuum mode: parameters and moves (src/dnest_vmap.c)

In this mode no continuum is given and the continuum-only run is skipped (src/run.c:45), so the
arrays `var_param` and `var_param_std` keep the zeros of src/init.c:306-311.  The proposal ratio of a
continuum parameter divides by `var_param_std`; values of `double` arithmetic that are not real
numbers are therefore represented here.
-/

namespace Mica

/-- Values of IEEE double arithmetic.  Simplifications: no rounding and no overflow of finite
operations; one zero, taken to be `+0.0` (the value assigned in src/init.c:310). -/
inductive Fl where
  | fin (x : ℝ)
  | inf (neg : Bool)
  | nan

namespace Fl

/-- `a + b`. -/
noncomputable def add : Fl → Fl → Fl
  | fin x, fin y => fin (x + y)
  | fin _, inf s => inf s
  | inf s, fin _ => inf s
  | inf s, inf t => if s = t then inf s else nan
  | nan, _ => nan
  | _, nan => nan

/-- `-a`. -/
noncomputable def neg : Fl → Fl
  | fin x => fin (-x)
  | inf s => inf (!s)
  | nan => nan

/-- `a - b`. -/
noncomputable def sub (a b : Fl) : Fl := add a (neg b)

open Classical in
/-- `x / y` of two numbers, `y` not `-0.0`. -/
noncomputable def div (x y : ℝ) : Fl :=
  if y = 0 then (if x = 0 then nan else inf (decide (x < 0))) else fin (x / y)

/-- `pow(a, 2.0)`. -/
noncomputable def sq : Fl → Fl
  | fin x => fin (x ^ 2)
  | inf _ => inf false
  | nan => nan

/-- `-0.5*a`. -/
noncomputable def mulNegHalf : Fl → Fl
  | fin x => fin (-(1 / 2) * x)
  | inf s => inf (!s)
  | nan => nan

/-- `exp(a)`. -/
noncomputable def exp : Fl → Fl
  | fin x => fin (Real.exp x)
  | inf false => inf false
  | inf true => fin 0
  | nan => nan

/-- `a < b`: false if one side is not a number. -/
def lt : Fl → Fl → Prop
  | fin x, fin y => x < y
  | fin _, inf s => s = false
  | inf s, fin _ => s = true
  | inf s, inf t => s = true ∧ t = false
  | nan, _ => False
  | _, nan => False

/-- `a <= b`: false if one side is not a number. -/
def le : Fl → Fl → Prop
  | fin x, fin y => x ≤ y
  | fin _, inf s => s = false
  | inf s, fin _ => s = true
  | inf s, inf t => s = true ∨ t = false
  | nan, _ => False
  | _, nan => False

end Fl

/-- The five values of `TypeModel`, src/allvars.h and src/read.c:337. -/
inductive ModelType where
  | gmodel | pmap | vmap | mmap | nmap
  deriving DecidableEq

/-- `begin_run` calls `mc_con`, src/run.c:45. -/
def runsCon (m : ModelType) (postprc decomp : Bool) : Bool :=
  (!postprc && !decomp && m != .vmap) || m == .nmap

/-- `(var_param, var_param_std)` when the line run starts: the zeros of `allocate_memory`,
src/init.c:306-311, unless `mc_con` was run, whose `postprocess_con` writes the mean and standard
deviation `post` of the continuum sample (src/mc_con.c:466-471). -/
noncomputable def varAtLineRun (m : ModelType) (postprc decomp : Bool) (post : (ℕ → ℝ) × (ℕ → ℝ)) :
    (ℕ → ℝ) × (ℕ → ℝ) :=
  if runsCon m postprc decomp then post else (fun _ => 0, fun _ => 0)

namespace LineCfg
variable (c : LineCfg)

/-! ## Ranges and fixed values -/

/-- Ranges of the parameters of line number `b` (`b = 0`: the counter `j` is 0),
src/dnest_vmap.c:172-228. -/
noncomputable def vBlockRanges (b : ℕ) : List (ℝ × ℝ) :=
  (Real.log 1, Real.log (1 + 10)) ::
    (List.range c.ng).flatMap fun k =>
      [(if k = 0 ∧ b = 0 then Real.log (1 / 10) else c.ampRange.1, c.ampRange.2),
       c.lagWindow k, c.widthWindow k]

/-- `set_par_range_vmap`, src/dnest_vmap.c:148-231: the ranges in the order they are written. -/
noncomputable def vRanges : List (ℝ × ℝ) :=
  ((List.range (c.numVar / 3)).flatMap fun _ => [c.varRange 0, c.varRange 1, c.varRange 2]) ++
  (List.range (c.numLine / c.blk)).flatMap fun b => c.vBlockRanges b

/-- `par_range_model[i]` of the virtual-continuum mode. -/
noncomputable def vrng (i : ℕ) : ℝ × ℝ := (c.vRanges).getD i (0, 0)

/-- The assignments to `par_fix`, `par_fix_val` in program order, src/dnest_vmap.c:81-111.  The loop
over `i < nset` reads `idx_line_pm[i][0]`, which is uninitialised if data set `i` has no line. -/
noncomputable def vFixWrites : List (ℕ × ℝ) :=
  ((List.range (c.numVar / 3)).map fun t => (3 * t + 1, Real.log (1 / 10))) ++
  ((List.range c.nl.length).map fun i => (c.idxLine i 0 + 2, 0)) ++
  ((List.range (c.numVar / 3)).map fun t => (3 * t, Real.log 1)) ++
  (if c.lineSys then [] else
    (List.range (c.numLine / c.blk)).map fun b => (c.blk * b + c.numVar, Real.log 1))

/-- `par_fix[i]`/`par_fix_val[i]`: `some v` iff `par_fix[i] == 1`; defined if every data set has a
line. -/
noncomputable def vfix : ℕ → Option ℝ := applyFix c.vFixWrites

/-- Every data set has a line, so that src/dnest_vmap.c:89-94 reads initialised memory. -/
def vOk : Bool := c.nl.all fun n => 0 < n

/-! ## Initial draw -/

/-- First loop of `from_prior_vmap`, src/dnest_vmap.c:304-308. -/
noncomputable def vDrawVar (d : LineDraw) : ℕ → (ℕ → ℝ) → Res (ℕ → ℝ)
  | 0, pm => .ok pm
  | n + 1, pm => do
    let pm ← vDrawVar d n pm
    let x ← dnestWrap (d.z n * ((c.vrng n).2 - (c.vrng n).1)) (c.vrng n).1 (c.vrng n).2
    return Function.update pm n x

/-- Second loop, src/dnest_vmap.c:310-313. -/
noncomputable def vDrawLine (d : LineDraw) (pm : ℕ → ℝ) : ℕ → ℝ := fun i =>
  if c.numVar ≤ i ∧ i < c.numParams then
    (c.vrng i).1 + d.u i * ((c.vrng i).2 - (c.vrng i).1)
  else pm i

/-- The `while` loop of src/dnest_vmap.c:345-355; `n` is `101 - j`. -/
noncomputable def vPosLoop (ic : ℕ) (v : ℕ → ℝ × ℝ) : ℕ → ℝ × ℝ → ℝ × ℝ
  | 0, p => p
  | n + 1, p =>
    if p.1 - c.widthFactor * p.2 < 0 then
      let a := (c.vrng (ic - 1)).1 + (v (100 - n)).1 * ((c.vrng (ic - 1)).2 - (c.vrng (ic - 1)).1)
      let b := (c.vrng ic).1 + (v (100 - n)).2 * ((c.vrng ic).2 - (c.vrng ic).1)
      if n = 0 then (a, a / c.widthFactor) else vPosLoop ic v n (a, b)
    else p

/-- One line of the positivity loop, src/dnest_vmap.c:341-356. -/
noncomputable def vPosBlock (d : LineDraw) (pm : ℕ → ℝ) (b : ℕ) : ℕ → ℝ :=
  let ic := c.numVar + c.blk * b + 2
  let p := c.vPosLoop ic (d.v b) 101 (pm (ic - 1), pm ic)
  Function.update (Function.update pm (ic - 1) p.1) ic p.2

/-- The positivity loop, src/dnest_vmap.c:339-357. -/
noncomputable def vPosAll (d : LineDraw) (pm : ℕ → ℝ) : ℕ → ℝ :=
  if c.posivity then
    (List.range (c.numLine / c.blk)).foldl (fun pm b => c.vPosBlock d pm b) pm
  else pm

/-- The loop writing fixed values, src/dnest_vmap.c:359-363. -/
noncomputable def vPutFixed (pm : ℕ → ℝ) : ℕ → ℝ := fun i =>
  match c.vfix i with
  | some v => v
  | none => pm i

/-- `from_prior_vmap`, src/dnest_vmap.c:299-366 (the sorting of src/dnest_vmap.c:316-336 is that of
src/dnest_line.c:477-497), after the set-up of src/dnest_vmap.c:71-111. -/
noncomputable def vFromPrior (d : LineDraw) (mem : ℕ → ℝ) : Res (ℕ → ℝ) := do
  if !c.vOk then .ub
  else
    let pm ← c.vDrawVar d c.numVar mem
    return c.vPutFixed (c.vPosAll d (c.sortAll (c.vDrawLine d pm)))

/-! ## Moves -/

/-- The `do..while(par_fix[which] == 1)` loop, src/dnest_vmap.c:409-413, 481-485. -/
noncomputable def vPick : List (Fin c.numParams) → Res (Fin c.numParams)
  | [] => .hang
  | w :: ws => if (c.vfix w).isSome then vPick ws else .ok w

/-- Step width, src/dnest_vmap.c:416-429, 488-501. -/
noncomputable def vStepWidth (s : ConStep c.numParams) (which : Fin c.numParams) : ℝ :=
  let wl := if s.levelUpdate - 5 > s.sizeLevels - 15 then s.sizeLevels - 15 else s.levelUpdate - 5
  if wl > 0 then (s.limits (wl - 1) which).2 - (s.limits (wl - 1) which).1
  else (c.vrng which).2 - (c.vrng which).1

/-- The range a moved lag is folded into under the ordered prior, src/dnest_vmap.c:441-459. -/
noncomputable def vOrderedBounds (pm : ℕ → ℝ) (which : ℕ) : ℝ × ℝ :=
  if c.roleOf which = 1 then
    if c.compOf which = 0 then ((c.vrng which).1, pm (which + 3))
    else if c.compOf which < (c.ng : Int) - 1 then (pm (which - 3), pm (which + 3))
    else (pm (which - 3), (c.vrng which).2)
  else c.vrng which

/-- The range a moved parameter is folded into: src/dnest_vmap.c:435, 441-459 and 507, 513. -/
noncomputable def vBounds (pm : ℕ → ℝ) (which : ℕ) : ℝ × ℝ :=
  if c.ordered ∧ c.numVar ≤ which then c.vOrderedBounds pm which else c.vrng which

/-- `-0.5*pow((pm[which]-var_param[which])/var_param_std[which], 2.0)`, src/dnest_vmap.c:433, 436,
505, 508, in double arithmetic. -/
noncomputable def vVarTerm (which : ℕ) (x : ℝ) : Fl :=
  .mulNegHalf (.sq (.div (x - c.varPar which) (c.varStd which)))

/-- The returned `logH` for the moved vector `q`: src/dnest_vmap.c:433-436, 461-468 and 505-508,
515-522. -/
noncomputable def vLogH (pm q : ℕ → ℝ) (which : ℕ) : Res Fl :=
  if which < c.numVar then
    .ok (Fl.add (Fl.sub (.fin 0) (c.vVarTerm which (pm which))) (c.vVarTerm which (q which)))
  else do
    let g ← if c.gap then c.checkGap q which else .ok 0
    return .fin ((if c.posivity then c.checkPositivity q which else 0) + g)

/-- `perturb_vmap_prior0` (ordered lag prior) or `perturb_vmap_prior1`, src/dnest_vmap.c:33-36,
402-472, 474-526: the new vector and `logH`. -/
noncomputable def vPerturb (s : ConStep c.numParams) (pm : ℕ → ℝ) : Res ((ℕ → ℝ) × Fl) := do
  let which ← c.vPick s.cands
  let x ← dnestWrap (pm which + s.h * c.vStepWidth s which) (c.vBounds pm which).1
    (c.vBounds pm which).2
  let q := Function.update pm which x
  let logH ← c.vLogH pm q which
  return (q, logH)

end LineCfg

open Classical in
/-- The acceptance test of `update_particle`, cdnest/dnest.c:749-753, on the returned `logH`, the
uniform number `u`, the level's likelihood and the proposal's. -/
noncomputable def acceptFl (logH : Fl) (u : ℝ) (level value : Fl) : Bool :=
  let logH := if Fl.lt (.fin 0) logH then .fin 0 else logH
  decide (Fl.le (.fin u) (Fl.exp logH) ∧ Fl.lt level value)

/-- What happens to the particles between two saves: `update i s u level` is `update_particle(i)`
(cdnest/dnest.c:729-779) with the random numbers `s`, `u` and the level's likelihood; `copy i j` is
the copying of particle `j` to `i` in `kill_lagging_particles`, cdnest/dnest.c:541-545. -/
inductive VEvent (n : ℕ) where
  | update (i : ℕ) (s : ConStep n) (u : ℝ) (level : Fl)
  | copy (i j : ℕ)

namespace LineCfg
variable (c : LineCfg)

/-- One event on the particles `ps`; `L` is the likelihood function. -/
noncomputable def vStep (L : (ℕ → ℝ) → Fl) (ps : ℕ → ℕ → ℝ) :
    VEvent c.numParams → Res (ℕ → ℕ → ℝ)
  | .copy i j => .ok (Function.update ps i (ps j))
  | .update i s u level => do
    let q ← c.vPerturb s (ps i)
    return if acceptFl q.2 u level (L q.1) then Function.update ps i q.1 else ps

/-- A run of the sampler in the virtual-continuum mode. -/
noncomputable def vRun (L : (ℕ → ℝ) → Fl) : List (VEvent c.numParams) → (ℕ → ℕ → ℝ) →
    Res (ℕ → ℕ → ℝ)
  | [], ps => .ok ps
  | e :: es, ps => do
    let ps ← c.vStep L ps e
    vRun L es ps

end LineCfg
end Mica
