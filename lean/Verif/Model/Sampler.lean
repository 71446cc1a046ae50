import Mathlib.Data.Real.Basic
import Mathlib.Analysis.SpecialFunctions.Log.Basic
import Mathlib.Analysis.SpecialFunctions.Sqrt
import Verif.Model.Res
import Verif.Model.Wrap
import Verif.Model.Sort

/-!
# The diffusive nested sampler (cdnest/dnest.c)

Random numbers are inputs.  The user's `perturb` is replaced by an arbitrary proposal together with
an arbitrary `logH` (so every theorem holds for every `perturb`); the user's likelihood is an
arbitrary function `L`.  `double` is ℝ, 64-bit counters of levels are ℕ.
-/

namespace Mica

/-- `DBL_MAX` of IEEE double precision. -/
@[irreducible] noncomputable def DBL_MAX : ℝ := (2 ^ 53 - 1) * 2 ^ 971

/-- `LikelihoodType`, cdnest/dnestvars.h:35-39. -/
structure LogL where
  value : ℝ
  tie : ℝ

/-- `Level`, cdnest/dnestvars.h:41-47. -/
structure Level where
  logl : LogL
  logX : ℝ
  visits : ℕ
  exceeds : ℕ
  accepts : ℕ
  tries : ℕ

/-- The options used by the sampler, cdnest/dnest.h `DNestOptions`, together with `compression`,
`regularisation`, `size_all_above_max` (cdnest/dnest.c:995-1010), the number of tasks and the
`-l` flag. `maxNumLevels` is the value read from the option file. -/
structure SOpts where
  numParticles : ℕ
  newLevelInterval : ℕ
  saveInterval : ℕ
  threadSteps : ℕ
  maxNumLevels : ℕ
  maxNumSaves : ℕ
  lam : ℝ
  beta : ℝ
  ptol : ℝ
  compression : ℝ
  regularisation : ℕ
  sizeAllAboveMax : ℕ
  totalTask : ℕ
  flagLimits : Bool

/-- Allocated length of the level table, cdnest/dnest.c:1026-1107
(`LEVEL_NUM_MAX` is 1000, cdnest/dnest.h:21). -/
def SOpts.levelCap (o : SOpts) : ℕ := if o.maxNumLevels ≠ 0 then o.maxNumLevels else 1000

/-- `size_all_above_max`, cdnest/dnest.c:1007-1010: integer division by a zero number of thread steps
is undefined behaviour.  Simplification: no 32-bit overflow. -/
noncomputable def allAboveMax (compression : ℝ) (threadSteps totalTask newLevelInterval : ℕ) : Res ℕ :=
  if threadSteps = 0 then .ub
  else
    let n := ⌈1 + compression⌉₊ * threadSteps * totalTask * (newLevelInterval / threadSteps + 1)
    .ok (if n < newLevelInterval * 2 then newLevelInterval * 2 else n)

/-- A particle: `particles[i]`, `log_likelihoods[i]`, `level_assignments[i]`. -/
structure Particle (d : ℕ) where
  params : Fin d → ℝ
  logl : LogL
  level : ℕ

/-- Limits of one level: `limits[level*2*np + i*2 (+1)]`. -/
abbrev Lim (d : ℕ) := Fin d → ℝ × ℝ

/-- State of one MPI task during `dnest_mcmc_run`. -/
structure TaskSt (d : ℕ) where
  particles : List (Particle d)
  levels : List Level
  limits : List (Lim d)
  above : List LogL

/-! ## enough_levels, log_push -/

/-- The loop of `enough_levels`, cdnest/dnest.c:865-876: arguments are the number of iterations left,
`k`, `kc`, `tot`, `max`. -/
noncomputable def enoughScan (l : List Level) : ℕ → ℕ → ℕ → ℝ → ℝ → Res (ℝ × ℝ × ℕ)
  | 0, _, kc, tot, mx => .ok (tot, mx, kc)
  | _ + 1, 0, _, _, _ => .ub
  | n + 1, k + 1, kc, tot, mx => do
    let a ← Res.get l (k + 1)
    let b ← Res.get l k
    let diff := a.logl.value - b.logl.value
    let mx' := if diff > mx then diff else mx
    if k < 1 then .ok (tot + diff, mx', kc + 1)
    else enoughScan l n k (kc + 1) (tot + diff) mx'

/-- `num_levels_to_check`, cdnest/dnest.c:856-858. -/
noncomputable def numToCheck (size : ℕ) : ℕ :=
  if size > 80 then ⌊Real.sqrt 20 * Real.sqrt (0.25 * size)⌋₊ else 20

/-- `enough_levels`, cdnest/dnest.c:839-883.  `maxLv` is the task's `options.max_num_levels`
(the root task overwrites its own copy, cdnest/dnest.c:443). -/
noncomputable def enoughLevels (o : SOpts) (maxLv : ℕ) (l : List Level) : Res Bool :=
  if maxLv = 0 then
    if l.length ≥ 1000 then .exit
    else if l.length < 10 then .ok false
    else do
      let (tot, mx, kc) ← enoughScan l (numToCheck l.length) (l.length - 1) 0 0 (-DBL_MAX)
      return decide (tot / kc < o.ptol ∧ mx < o.ptol * 1.1)
  else .ok (decide (l.length ≥ maxLv))

/-- `log_push`, cdnest/dnest.c:825-837. Simplification: `lam = 0` gives 0 here, ±inf in C. -/
noncomputable def logPush (o : SOpts) (maxLv : ℕ) (levels : List Level) (which : ℕ) : Res ℝ :=
  if which > levels.length then .exit
  else do
    let e ← enoughLevels o maxLv levels
    if e then return 0
    else return (((which : ℤ) - ((levels.length : ℤ) - 1) : ℤ) : ℝ) / o.lam

/-! ## update_particle -/

/-- Random inputs of one `update_particle`: the proposal and `logH` returned by `perturb`, the
uniform number added to the tiebreaker, and the uniform number of the acceptance test. -/
structure UPIn (d : ℕ) where
  proposal : Fin d → ℝ
  logH : ℝ
  uTie : ℝ
  uAcc : ℝ

/-- The loop over higher levels, cdnest/dnest.c:769-777; first argument: iterations left. -/
noncomputable def visitLoop (value : ℝ) : ℕ → ℕ → List Level → Res (List Level)
  | 0, _, ls => .ok ls
  | n + 1, cur, ls => do
    let a ← Res.get ls cur
    let b ← Res.get ls (cur + 1)
    if b.logl.value < value then
      visitLoop value n (cur + 1)
        (ls.set cur { a with visits := a.visits + 1, exceeds := a.exceeds + 1 })
    else
      .ok (ls.set cur { a with visits := a.visits + 1 })

/-- Acceptance test, cdnest/dnest.c:749-753. -/
def acceptUP {d : ℕ} (lvl : Level) (i : UPIn d) (value : ℝ) : Prop :=
  i.uAcc ≤ Real.exp (if i.logH > 0 then 0 else i.logH) ∧ lvl.logl.value < value

open Classical in
/-- `update_particle`, cdnest/dnest.c:729-779. -/
noncomputable def updateParticle {d : ℕ} (L : (Fin d → ℝ) → ℝ) (which : ℕ) (i : UPIn d)
    (t : TaskSt d) : Res (TaskSt d) := do
  let p ← Res.get t.particles which
  let lv ← Res.get t.levels p.level
  let value := L i.proposal
  let tie ← dnestWrap (p.logl.tie + i.uTie) 0 1
  let p' : Particle d :=
    if acceptUP lv i value then { p with params := i.proposal, logl := ⟨value, tie⟩ } else p
  let lv' : Level :=
    { lv with
      accepts := if acceptUP lv i value then lv.accepts + 1 else lv.accepts
      tries := lv.tries + 1 }
  let levels := t.levels.set p.level lv'
  let levels ← visitLoop p'.logl.value (levels.length - 1 - p.level) p.level levels
  return { t with particles := t.particles.set which p', levels := levels }

/-! ## update_level_assignment -/

/-- Random inputs of one `update_level_assignment`: the integer displacement
`(int)(pow(10,2u)*gauss)`, the uniform number choosing the direction, the acceptance number. -/
structure LAIn where
  step : ℤ
  uDir : ℝ
  uAcc : ℝ

/-- The proposed level before wrapping, cdnest/dnest.c:785-789. -/
noncomputable def proposeLevel (level : ℕ) (i : LAIn) : ℤ :=
  if (level : ℤ) + i.step = level then
    (if i.uDir < 0.5 then (level : ℤ) + i.step - 1 else (level : ℤ) + i.step + 1)
  else (level : ℤ) + i.step

/-- Extend limits by a particle position, cdnest/dnest.c:811-818. -/
noncomputable def extendLim {d : ℕ} (lim : Lim d) (x : Fin d → ℝ) : Lim d :=
  fun i => (min (lim i).1 (x i), max (lim i).2 (x i))

/-- `log_A`, cdnest/dnest.c:793-802: `lc` is the current level, `lp` the proposed one, `push` the
difference of their `log_push`, `e` whether levels are enough. -/
noncomputable def levelLogA (o : SOpts) (e : Bool) (lc lp : Level) (push : ℝ) : ℝ :=
  let a0 := -lp.logX + lc.logX + push
  let a1 := if e then a0 + o.beta * Real.log (((lc.tries : ℝ) + 1) / ((lp.tries : ℝ) + 1)) else a0
  if a1 > 0 then 0 else a1

open Classical in
/-- `update_level_assignment`, cdnest/dnest.c:781-823. -/
noncomputable def updateLevelAssignment {d : ℕ} (o : SOpts) (maxLv : ℕ) (which : ℕ) (i : LAIn)
    (t : TaskSt d) : Res (TaskSt d) := do
  let p ← Res.get t.particles which
  let r ← modInt (proposeLevel p.level i) t.levels.length
  let prop := r.toNat
  let lp ← Res.get t.levels prop
  let lc ← Res.get t.levels p.level
  let a ← logPush o maxLv t.levels prop
  let b ← logPush o maxLv t.levels p.level
  let e ← enoughLevels o maxLv t.levels
  if i.uAcc ≤ Real.exp (levelLogA o e lc lp (a - b)) ∧ lp.logl.value < p.logl.value then
    if o.flagLimits then do
      let lim ← Res.get t.limits prop
      return { t with
        particles := t.particles.set which { p with level := prop }
        limits := t.limits.set prop (extendLim lim p.params) }
    else
      return { t with particles := t.particles.set which { p with level := prop } }
  else return t

/-! ## dnest_mcmc_run -/

/-- Random inputs of one MCMC step. -/
structure StepIn (d : ℕ) where
  which : ℕ
  uOrder : ℝ
  up : UPIn d
  la : LAIn

/-- The two moves in random order, cdnest/dnest.c:709-718. -/
noncomputable def mcmcMove {d : ℕ} (o : SOpts) (L : (Fin d → ℝ) → ℝ) (maxLv : ℕ) (i : StepIn d)
    (t : TaskSt d) : Res (TaskSt d) :=
  if i.uOrder ≤ 0.5 then do
    let t ← updateParticle L i.which i.up t
    updateLevelAssignment o maxLv i.which i.la t
  else do
    let t ← updateLevelAssignment o maxLv i.which i.la t
    updateParticle L i.which i.up t

/-- Body of the loop of `dnest_mcmc_run`, cdnest/dnest.c:695-725.  Writing beyond the buffer `above`
(length `2*new_level_interval`, cdnest/dnest.c:1015) is undefined behaviour. -/
noncomputable def mcmcStep {d : ℕ} (o : SOpts) (L : (Fin d → ℝ) → ℝ) (maxLv : ℕ) (i : StepIn d)
    (t : TaskSt d) : Res (TaskSt d) := do
  let t ← mcmcMove o L maxLv i t
  let e ← enoughLevels o maxLv t.levels
  if e then return t
  else do
    let last ← Res.get t.levels (t.levels.length - 1)
    let p ← Res.get t.particles i.which
    if last.logl.value < p.logl.value then
      if t.above.length < 2 * o.newLevelInterval then
        return { t with above := t.above ++ [p.logl] }
      else .ub
    else return t

/-- `dnest_mcmc_run`, cdnest/dnest.c:690-726: one step per input. -/
noncomputable def mcmcRun {d : ℕ} (o : SOpts) (L : (Fin d → ℝ) → ℝ) (maxLv : ℕ) :
    List (StepIn d) → TaskSt d → Res (TaskSt d)
  | [], t => .ok t
  | i :: is, t => do
    let t ← mcmcStep o L maxLv i t
    mcmcRun o L maxLv is t

/-! ## Merging the tasks -/

/-- Add one task's increments to one level, cdnest/dnest.c:298-301.
Simplification: ℕ instead of 64-bit wrap-around arithmetic (`pl ≥ orig` always holds, see
`C09_merge_counts`). -/
def addCounts (orig comb pl : Level) : Level :=
  { comb with
    accepts := comb.accepts + (pl.accepts - orig.accepts)
    tries := comb.tries + (pl.tries - orig.tries)
    visits := comb.visits + (pl.visits - orig.visits)
    exceeds := comb.exceeds + (pl.exceeds - orig.exceeds) }

/-- Inner loop over levels, cdnest/dnest.c:296-303; `orig`, `comb`, `pl` have the same length. -/
def addTask : List Level → List Level → List Level → List Level
  | o :: os, c :: cs, p :: ps => addCounts o c p :: addTask os cs ps
  | _, cs, _ => cs

/-- Outer loop over tasks, cdnest/dnest.c:294-305. -/
def mergeLevels (orig : List Level) : List (List Level) → List Level → List Level
  | [], comb => comb
  | pl :: pls, comb => mergeLevels orig pls (addTask orig comb pl)

/-- `fmin`/`fmax` of two limits, cdnest/dnest.c:319-322. -/
noncomputable def unionLim {d : ℕ} (a b : Lim d) : Lim d :=
  fun i => (min (a i).1 (b i).1, max (a i).2 (b i).2)

/-- Merge the limits of the first `n` levels with those of one task, cdnest/dnest.c:315-325. -/
noncomputable def mergeLimTask {d : ℕ} : ℕ → List (Lim d) → List (Lim d) → List (Lim d)
  | n + 1, a :: as, b :: bs => unionLim a b :: mergeLimTask n as bs
  | _, as, _ => as

/-- The sweep making limits of lower levels contain those of higher levels,
cdnest/dnest.c:330-338 (`j` from `size_levels-2` down to 0). -/
noncomputable def sweepLim {d : ℕ} : ℕ → List (Lim d) → List (Lim d)
  | n + 2, a :: b :: rest =>
    match sweepLim (n + 1) (b :: rest) with
    | [] => [a]
    | b' :: rest' => unionLim a b' :: b' :: rest'
  | _, l => l

/-- All of cdnest/dnest.c:310-339. -/
noncomputable def mergeLimits {d : ℕ} (sizeLevels : ℕ) (copies : List (List (Lim d)))
    (root : List (Lim d)) : List (Lim d) :=
  sweepLim sizeLevels (copies.foldl (fun acc c => mergeLimTask sizeLevels acc c) root)

/-! ## do_bookkeeping -/

/-- `dnest_cmp`, cdnest/dnest.c:1566-1578: 0 if `a` is greater, otherwise 1. -/
noncomputable def dnestCmp (a b : LogL) : Int :=
  if a.value > b.value then 0
  else if a.value = b.value ∧ a.tie > b.tie then 0
  else 1

/-- `renormalise_visits`, cdnest/dnest.c:483-501, for one level. -/
noncomputable def renormLevel (reg : ℕ) (l : Level) : Level :=
  let l1 : Level := if l.tries ≥ reg then
      { l with
        accepts := ⌊(((l.accepts + 1 : ℕ) : ℝ) / ((l.tries + 1 : ℕ) : ℝ)) * reg⌋₊
        tries := reg }
    else l
  if l.visits ≥ reg then
    { l1 with
      exceeds := ⌊(((l.exceeds + 1 : ℕ) : ℝ) / ((l.visits + 1 : ℕ) : ℝ)) * reg⌋₊
      visits := reg }
  else l1

/-- `recalculate_log_X`, cdnest/dnest.c:470-481, continuing after level `prev`. -/
noncomputable def recalcFrom (o : SOpts) (prev : Level) : List Level → List Level
  | [] => []
  | l :: ls =>
    let l' := { l with
      logX := prev.logX + Real.log (((prev.exceeds : ℝ) + 1 / o.compression * o.regularisation) /
        ((prev.visits : ℝ) + o.regularisation)) }
    l' :: recalcFrom o l' ls

/-- `recalculate_log_X`, cdnest/dnest.c:470-481. -/
noncomputable def recalcLogX (o : SOpts) : List Level → List Level
  | [] => []
  | l :: ls => { l with logX := 0 } :: recalcFrom o { l with logX := 0 } ls

/-- Random inputs of `kill_lagging_particles`: one uniform number per particle, and for each
replaced particle the stream of attempts `(i_copy, uniform)`. -/
structure KillIn where
  u : List ℝ
  attempts : List (List (ℕ × ℝ))

/-- `kill_probability`, cdnest/dnest.c:523. -/
noncomputable def killProb (push : ℝ) : ℝ := (1 - 1 / (1 + Real.exp (-push - 4))) ^ 3

/-- First loop of `kill_lagging_particles`, cdnest/dnest.c:516-529: the `good` flags and
`max_log_push`.  A missing random number cannot happen (one per particle); it is `hang`. -/
noncomputable def killMark {d : ℕ} (o : SOpts) (maxLv : ℕ) (levels : List Level) :
    List (Particle d) → List ℝ → ℝ → Res (List Bool × ℝ)
  | [], _, mx => .ok ([], mx)
  | _ :: _, [], _ => .hang
  | p :: ps, u :: us, mx => do
    let a ← logPush o maxLv levels p.level
    let mx' := if a > mx then a else mx
    let (gs, m) ← killMark o maxLv levels ps us mx'
    return (decide (¬ u ≤ killProb a) :: gs, m)

/-- The `do..while` choosing a particle to copy, cdnest/dnest.c:538-541. -/
noncomputable def killPick {d : ℕ} (o : SOpts) (maxLv : ℕ) (levels : List Level)
    (good : List Bool) (mx : ℝ) (ps : List (Particle d)) : List (ℕ × ℝ) → Res ℕ
  | [] => .hang
  | (c, u) :: rest => do
    let g ← Res.get good c
    if ¬ g then killPick o maxLv levels good mx ps rest
    else do
      let p ← Res.get ps c
      let a ← logPush o maxLv levels p.level
      if u ≥ Real.exp (a - mx) then killPick o maxLv levels good mx ps rest
      else return c

/-- Second loop of `kill_lagging_particles`, cdnest/dnest.c:533-553, from particle `i` on. -/
noncomputable def killCopy {d : ℕ} (o : SOpts) (maxLv : ℕ) (levels : List Level)
    (good : List Bool) (mx : ℝ) : List Bool → ℕ → List (List (ℕ × ℝ)) → List (Particle d) →
    Res (List (Particle d))
  | [], _, _, ps => .ok ps
  | true :: gs, i, at_, ps => killCopy o maxLv levels good mx gs (i + 1) at_ ps
  | false :: _, _, [], _ => .hang
  | false :: gs, i, a :: at_, ps => do
    let c ← killPick o maxLv levels good mx ps a
    let pc ← Res.get ps c
    let ps' ← Res.put ps i pc
    killCopy o maxLv levels good mx gs (i + 1) at_ ps'

/-- `kill_lagging_particles`, cdnest/dnest.c:503-560 (acts on the root task's particles; `levels` is
the root task's level table before it is refreshed). -/
noncomputable def killLagging {d : ℕ} (o : SOpts) (maxLv : ℕ) (levels : List Level) (k : KillIn)
    (ps : List (Particle d)) : Res (List (Particle d)) := do
  let (good, mx) ← killMark o maxLv levels ps k.u (-DBL_MAX)
  if good.count false < o.numParticles then
    killCopy o maxLv levels good mx good 0 k.attempts ps
  else return ps

/-- State of the sampler between two rounds.  All tasks have the same level table and limits then
(broadcast, cdnest/dnest.c:347-353); `levels` also is the root's `levels_combine`.
`maxLvRoot` is the root's `options.max_num_levels`. -/
structure Sampler (d : ℕ) where
  tasks : List (List (Particle d))
  levels : List Level
  limits : List (Lim d)
  allAbove : List LogL
  maxLvRoot : ℕ
  countMcmc : ℕ
  countSaves : ℕ
  saved : List (Particle d)

/-- Result of `do_bookkeeping`. -/
structure Book (d : ℕ) where
  levels : List Level
  allAbove : List LogL
  maxLvRoot : ℕ
  root : List (Particle d)

/-- Creation of a level, cdnest/dnest.c:421-438: sort, take the quantile, append, truncate.
Reading beyond the collected values, or writing beyond the level table, is undefined behaviour.
Simplification: `compression > 0` (the C conversion of an infinity to `int` is not modelled). -/
noncomputable def createLevel (o : SOpts) (comb : List Level) (allAbove : List LogL) :
    Res (List Level × List LogL) := do
  let sorted := msortC dnestCmp allAbove
  let index := ⌊(1 / o.compression) * (allAbove.length : ℝ)⌋₊
  let v ← Res.get sorted index
  if comb.length < o.levelCap then
    return (comb ++ [⟨v, 0, 0, 0, 0, 0⟩], sorted.take index)
  else .ub

/-- `do_bookkeeping`, cdnest/dnest.c:414-468. `rootLevels` is the root's own level table. -/
noncomputable def doBookkeeping {d : ℕ} (o : SOpts) (maxLv : ℕ) (comb rootLevels : List Level)
    (allAbove : List LogL) (root : List (Particle d)) (k : KillIn) : Res (Book d) := do
  let e ← enoughLevels o maxLv comb
  if ¬ e ∧ allAbove.length ≥ o.newLevelInterval then do
    let (comb', above') ← createLevel o comb allAbove
    let e' ← enoughLevels o maxLv comb'
    if e' then
      return ⟨recalcLogX o (comb'.map (renormLevel o.regularisation)), above', comb'.length, root⟩
    else do
      let root' ← killLagging o maxLv rootLevels k root
      return ⟨recalcLogX o comb', above', maxLv, root'⟩
  else return ⟨recalcLogX o comb, allAbove, maxLv, root⟩

/-! ## dnest_run -/

/-- Random inputs of one round of `dnest_run`: per task the inputs of its MCMC steps, the inputs of
particle replacement, and the task and particle saved. -/
structure RoundIn (d : ℕ) where
  steps : List (List (StepIn d))
  kill : KillIn
  saveTask : ℕ
  saveParticle : ℕ

/-- The MCMC phase on every task; task 0 is the root and has its own level limit. -/
noncomputable def runTasks {d : ℕ} (o : SOpts) (L : (Fin d → ℝ) → ℝ) (levels : List Level)
    (limits : List (Lim d)) :
    ℕ → List (List (Particle d)) → List (List (StepIn d)) → Res (List (TaskSt d))
  | _, [], _ => .ok []
  | _, _ :: _, [] => .hang
  | maxLv, ps :: pss, is :: iss => do
    let t ← mcmcRun o L maxLv is ⟨ps, levels, limits, []⟩
    let ts ← runTasks o L levels limits o.maxNumLevels pss iss
    return t :: ts

/-- Gather, merge, bookkeeping, broadcast: cdnest/dnest.c:234-353.
The gather of collected likelihoods is preceded by a size check that exits
(cdnest/dnest.c:269-273). -/
noncomputable def gatherTasks {d : ℕ} (o : SOpts) (s : Sampler d) (ts : List (TaskSt d))
    (k : KillIn) : Res (Sampler d) := do
  let allAbove := s.allAbove ++ (ts.map (·.above)).flatten
  if allAbove.length > o.sizeAllAboveMax then .exit
  else do
    let root ← Res.get ts 0
    let comb := mergeLevels s.levels (ts.map (·.levels)) s.levels
    let limits := if o.flagLimits then
        mergeLimits s.levels.length (ts.map (·.limits)) root.limits
      else root.limits
    let b ← doBookkeeping o s.maxLvRoot comb root.levels allAbove root.particles k
    return { s with
      tasks := b.root :: (ts.tail.map (·.particles))
      levels := b.levels
      limits := limits
      allAbove := b.allAbove
      maxLvRoot := b.maxLvRoot
      countMcmc := s.countMcmc + (o.threadSteps * o.totalTask) % 2 ^ 32 }

/-- Saving a particle, cdnest/dnest.c:355-357 and `save_particle`, cdnest/dnest.c:605-688.
The comparison multiplies two 32-bit unsigned numbers.
Simplification: the printed sample is the exact particle (the text format rounds). -/
noncomputable def saveStep {d : ℕ} (o : SOpts) (i : RoundIn d) (s : Sampler d) :
    Res (Sampler d) :=
  if s.countMcmc ≥ ((s.countSaves + 1) * o.saveInterval) % 2 ^ 32 then do
    let ps ← Res.get s.tasks i.saveTask
    let p ← Res.get ps i.saveParticle
    return { s with countSaves := s.countSaves + 1, saved := s.saved ++ [p] }
  else return s

/-- One iteration of the `while(true)` loop of `dnest_run`, cdnest/dnest.c:224-382, after the
termination test. -/
noncomputable def round {d : ℕ} (o : SOpts) (L : (Fin d → ℝ) → ℝ) (i : RoundIn d)
    (s : Sampler d) : Res (Sampler d) := do
  let ts ← runTasks o L s.levels s.limits s.maxLvRoot s.tasks i.steps
  let s ← gatherTasks o s ts i.kill
  saveStep o i s

/-- Termination test, cdnest/dnest.c:226-229. -/
def finished {d : ℕ} (o : SOpts) (s : Sampler d) : Prop :=
  o.maxNumSaves ≠ 0 ∧ s.countSaves ≠ 0 ∧ s.countSaves % o.maxNumSaves = 0

open Classical in
/-- `dnest_run`, cdnest/dnest.c:199-382, on a finite prefix of the random numbers. -/
noncomputable def run {d : ℕ} (o : SOpts) (L : (Fin d → ℝ) → ℝ) :
    List (RoundIn d) → Sampler d → Res (Sampler d)
  | [], s => .ok s
  | i :: is, s =>
    if finished o s then .ok s
    else do
      let s ← round o L i s
      run o L is s

/-- Initial particles of one task, cdnest/dnest.c:1137-1145: arbitrary prior draws `x`, arbitrary
tiebreakers. -/
def initParticle {d : ℕ} (L : (Fin d → ℝ) → ℝ) (x : (Fin d → ℝ) × ℝ) : Particle d :=
  ⟨x.1, ⟨L x.1, x.2⟩, 0⟩

/-- State after `setup`, cdnest/dnest.c:1115-1145.  `tie` is the tiebreaker of the first level,
`draws` the prior draws per task. -/
noncomputable def initSampler {d : ℕ} (o : SOpts) (L : (Fin d → ℝ) → ℝ) (tie : ℝ)
    (draws : List (List ((Fin d → ℝ) × ℝ))) : Sampler d where
  tasks := draws.map (·.map (initParticle L))
  levels := [⟨⟨-DBL_MAX, tie⟩, 0, 0, 0, 0, 0⟩]
  limits := List.replicate o.levelCap (fun _ => (DBL_MAX, -DBL_MAX))
  allAbove := []
  maxLvRoot := o.maxNumLevels
  countMcmc := 0
  countSaves := 0
  saved := []

end Mica
