import Verif.Model.Sampler
import Verif.Model.Vmap

/-!
# The diffusive nested sampler with likelihoods that need not be numbers (cdnest/dnest.c)

`Verif/Model/Sampler.lean` takes the likelihood to be a real number.  The user's likelihood is a C
function returning a `double`, and what it returns may be NaN or an infinity.  This file models the
same functions with every likelihood value (of particles, of proposals, of level thresholds and of
the collected values) an `Fl`, and with the `log_H` returned by `perturb` an `Fl` as well.  Names are
those of `Verif/Model/Sampler.lean` with an `f` in front; the counters, `log_X`, the limits and the
level indices are as there.
-/

namespace Mica

open Classical

/-- `a == b` of two doubles: NaN is not equal to anything. -/
def Fl.eqv : Fl → Fl → Prop
  | .fin x, .fin y => x = y
  | .inf s, .inf t => s = t
  | _, _ => False

/-- `a / k` for a positive integer `k`. -/
noncomputable def Fl.divNat : Fl → ℕ → Fl
  | .fin x, k => .fin (x / k)
  | a, _ => a

/-- `LikelihoodType`, cdnest/dnestvars.h:35-39. -/
structure FLogL where
  value : Fl
  tie : ℝ

/-- `Level`, cdnest/dnestvars.h:41-47. -/
structure FLevel where
  logl : FLogL
  logX : ℝ
  visits : ℕ
  exceeds : ℕ
  accepts : ℕ
  tries : ℕ

/-- A particle, as `Particle`. -/
structure FParticle (d : ℕ) where
  params : Fin d → ℝ
  logl : FLogL
  level : ℕ

/-- State of one MPI task, as `TaskSt`. -/
structure FTaskSt (d : ℕ) where
  particles : List (FParticle d)
  levels : List FLevel
  limits : List (Lim d)
  above : List FLogL

/-- The loop of `enough_levels`, cdnest/dnest.c:865-876. -/
noncomputable def fEnoughScan (l : List FLevel) : ℕ → ℕ → ℕ → Fl → Fl → Res (Fl × Fl × ℕ)
  | 0, _, kc, tot, mx => .ok (tot, mx, kc)
  | _ + 1, 0, _, _, _ => .ub
  | n + 1, k + 1, kc, tot, mx => do
    let a ← Res.get l (k + 1)
    let b ← Res.get l k
    let diff := Fl.sub a.logl.value b.logl.value
    let mx' := if Fl.lt mx diff then diff else mx
    if k < 1 then .ok (Fl.add tot diff, mx', kc + 1)
    else fEnoughScan l n k (kc + 1) (Fl.add tot diff) mx'

/-- `enough_levels`, cdnest/dnest.c:839-883. -/
noncomputable def fEnoughLevels (o : SOpts) (maxLv : ℕ) (l : List FLevel) : Res Bool :=
  if maxLv = 0 then
    if l.length ≥ 1000 then .exit
    else if l.length < 10 then .ok false
    else do
      let (tot, mx, kc) ← fEnoughScan l (numToCheck l.length) (l.length - 1) 0 (.fin 0)
        (.fin (-DBL_MAX))
      return decide (Fl.lt (Fl.divNat tot kc) (.fin o.ptol) ∧ Fl.lt mx (.fin (o.ptol * 1.1)))
  else .ok (decide (l.length ≥ maxLv))

/-- `log_push`, cdnest/dnest.c:825-837, as `logPush`. -/
noncomputable def fLogPush (o : SOpts) (maxLv : ℕ) (levels : List FLevel) (which : ℕ) : Res ℝ :=
  if which > levels.length then .exit
  else do
    let e ← fEnoughLevels o maxLv levels
    if e then return 0
    else return (((which : ℤ) - ((levels.length : ℤ) - 1) : ℤ) : ℝ) / o.lam

/-- Random inputs of one `update_particle`, as `UPIn`; `log_H` may be any double. -/
structure FUPIn (d : ℕ) where
  proposal : Fin d → ℝ
  logH : Fl
  uTie : ℝ
  uAcc : ℝ

/-- The loop over higher levels, cdnest/dnest.c:769-777. -/
noncomputable def fVisitLoop (value : Fl) : ℕ → ℕ → List FLevel → Res (List FLevel)
  | 0, _, ls => .ok ls
  | n + 1, cur, ls => do
    let a ← Res.get ls cur
    let b ← Res.get ls (cur + 1)
    if Fl.lt b.logl.value value then
      fVisitLoop value n (cur + 1)
        (ls.set cur { a with visits := a.visits + 1, exceeds := a.exceeds + 1 })
    else
      .ok (ls.set cur { a with visits := a.visits + 1 })

/-- Acceptance test, cdnest/dnest.c:749-753. -/
def fAcceptUP {d : ℕ} (lvl : FLevel) (i : FUPIn d) (value : Fl) : Prop :=
  Fl.le (.fin i.uAcc) (Fl.exp (if Fl.lt (.fin 0) i.logH then .fin 0 else i.logH)) ∧
    Fl.lt lvl.logl.value value

/-- `update_particle`, cdnest/dnest.c:729-779. -/
noncomputable def fUpdateParticle {d : ℕ} (L : (Fin d → ℝ) → Fl) (which : ℕ) (i : FUPIn d)
    (t : FTaskSt d) : Res (FTaskSt d) := do
  let p ← Res.get t.particles which
  let lv ← Res.get t.levels p.level
  let value := L i.proposal
  let tie ← dnestWrap (p.logl.tie + i.uTie) 0 1
  let p' : FParticle d :=
    if fAcceptUP lv i value then { p with params := i.proposal, logl := ⟨value, tie⟩ } else p
  let lv' : FLevel :=
    { lv with
      accepts := if fAcceptUP lv i value then lv.accepts + 1 else lv.accepts
      tries := lv.tries + 1 }
  let levels := t.levels.set p.level lv'
  let levels ← fVisitLoop p'.logl.value (levels.length - 1 - p.level) p.level levels
  return { t with particles := t.particles.set which p', levels := levels }

/-- `log_A`, cdnest/dnest.c:793-802, as `levelLogA`. -/
noncomputable def fLevelLogA (o : SOpts) (e : Bool) (lc lp : FLevel) (push : ℝ) : ℝ :=
  let a0 := -lp.logX + lc.logX + push
  let a1 := if e then a0 + o.beta * Real.log (((lc.tries : ℝ) + 1) / ((lp.tries : ℝ) + 1)) else a0
  if a1 > 0 then 0 else a1

/-- `update_level_assignment`, cdnest/dnest.c:781-823. -/
noncomputable def fUpdateLevelAssignment {d : ℕ} (o : SOpts) (maxLv : ℕ) (which : ℕ) (i : LAIn)
    (t : FTaskSt d) : Res (FTaskSt d) := do
  let p ← Res.get t.particles which
  let r ← modInt (proposeLevel p.level i) t.levels.length
  let prop := r.toNat
  let lp ← Res.get t.levels prop
  let lc ← Res.get t.levels p.level
  let a ← fLogPush o maxLv t.levels prop
  let b ← fLogPush o maxLv t.levels p.level
  let e ← fEnoughLevels o maxLv t.levels
  if i.uAcc ≤ Real.exp (fLevelLogA o e lc lp (a - b)) ∧ Fl.lt lp.logl.value p.logl.value then
    if o.flagLimits then do
      let lim ← Res.get t.limits prop
      return { t with
        particles := t.particles.set which { p with level := prop }
        limits := t.limits.set prop (extendLim lim p.params) }
    else
      return { t with particles := t.particles.set which { p with level := prop } }
  else return t

/-- Random inputs of one MCMC step, as `StepIn`. -/
structure FStepIn (d : ℕ) where
  which : ℕ
  uOrder : ℝ
  up : FUPIn d
  la : LAIn

/-- The two moves in random order, cdnest/dnest.c:709-718. -/
noncomputable def fMcmcMove {d : ℕ} (o : SOpts) (L : (Fin d → ℝ) → Fl) (maxLv : ℕ) (i : FStepIn d)
    (t : FTaskSt d) : Res (FTaskSt d) :=
  if i.uOrder ≤ 0.5 then do
    let t ← fUpdateParticle L i.which i.up t
    fUpdateLevelAssignment o maxLv i.which i.la t
  else do
    let t ← fUpdateLevelAssignment o maxLv i.which i.la t
    fUpdateParticle L i.which i.up t

/-- Body of the loop of `dnest_mcmc_run`, cdnest/dnest.c:695-725, as `mcmcStep`. -/
noncomputable def fMcmcStep {d : ℕ} (o : SOpts) (L : (Fin d → ℝ) → Fl) (maxLv : ℕ) (i : FStepIn d)
    (t : FTaskSt d) : Res (FTaskSt d) := do
  let t ← fMcmcMove o L maxLv i t
  let e ← fEnoughLevels o maxLv t.levels
  if e then return t
  else do
    let last ← Res.get t.levels (t.levels.length - 1)
    let p ← Res.get t.particles i.which
    if Fl.lt last.logl.value p.logl.value then
      if t.above.length < 2 * o.newLevelInterval then
        return { t with above := t.above ++ [p.logl] }
      else .ub
    else return t

/-- `dnest_mcmc_run`, cdnest/dnest.c:690-726: one step per input. -/
noncomputable def fMcmcRun {d : ℕ} (o : SOpts) (L : (Fin d → ℝ) → Fl) (maxLv : ℕ) :
    List (FStepIn d) → FTaskSt d → Res (FTaskSt d)
  | [], t => .ok t
  | i :: is, t => do
    let t ← fMcmcStep o L maxLv i t
    fMcmcRun o L maxLv is t

/-- Add one task's increments to one level, cdnest/dnest.c:298-301, as `addCounts`. -/
def fAddCounts (orig comb pl : FLevel) : FLevel :=
  { comb with
    accepts := comb.accepts + (pl.accepts - orig.accepts)
    tries := comb.tries + (pl.tries - orig.tries)
    visits := comb.visits + (pl.visits - orig.visits)
    exceeds := comb.exceeds + (pl.exceeds - orig.exceeds) }

/-- Inner loop over levels, cdnest/dnest.c:296-303. -/
def fAddTask : List FLevel → List FLevel → List FLevel → List FLevel
  | o :: os, c :: cs, p :: ps => fAddCounts o c p :: fAddTask os cs ps
  | _, cs, _ => cs

/-- Outer loop over tasks, cdnest/dnest.c:294-305. -/
def fMergeLevels (orig : List FLevel) : List (List FLevel) → List FLevel → List FLevel
  | [], comb => comb
  | pl :: pls, comb => fMergeLevels orig pls (fAddTask orig comb pl)

/-- `dnest_cmp`, cdnest/dnest.c:1566-1578: 0 if `a` is greater, otherwise 1. -/
noncomputable def fDnestCmp (a b : FLogL) : Int :=
  if Fl.lt b.value a.value then 0
  else if Fl.eqv a.value b.value ∧ a.tie > b.tie then 0
  else 1

/-- `renormalise_visits`, cdnest/dnest.c:483-501, for one level. -/
noncomputable def fRenormLevel (reg : ℕ) (l : FLevel) : FLevel :=
  let l1 : FLevel := if l.tries ≥ reg then
      { l with
        accepts := ⌊(((l.accepts + 1 : ℕ) : ℝ) / ((l.tries + 1 : ℕ) : ℝ)) * reg⌋₊
        tries := reg }
    else l
  if l.visits ≥ reg then
    { l1 with
      exceeds := ⌊(((l.exceeds + 1 : ℕ) : ℝ) / ((l.visits + 1 : ℕ) : ℝ)) * reg⌋₊
      visits := reg }
  else l1

/-- `recalculate_log_X`, cdnest/dnest.c:470-481, continuing after level `prev`. -/
noncomputable def fRecalcFrom (o : SOpts) (prev : FLevel) : List FLevel → List FLevel
  | [] => []
  | l :: ls =>
    let l' := { l with
      logX := prev.logX + Real.log (((prev.exceeds : ℝ) + 1 / o.compression * o.regularisation) /
        ((prev.visits : ℝ) + o.regularisation)) }
    l' :: fRecalcFrom o l' ls

/-- `recalculate_log_X`, cdnest/dnest.c:470-481. -/
noncomputable def fRecalcLogX (o : SOpts) : List FLevel → List FLevel
  | [] => []
  | l :: ls => { l with logX := 0 } :: fRecalcFrom o { l with logX := 0 } ls

/-- First loop of `kill_lagging_particles`, cdnest/dnest.c:516-529, as `killMark`. -/
noncomputable def fKillMark {d : ℕ} (o : SOpts) (maxLv : ℕ) (levels : List FLevel) :
    List (FParticle d) → List ℝ → ℝ → Res (List Bool × ℝ)
  | [], _, mx => .ok ([], mx)
  | _ :: _, [], _ => .hang
  | p :: ps, u :: us, mx => do
    let a ← fLogPush o maxLv levels p.level
    let mx' := if a > mx then a else mx
    let (gs, m) ← fKillMark o maxLv levels ps us mx'
    return (decide (¬ u ≤ killProb a) :: gs, m)

/-- The `do..while` choosing a particle to copy, cdnest/dnest.c:538-541. -/
noncomputable def fKillPick {d : ℕ} (o : SOpts) (maxLv : ℕ) (levels : List FLevel)
    (good : List Bool) (mx : ℝ) (ps : List (FParticle d)) : List (ℕ × ℝ) → Res ℕ
  | [] => .hang
  | (c, u) :: rest => do
    let g ← Res.get good c
    if ¬ g then fKillPick o maxLv levels good mx ps rest
    else do
      let p ← Res.get ps c
      let a ← fLogPush o maxLv levels p.level
      if u ≥ Real.exp (a - mx) then fKillPick o maxLv levels good mx ps rest
      else return c

/-- Second loop of `kill_lagging_particles`, cdnest/dnest.c:533-553, from particle `i` on. -/
noncomputable def fKillCopy {d : ℕ} (o : SOpts) (maxLv : ℕ) (levels : List FLevel)
    (good : List Bool) (mx : ℝ) : List Bool → ℕ → List (List (ℕ × ℝ)) → List (FParticle d) →
    Res (List (FParticle d))
  | [], _, _, ps => .ok ps
  | true :: gs, i, at_, ps => fKillCopy o maxLv levels good mx gs (i + 1) at_ ps
  | false :: _, _, [], _ => .hang
  | false :: gs, i, a :: at_, ps => do
    let c ← fKillPick o maxLv levels good mx ps a
    let pc ← Res.get ps c
    let ps' ← Res.put ps i pc
    fKillCopy o maxLv levels good mx gs (i + 1) at_ ps'

/-- `kill_lagging_particles`, cdnest/dnest.c:503-560, as `killLagging`. -/
noncomputable def fKillLagging {d : ℕ} (o : SOpts) (maxLv : ℕ) (levels : List FLevel) (k : KillIn)
    (ps : List (FParticle d)) : Res (List (FParticle d)) := do
  let (good, mx) ← fKillMark o maxLv levels ps k.u (-DBL_MAX)
  if good.count false < o.numParticles then
    fKillCopy o maxLv levels good mx good 0 k.attempts ps
  else return ps

/-- State of the sampler between two rounds, as `Sampler`. -/
structure FSampler (d : ℕ) where
  tasks : List (List (FParticle d))
  levels : List FLevel
  limits : List (Lim d)
  allAbove : List FLogL
  maxLvRoot : ℕ
  countMcmc : ℕ
  countSaves : ℕ
  saved : List (FParticle d)

/-- Result of `do_bookkeeping`. -/
structure FBook (d : ℕ) where
  levels : List FLevel
  allAbove : List FLogL
  maxLvRoot : ℕ
  root : List (FParticle d)

/-- Creation of a level, cdnest/dnest.c:421-438, as `createLevel`. -/
noncomputable def fCreateLevel (o : SOpts) (comb : List FLevel) (allAbove : List FLogL) :
    Res (List FLevel × List FLogL) := do
  let sorted := msortC fDnestCmp allAbove
  let index := ⌊(1 / o.compression) * (allAbove.length : ℝ)⌋₊
  let v ← Res.get sorted index
  if comb.length < o.levelCap then
    return (comb ++ [⟨v, 0, 0, 0, 0, 0⟩], sorted.take index)
  else .ub

/-- `do_bookkeeping`, cdnest/dnest.c:414-468. -/
noncomputable def fDoBookkeeping {d : ℕ} (o : SOpts) (maxLv : ℕ) (comb rootLevels : List FLevel)
    (allAbove : List FLogL) (root : List (FParticle d)) (k : KillIn) : Res (FBook d) := do
  let e ← fEnoughLevels o maxLv comb
  if ¬ e ∧ allAbove.length ≥ o.newLevelInterval then do
    let (comb', above') ← fCreateLevel o comb allAbove
    let e' ← fEnoughLevels o maxLv comb'
    if e' then
      return ⟨fRecalcLogX o (comb'.map (fRenormLevel o.regularisation)), above', comb'.length, root⟩
    else do
      let root' ← fKillLagging o maxLv rootLevels k root
      return ⟨fRecalcLogX o comb', above', maxLv, root'⟩
  else return ⟨fRecalcLogX o comb, allAbove, maxLv, root⟩

/-- Random inputs of one round of `dnest_run`, as `RoundIn`. -/
structure FRoundIn (d : ℕ) where
  steps : List (List (FStepIn d))
  kill : KillIn
  saveTask : ℕ
  saveParticle : ℕ

/-- The MCMC phase on every task, as `runTasks`. -/
noncomputable def fRunTasks {d : ℕ} (o : SOpts) (L : (Fin d → ℝ) → Fl) (levels : List FLevel)
    (limits : List (Lim d)) :
    ℕ → List (List (FParticle d)) → List (List (FStepIn d)) → Res (List (FTaskSt d))
  | _, [], _ => .ok []
  | _, _ :: _, [] => .hang
  | maxLv, ps :: pss, is :: iss => do
    let t ← fMcmcRun o L maxLv is ⟨ps, levels, limits, []⟩
    let ts ← fRunTasks o L levels limits o.maxNumLevels pss iss
    return t :: ts

/-- Gather, merge, bookkeeping, broadcast: cdnest/dnest.c:234-353, as `gatherTasks`. -/
noncomputable def fGatherTasks {d : ℕ} (o : SOpts) (s : FSampler d) (ts : List (FTaskSt d))
    (k : KillIn) : Res (FSampler d) := do
  let allAbove := s.allAbove ++ (ts.map (·.above)).flatten
  if allAbove.length > o.sizeAllAboveMax then .exit
  else do
    let root ← Res.get ts 0
    let comb := fMergeLevels s.levels (ts.map (·.levels)) s.levels
    let limits := if o.flagLimits then
        mergeLimits s.levels.length (ts.map (·.limits)) root.limits
      else root.limits
    let b ← fDoBookkeeping o s.maxLvRoot comb root.levels allAbove root.particles k
    return { s with
      tasks := b.root :: (ts.tail.map (·.particles))
      levels := b.levels
      limits := limits
      allAbove := b.allAbove
      maxLvRoot := b.maxLvRoot
      countMcmc := s.countMcmc + (o.threadSteps * o.totalTask) % 2 ^ 32 }

/-- Saving a particle, cdnest/dnest.c:355-357, 605-688, as `saveStep`. -/
noncomputable def fSaveStep {d : ℕ} (o : SOpts) (i : FRoundIn d) (s : FSampler d) :
    Res (FSampler d) :=
  if s.countMcmc ≥ ((s.countSaves + 1) * o.saveInterval) % 2 ^ 32 then do
    let ps ← Res.get s.tasks i.saveTask
    let p ← Res.get ps i.saveParticle
    return { s with countSaves := s.countSaves + 1, saved := s.saved ++ [p] }
  else return s

/-- One iteration of the loop of `dnest_run`, cdnest/dnest.c:224-382. -/
noncomputable def fRound {d : ℕ} (o : SOpts) (L : (Fin d → ℝ) → Fl) (i : FRoundIn d)
    (s : FSampler d) : Res (FSampler d) := do
  let ts ← fRunTasks o L s.levels s.limits s.maxLvRoot s.tasks i.steps
  let s ← fGatherTasks o s ts i.kill
  fSaveStep o i s

/-- Termination test, cdnest/dnest.c:226-229. -/
def fFinished {d : ℕ} (o : SOpts) (s : FSampler d) : Prop :=
  o.maxNumSaves ≠ 0 ∧ s.countSaves ≠ 0 ∧ s.countSaves % o.maxNumSaves = 0

/-- `dnest_run`, cdnest/dnest.c:199-382, on a finite prefix of the random numbers. -/
noncomputable def fRun {d : ℕ} (o : SOpts) (L : (Fin d → ℝ) → Fl) :
    List (FRoundIn d) → FSampler d → Res (FSampler d)
  | [], s => .ok s
  | i :: is, s =>
    if fFinished o s then .ok s
    else do
      let s ← fRound o L i s
      fRun o L is s

/-- Initial particles of one task, cdnest/dnest.c:1137-1145: the likelihood of the draw is stored
whatever it is. -/
def fInitParticle {d : ℕ} (L : (Fin d → ℝ) → Fl) (x : (Fin d → ℝ) × ℝ) : FParticle d :=
  ⟨x.1, ⟨L x.1, x.2⟩, 0⟩

/-- State after `setup`, cdnest/dnest.c:1115-1145, as `initSampler`. -/
noncomputable def fInitSampler {d : ℕ} (o : SOpts) (L : (Fin d → ℝ) → Fl) (tie : ℝ)
    (draws : List (List ((Fin d → ℝ) × ℝ))) : FSampler d where
  tasks := draws.map (·.map (fInitParticle L))
  levels := [⟨⟨.fin (-DBL_MAX), tie⟩, 0, 0, 0, 0, 0⟩]
  limits := List.replicate o.levelCap (fun _ => (DBL_MAX, -DBL_MAX))
  allAbove := []
  maxLvRoot := o.maxNumLevels
  countMcmc := 0
  countSaves := 0
  saved := []

end Mica
