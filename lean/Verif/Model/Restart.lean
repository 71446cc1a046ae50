import Verif.Model.Sampler

/-!
# Restart files (cdnest/dnest.c:1787-2063)

A restart file is a sequence of typed cells, one per `fwrite`.  Reading a cell with another type, or
past the end of the file, leaves garbage in the variable and is undefined behaviour here.
-/

namespace Mica

/-- What one `fwrite` of `dnest_save_restart` puts into the file. -/
inductive Cell (d : ℕ)
  | int (n : ℕ)
  | level (l : Level)
  | logl (l : LogL)
  | pair (lo hi : ℝ)
  | model (x : Fin d → ℝ)

variable {d : ℕ}

/-- `fwrite(&v, sizeof(int), 1, fp)`: the low four bytes. -/
def writeInt (n : ℕ) : Cell d := .int (n % 2 ^ 32)

/-- `dnest_save_restart`, cdnest/dnest.c:1790-1890.  `count_mcmc_steps` is a 64-bit number written
with `sizeof(int)`. -/
noncomputable def writeRestart (o : SOpts) (s : Sampler d) : List (Cell d) :=
  [writeInt s.countSaves, writeInt s.countMcmc, writeInt s.levels.length] ++
  s.levels.map .level ++
  (s.tasks.map fun ps => (ps.map fun p => [writeInt p.level, .logl p.logl]).flatten).flatten ++
  (if o.flagLimits then
    ((s.limits.take s.levels.length).map fun l =>
      List.ofFn fun j => Cell.pair (l j).1 (l j).2).flatten
   else []) ++
  (s.tasks.map fun ps => ps.map fun p => Cell.model p.params).flatten

/-- Read one integer. -/
def rdInt : List (Cell d) → Res (ℕ × List (Cell d))
  | .int n :: cs => .ok (n, cs)
  | _ => .ub

/-- Read one level. -/
def rdLevel : List (Cell d) → Res (Level × List (Cell d))
  | .level l :: cs => .ok (l, cs)
  | _ => .ub

/-- Read a level assignment and a likelihood, with the reset of assignments beyond the last level,
cdnest/dnest.c:1961-1968. -/
def rdAssign (sizeLevels : ℕ) : List (Cell d) → Res ((ℕ × LogL) × List (Cell d))
  | .int n :: .logl l :: cs => .ok ((if n > sizeLevels - 1 then sizeLevels - 1 else n, l), cs)
  | _ => .ub

/-- Read two doubles. -/
def rdPair : List (Cell d) → Res ((ℝ × ℝ) × List (Cell d))
  | .pair a b :: cs => .ok ((a, b), cs)
  | _ => .ub

/-- Read one particle. -/
def rdModel : List (Cell d) → Res ((Fin d → ℝ) × List (Cell d))
  | .model x :: cs => .ok (x, cs)
  | _ => .ub

/-- A `for` loop of `n` reads. -/
def rdMany {α : Type} (rd : List (Cell d) → Res (α × List (Cell d))) :
    ℕ → List (Cell d) → Res (List α × List (Cell d))
  | 0, cs => .ok ([], cs)
  | n + 1, cs => do
    let (a, cs) ← rd cs
    let (as, cs) ← rdMany rd n cs
    return (a :: as, cs)

/-- Read the limits of one level: `particle_offset_double` pairs. -/
def rdLim (cs : List (Cell d)) : Res (Lim d × List (Cell d)) := do
  let (l, cs) ← rdMany rdPair d cs
  return (fun j => l.getD j (0, 0), cs)

/-- Read all limits if level-dependent sampling is on, cdnest/dnest.c:1972-1989. -/
def rdLims (flag : Bool) (n : ℕ) (cs : List (Cell d)) : Res (List (Lim d) × List (Cell d)) :=
  if flag then rdMany rdLim n cs else .ok ([], cs)

/-- The loop `while(value < levels[level].value) level--`, cdnest/dnest.c:2047-2052.
Decrementing level zero (unsigned) indexes far beyond the table: undefined behaviour. -/
noncomputable def lowerLevel (levels : List Level) (value : ℝ) : ℕ → Res ℕ
  | 0 => do
    let l ← Res.get levels 0
    if value < l.logl.value then .ub else return 0
  | n + 1 => do
    let l ← Res.get levels (n + 1)
    if value < l.logl.value then lowerLevel levels value n else return (n + 1)

/-- The new level-table size, cdnest/dnest.c:1920-1945. -/
def restartSize (o : SOpts) (saved : ℕ) : Res ℕ :=
  if o.maxNumLevels ≠ 0 then
    if saved > o.maxNumLevels then .ok o.maxNumLevels else .ok saved
  else if saved > 1000 then .exit else .ok saved

/-- Particles of one task after the restart: likelihood recomputed, level lowered,
cdnest/dnest.c:2039-2054. -/
noncomputable def restartParticles (L : (Fin d → ℝ) → ℝ) (levels : List Level) :
    List (ℕ × LogL) → List (Fin d → ℝ) → Res (List (Particle d))
  | (n, l) :: as, x :: xs => do
    let lv ← lowerLevel levels (L x) n
    let ps ← restartParticles L levels as xs
    return ⟨x, ⟨L x, l.tie⟩, lv⟩ :: ps
  | _, _ => .ok []

/-- All tasks. -/
noncomputable def restartTasks (L : (Fin d → ℝ) → ℝ) (levels : List Level) :
    List (List (ℕ × LogL)) → List (List (Fin d → ℝ)) → Res (List (List (Particle d)))
  | as :: ass, xs :: xss => do
    let ps ← restartParticles L levels as xs
    let pss ← restartTasks L levels ass xss
    return ps :: pss
  | _, _ => .ok []

/-- `dnest_restart`, cdnest/dnest.c:1892-2063, after a fresh setup: the remaining entries of the limits
table keep their initial values, nothing has been collected above the top level, and
`count_mcmc_steps` was zero before its low four bytes are read.  `saved` is the list of samples
already in the sample file. -/
noncomputable def readRestart (o : SOpts) (L : (Fin d → ℝ) → ℝ) (saved : List (Particle d))
    (cs : List (Cell d)) : Res (Sampler d) := do
  let (nSaves, cs) ← rdInt cs
  let (nMcmc, cs) ← rdInt cs
  let (nLev, cs) ← rdInt cs
  let size ← restartSize o nLev
  let (lvs, cs) ← rdMany rdLevel nLev cs
  let levels := lvs.take size
  let (as, cs) ← rdMany (rdMany (rdAssign size) o.numParticles) o.totalTask cs
  let (lims, cs) ← rdLims o.flagLimits nLev cs
  let (xs, _) ← rdMany (rdMany rdModel o.numParticles) o.totalTask cs
  if nSaves > o.maxNumSaves then .exit
  else do
    let tasks ← restartTasks L levels as xs
    return {
      tasks := tasks
      levels := levels
      limits := if o.flagLimits then
          lims.take size ++ List.replicate (o.levelCap - size) (fun _ => (DBL_MAX, -DBL_MAX))
        else List.replicate o.levelCap (fun _ => (DBL_MAX, -DBL_MAX))
      allAbove := []
      maxLvRoot := o.maxNumLevels
      countMcmc := nMcmc
      countSaves := nSaves
      saved := saved }

end Mica
