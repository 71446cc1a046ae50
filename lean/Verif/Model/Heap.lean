import Verif.Model.Res
import Verif.Model.RunPlan
import Mathlib.Data.Finset.Image
import Mathlib.Data.Multiset.Basic

/-!
# Allocated memory of a run

Every `malloc` and `free` of a run, from `begin_run` to `end_run`, in the order of the code.  A block
is named by the pointer through which the code owns it (no owning pointer is ever copied to another one
in the functions modelled here): a variable, or an element of an array of pointers that itself lives in
an allocated block.  Sizes are not part of this model (see `Model/Workspace.lean` for the sizes of the
work arrays); neither are the allocations inside MPI, GSL (other than the random-number generators),
LAPACK and the C library, nor open files.  A `malloc` never fails.
-/

namespace Mica

/-- Names of the pointers that own a block: variables and members of structures. -/
inductive Obj
  -- read_parset, read_data
  | pardict | dataset | conT | conF | conFe | line | lineT | lineF | lineFe
  | fluxMinmax | fluxRow | alldata | allT | allF | allFe
  -- init, allocate_memory
  | widthPrior | PNmat | PSmat | PCmat | IPCmat | USmat | USmatT | ASmat | Tmat1 | Tmat2
  | workspace | workspaceIpiv | workspaceInv | varParam | varParamStd | idxConPm | logzArr
  | gapCenter | gapWidth | pbMica | gapDt
  -- mc_*
  | argv | argvStr | bestCon | bestStdCon | idxLinePm | idxLineRow | SmatLc | SmatLl
  | SmatLcBuf | SmatLlBuf | lagPrior | respRatioPrior
  -- dnest_con, dnest_line, ...
  | fptrset | parRange | parRangeRow | parFix | parFixVal | modelTrans | centers
  -- dnest
  | rng | dnRange | dnType | dnInfo | optDict | particles | allAbove | above | logLikes | levelAssign
  | unaccepts | levels | levelsCombine | copiesLevels | limits | copiesLimits | perturbAccept | pb
  | bufSize | bufDispls | levelsOrig | good | message | proposal | partsAll | likesAll | assignAll
  -- postprocess
  | ppLevels | ppLevelRow | ppInfo | ppInfoRow | ppLogl | ppSandwich | ppPsample | ppLogx | ppLogp
  | ppLogP | ppLogxThis | ppLoglThis | ppRng | ppSample | ppSampleInfo | ppSampleIdx
  -- postprocess_con, postprocess_line, output_*
  | postModel | postSample | bestLine | bestStdLine | tcon | fcon | fecon | yq
  | psAll | psTask | nall | nallRow | tall | tallRow | fall | fallRow | feall | feallRow
  | feallMax | feallMaxRow | fallBest | fallBestRow | fallStd | fallStdRow | ntall
  | yqBest | yqBestRow | yqStd | yqStdRow | feallMaxBuf | feallMaxBufRow | fallBestBuf
  | fallBestBufRow | fallStdBuf | fallStdBufRow | yqBestBuf | yqBestBufRow | yqStdBuf | yqStdBufRow
  | PEmat1 | PEmat2 | PEmat3 | PEmat4 | fqAll
  deriving DecidableEq

/-- A pointer: the variable it is reached from comes last, the member read last comes first, with the
array index used (`0` for a plain variable).  `dataset[i].line[j].t` is
`[(lineT, j), (line, i), (dataset, 0)]`. -/
abbrev Ptr := List (Obj × ℕ)

/-- A plain pointer variable. -/
def var (o : Obj) : Ptr := [(o, 0)]

/-- Member `o` of element `i` of the array that `p` points to. -/
def mem (p : Ptr) (o : Obj) (i : ℕ) : Ptr := (o, i) :: p

/-- Pointer variables with static storage duration, hence `NULL` until they are assigned
(src/allvars.c, src/mc_con.c:21-22, cdnest/dnestvars.c).  The three optional arrays of `dnest` are the
only ones for which this matters. -/
def Obj.static : Obj → Bool
  | .dnRange | .dnType | .dnInfo => true
  | _ => false

/-- One step on the allocated memory. -/
inductive Cmd
  | malloc (p : Ptr)
  | free (p : Ptr)
  | use (p : Ptr)

/-- State of the memory: the blocks that exist and are still reached by their pointer, the blocks that
exist but are no longer reached (their pointer was overwritten or has itself been freed), and the
pointers that have ever been assigned. -/
structure Heap where
  live : Finset Ptr
  lost : Multiset Ptr
  assigned : Finset Ptr

/-- No allocated memory, all static pointers `NULL`. -/
def Heap.empty : Heap := ⟨∅, 0, ∅⟩

/-- Meaning of one step.
* `p = malloc(..)`: undefined if the cell `p` lies in a block that does not exist; a block `p` pointed
  to before, and what was reached through it, is lost.
* `free(p)`: undefined unless `p` points to an existing block; nothing happens if `p` is a static pointer
  that was never assigned (`NULL`).  The blocks reached only through the freed one are lost.
* `use`: an access to the block; undefined unless the block exists. -/
def Cmd.step (c : Cmd) (h : Heap) : Res Heap :=
  match c with
  | .malloc p =>
    if p.tail = [] ∨ p.tail ∈ h.live then
      .ok ⟨insert p (h.live.filter fun q => ¬ p <:+ q), h.lost + (h.live.filter fun q => p <:+ q).val,
        insert p h.assigned⟩
    else .ub
  | .free p =>
    if p ∈ h.live then
      .ok ⟨h.live.filter fun q => ¬ p <:+ q,
        h.lost + (h.live.filter fun q => p <:+ q ∧ q ≠ p).val, h.assigned⟩
    else if p ∉ h.assigned ∧ (p.head?.elim false fun x => x.1.static) then .ok h
    else .ub
  | .use p => if p ∈ h.live then .ok h else .ub

/-- A sequence of steps. -/
def exec : List Cmd → Heap → Res Heap
  | [], h => .ok h
  | c :: cs, h => c.step h >>= exec cs

/-- `for(i=0; i<n; i++) body(i)`. -/
def forN (n : ℕ) (body : ℕ → List Cmd) : List Cmd := (List.range n).flatMap body

/-- `if(b) body`. -/
def whenC (b : Bool) (body : List Cmd) : List Cmd := if b then body else []

/-- Consecutive `malloc`s. -/
def mallocs (l : List Ptr) : List Cmd := l.map .malloc

/-- Consecutive `free`s. -/
def frees (l : List Ptr) : List Cmd := l.map .free

/-- Consecutive accesses. -/
def uses (l : List Ptr) : List Cmd := l.map .use

/-- What one round of the main loop of `dnest_run` does (cdnest/dnest.c:227-374): `steps` calls of
`update_particle`; whether a level was created without being the last one, whether this task takes part
in a message, whether the restart file is written. -/
structure Round where
  steps : ℕ
  kill : Bool
  message : Bool
  restart : Bool

/-- What a call of `dnest` depends on: this task is the root task; the optional arguments that are not
`NULL` (`dnest` in cdnest/dnest.c:47-49); the flags `-l`, `-p`/`-c`, `-r`; an options file is given;
numbers of particles, of rounds, of levels and samples to postprocess; whether the restart file is still
to be written at the end. -/
structure Call where
  root : Bool
  range : Bool
  type : Bool
  info : Bool
  limits : Bool
  post : Bool
  restart : Bool
  optfile : Bool
  particles : ℕ
  rounds : List Round
  lastRestart : Bool
  levels : ℕ
  samples : ℕ

/-- `options_load` (cdnest/dnest.c:1228-1356): the dictionary exists only while an options file is read. -/
def optionsLoad (d : Call) : List Cmd :=
  whenC d.optfile [.malloc (var .optDict), .free (var .optDict)]

/-- `setup` (cdnest/dnest.c:930-1162).  `init` and `like` are what the callbacks `from_prior` and
`log_likelihoods_cal` do.  Both branches on `max_num_levels` allocate the same pointers. -/
def setupH (d : Call) (init like : List Cmd) : List Cmd :=
  [.malloc (var .rng)] ++
  whenC d.range [.malloc (var .dnRange)] ++
  whenC d.type [.malloc (var .dnType)] ++
  whenC d.info [.malloc (var .dnInfo)] ++
  whenC d.root (optionsLoad d) ++
  [.malloc (var .particles)] ++
  whenC d.root [.malloc (var .allAbove)] ++
  mallocs [var .above, var .logLikes, var .levelAssign, var .unaccepts, var .levels] ++
  whenC d.root (mallocs [var .levelsCombine, var .copiesLevels]) ++
  whenC d.limits ([.malloc (var .limits)] ++ whenC d.root [.malloc (var .copiesLimits)]) ++
  [.malloc (var .perturbAccept)] ++
  uses [var .levels] ++
  whenC d.root (uses [var .levelsCombine]) ++
  forN d.particles (fun _ => uses [var .particles] ++ init ++ like ++ uses [var .logLikes, var .levelAssign]) ++
  whenC d.root [.malloc (var .pb)]

/-- `update_particle` (cdnest/dnest.c:729-779) and the level move; `move` and `like` are what the
callbacks `perturb` and `log_likelihoods_cal` do (`perturb` reads the limits with `dnest_get_limit`). -/
def updateH (d : Call) (move like : List Cmd) : List Cmd :=
  [.malloc (var .proposal)] ++ uses [var .particles, var .proposal] ++
  whenC d.limits (uses [var .limits]) ++ move ++ like ++
  uses [var .logLikes, var .levels, var .levelAssign, var .perturbAccept, var .unaccepts] ++
  [.free (var .proposal)] ++ uses [var .above]

/-- `dnest_save_restart` (cdnest/dnest.c:1790-1890) and `dnest_restart` (1892-2063) allocate and release
the same three arrays on the root task. -/
def restartH (d : Call) : List Cmd :=
  whenC d.root (mallocs [var .partsAll, var .likesAll, var .assignAll]) ++
  uses [var .particles, var .logLikes, var .levelAssign, var .levels] ++
  whenC d.limits (uses [var .limits]) ++
  whenC d.root (uses [var .partsAll, var .likesAll, var .assignAll]) ++
  whenC d.root (frees [var .partsAll, var .likesAll, var .assignAll])

/-- One round of the main loop (cdnest/dnest.c:227-374) with `do_bookkeeping` (414-468),
`kill_lagging_particles` (503-560) and `save_particle` (605-687). -/
def roundH (d : Call) (move like : List Cmd) (r : Round) : List Cmd :=
  forN r.steps (fun _ => updateH d move like) ++
  uses [var .levels, var .above] ++
  whenC d.root (uses [var .copiesLevels, var .allAbove, var .bufSize, var .bufDispls]) ++
  whenC d.limits (uses [var .limits] ++ whenC d.root (uses [var .copiesLimits])) ++
  whenC d.root ([.malloc (var .levelsOrig)] ++ uses [var .levelsOrig, var .levelsCombine] ++
    [.free (var .levelsOrig)] ++
    whenC r.kill ([.malloc (var .good)] ++ uses [var .good, var .particles] ++ [.free (var .good)])) ++
  whenC r.message ([.malloc (var .message)] ++ uses [var .message, var .particles] ++
    [.free (var .message)]) ++
  whenC r.restart (restartH d)

/-- `dnest_run` (cdnest/dnest.c:199-412). -/
def runH (d : Call) (move like : List Cmd) : List Cmd :=
  whenC d.root (mallocs [var .bufSize, var .bufDispls]) ++
  d.rounds.flatMap (roundH d move like) ++
  whenC d.lastRestart (restartH d) ++
  whenC d.root (uses [var .levelsCombine] ++ frees [var .bufSize, var .bufDispls])

/-- `postprocess` (cdnest/dnestpostprocess.c:62-473) and the reading of the options before it
(cdnest/dnest.c:189-197). -/
def postH (d : Call) : List Cmd :=
  optionsLoad d ++
  [.malloc (var .ppLevels)] ++ forN d.levels (fun i => [.malloc (mem (var .ppLevels) .ppLevelRow i)]) ++
  [.malloc (var .ppInfo)] ++ forN d.samples (fun i => [.malloc (mem (var .ppInfo) .ppInfoRow i)]) ++
  mallocs [var .ppLogl, var .ppSandwich, var .ppPsample] ++
  mallocs [var .ppLogx, var .ppLogp, var .ppLogP, var .ppLogxThis, var .ppLoglThis] ++
  forN d.levels (fun i => uses [mem (var .ppLevels) .ppLevelRow i]) ++
  forN d.samples (fun i => uses [mem (var .ppInfo) .ppInfoRow i]) ++
  uses [var .ppLogx, var .ppLogp, var .ppLogP, var .ppLogxThis, var .ppLoglThis, var .ppSandwich] ++
  mallocs [var .ppRng, var .ppSample, var .ppSampleInfo, var .ppSampleIdx] ++
  uses [var .ppSample, var .ppSampleInfo, var .ppSampleIdx, var .ppPsample] ++
  forN d.levels (fun i => [.free (mem (var .ppLevels) .ppLevelRow i)]) ++ [.free (var .ppLevels)] ++
  forN d.samples (fun i => [.free (mem (var .ppInfo) .ppInfoRow i)]) ++ [.free (var .ppInfo)] ++
  frees [var .ppLogl, var .ppLogx, var .ppLogxThis, var .ppLogp, var .ppLogP, var .ppLoglThis,
    var .ppSandwich, var .ppPsample, var .ppSample, var .ppSampleInfo, var .ppSampleIdx, var .ppRng]

/-- `finalise` (cdnest/dnest.c:1164-1211).  `if(p != NULL) free(p)` is `free(p)`. -/
def finaliseH (d : Call) : List Cmd :=
  frees [var .particles, var .above, var .logLikes, var .levelAssign, var .levels, var .unaccepts] ++
  whenC d.limits [.free (var .limits)] ++
  whenC d.root (frees [var .allAbove, var .levelsCombine, var .copiesLevels] ++
    whenC d.limits [.free (var .copiesLimits)]) ++
  frees [var .rng, var .perturbAccept, var .dnRange, var .dnType, var .dnInfo] ++
  whenC d.root [.free (var .pb)]

/-- `dnest` (cdnest/dnest.c:47-187). -/
def dnestH (d : Call) (init move like : List Cmd) : List Cmd :=
  setupH d init like ++
  (if d.post then whenC d.root (postH d)
   else whenC d.restart (restartH d) ++ runH d move like ++ whenC d.root (postH d)) ++
  finaliseH d

/-! ## The modelling stages -/

/-- What the allocations of a run depend on: this task is the root task; mode and command-line flags;
number of data sets and of lines of each; seasonal gaps are used; for which data sets the gap is computed
from the data; a lag prior is given as a string (`type_lag_prior == 4`); first number of components and
how many numbers; number of continuum parameters, of all parameters for the `j`-th number of components;
the centres are sorted in `from_prior` (`type_lag_prior_pr == 0`) for the `j`-th number; samples of this
task in the reconstructions; the calls of the sampler. -/
structure RunCfg where
  root : Bool
  mode : Mode
  postprc : Bool
  decomp : Bool
  paraName : Bool
  postsample : Bool
  nset : ℕ
  nlset : ℕ → ℕ
  gap : Bool
  gapData : ℕ → Bool
  lagStr : Bool
  low : ℕ
  diff : ℕ
  npCon : ℕ
  npAll : ℕ → ℕ
  sorted : ℕ → Bool
  psTask : ℕ → ℕ
  callCon : Call
  call : ℕ → Call

/-- `read_parset` (src/read.c:49; the dictionary is never released) and `read_data`
(src/read.c:563, 630-639 or 727, 786-800, then 803-820, 895-916). -/
def readH (c : RunCfg) : List Cmd :=
  whenC c.root [.malloc (var .pardict)] ++
  [.malloc (var .dataset)] ++
  forN c.nset (fun i => mallocs [mem (var .dataset) .conT i, mem (var .dataset) .conF i,
    mem (var .dataset) .conFe i, mem (var .dataset) .line i]) ++
  forN c.nset (fun i => forN (c.nlset i) fun j => mallocs [mem (mem (var .dataset) .line i) .lineT j,
    mem (mem (var .dataset) .line i) .lineF j, mem (mem (var .dataset) .line i) .lineFe j]) ++
  [.malloc (var .fluxMinmax)] ++
  forN c.nset (fun i => [.malloc (mem (var .fluxMinmax) .fluxRow i)]) ++
  [.malloc (var .alldata)] ++
  forN c.nset (fun i => mallocs [mem (var .alldata) .allT i, mem (var .alldata) .allF i,
    mem (var .alldata) .allFe i])

/-- `init` with `allocate_memory` and the seasonal gaps (src/init.c:83, 281-343, 275-278;
src/read.c:1384-1424). -/
def initH (c : RunCfg) : List Cmd :=
  mallocs [var .widthPrior, var .PNmat, var .PSmat, var .PCmat, var .IPCmat, var .USmat, var .USmatT,
    var .ASmat, var .Tmat1, var .Tmat2, var .workspace, var .workspaceIpiv, var .workspaceInv,
    var .varParam, var .varParamStd, var .idxConPm, var .logzArr] ++
  whenC c.gap (mallocs [var .gapCenter, var .gapWidth]) ++
  whenC c.root [.malloc (var .pbMica)] ++
  whenC c.gap (forN c.nset fun i => uses [var .gapCenter, var .gapWidth] ++
    whenC (c.gapData i) ([.malloc (var .gapDt)] ++ uses [var .gapDt, mem (var .dataset) .conT i] ++
      [.free (var .gapDt)]))

/-- `free_memory` (src/init.c:345-409). -/
def freeMemoryH (c : RunCfg) : List Cmd :=
  forN c.nset (fun i =>
    frees [mem (var .dataset) .conT i, mem (var .dataset) .conF i, mem (var .dataset) .conFe i] ++
    forN (c.nlset i) (fun j => frees [mem (mem (var .dataset) .line i) .lineT j,
      mem (mem (var .dataset) .line i) .lineF j, mem (mem (var .dataset) .line i) .lineFe j]) ++
    frees [mem (var .dataset) .line i, mem (var .fluxMinmax) .fluxRow i]) ++
  frees [var .dataset, var .fluxMinmax] ++
  forN c.nset (fun i => frees [mem (var .alldata) .allT i, mem (var .alldata) .allF i,
    mem (var .alldata) .allFe i]) ++
  [.free (var .alldata)] ++
  frees [var .PNmat, var .PSmat, var .PCmat, var .IPCmat, var .USmat, var .USmatT, var .ASmat,
    var .Tmat1, var .Tmat2, var .widthPrior, var .workspace, var .workspaceIpiv, var .workspaceInv,
    var .logzArr] ++
  whenC c.gap (frees [var .gapCenter, var .gapWidth]) ++
  whenC c.root [.free (var .pbMica)]

/-- Access to the data of all sets. -/
def useDataH (c : RunCfg) : List Cmd :=
  forN c.nset fun i => uses [mem (var .dataset) .conT i] ++
    forN (c.nlset i) fun j => uses [mem (mem (var .dataset) .line i) .lineT j]

/-- Access to the parameter ranges and the lists of fixed parameters, `np` parameters. -/
def usePriorH (np : ℕ) : List Cmd :=
  forN np fun i => uses [mem (var .parRange) .parRangeRow i, var .parFix, var .parFixVal]

/-- `argv` of a stage, `n` strings (src/mc_con.c:35-39, src/mc_line.c:33-37, ...). -/
def argvNewH (n : ℕ) : List Cmd :=
  [.malloc (var .argv)] ++ forN n fun i => [.malloc (mem (var .argv) .argvStr i)]

/-- Release of `argv` (src/mc_con.c:168-172, src/mc_line.c:155-159, ...). -/
def argvFreeH (n : ℕ) : List Cmd :=
  (forN n fun i => [.free (mem (var .argv) .argvStr i)]) ++ [.free (var .argv)]

/-- The ranges and lists of fixed parameters of one stage, `np` parameters (src/dnest_con.c:28-33,
src/dnest_line.c:64-69, ...). -/
def rangesNewH (np : ℕ) : List Cmd :=
  [.malloc (var .parRange)] ++ (forN np fun i => [.malloc (mem (var .parRange) .parRangeRow i)]) ++
  mallocs [var .parFix, var .parFixVal]

/-- Their release (src/dnest_con.c:71-79, src/dnest_line.c:217-226, ...). -/
def rangesFreeH (np : ℕ) : List Cmd :=
  (forN np fun i => [.free (mem (var .parRange) .parRangeRow i)]) ++
  frees [var .parRange, var .parFix, var .parFixVal]

/-- `dnest_con` (src/dnest_con.c:20-82); the callbacks use the data, the ranges and the work arrays. -/
def dnestConH (c : RunCfg) : List Cmd :=
  rangesNewH c.npCon ++ [.malloc (var .fptrset)] ++ usePriorH c.npCon ++ uses [var .fptrset] ++
  dnestH c.callCon (usePriorH c.npCon) (usePriorH c.npCon)
    (useDataH c ++ uses [var .workspace, var .idxConPm]) ++
  [.free (var .fptrset)] ++ rangesFreeH c.npCon

/-- `postprocess_con` (src/mc_con.c:374-474). -/
def postConH (c : RunCfg) : List Cmd :=
  mallocs [var .bestCon, var .bestStdCon] ++
  whenC c.root (mallocs [var .postModel, var .postSample] ++
    uses [var .postModel, var .postSample, var .bestCon, var .bestStdCon] ++
    frees [var .postModel, var .postSample]) ++
  uses [var .varParam, var .varParamStd]

/-- `mc_con` (src/mc_con.c:24-180) with the reconstruction of the continuum
(`recostruct_con_from_varmodel_semiseparable`, 279-368) and `mc_con_end` (677-684). -/
def mcConH (c : RunCfg) : List Cmd :=
  argvNewH 9 ++ dnestConH c ++ postConH c ++
  whenC c.root (mallocs [var .tcon, var .fcon, var .fecon, var .yq] ++
    forN c.nset (fun i => uses [var .bestCon, var .idxConPm, mem (var .dataset) .conT i] ++
      mallocs [var .PEmat1, var .PEmat2] ++
      uses [var .USmat, var .PEmat1, var .PEmat2, var .tcon, var .fcon, var .fecon, var .yq] ++
      frees [var .PEmat1, var .PEmat2]) ++
    frees [var .tcon, var .fcon, var .fecon, var .yq]) ++
  frees [var .bestCon, var .bestStdCon] ++
  argvFreeH 9

/-- `mc_line_init` (src/mc_line.c:2365-2403), `mc_vmap_init` (src/mc_vmap.c:265-303), `mc_mmap_init`
(src/mc_mmap.c:836-880, with two buffers more), `mc_pmap_init` (src/mc_pmap.c:140-146, with the priors of
the response ratios more). -/
def lineInitH (c : RunCfg) : List Cmd :=
  [.malloc (var .idxLinePm)] ++ forN c.nset (fun i => [.malloc (mem (var .idxLinePm) .idxLineRow i)]) ++
  mallocs [var .SmatLc, var .SmatLl] ++
  whenC (c.mode = .mmap) (mallocs [var .SmatLcBuf, var .SmatLlBuf]) ++
  whenC c.lagStr ([.malloc (var .lagPrior)] ++ uses [var .lagPrior]) ++
  whenC (c.mode = .pmap) ([.malloc (var .respRatioPrior)] ++ uses [var .respRatioPrior, var .widthPrior])

/-- `mc_line_end` (src/mc_line.c:2406-2424), `mc_vmap_end` (src/mc_vmap.c:306-324), `mc_mmap_end`
(src/mc_mmap.c:953-975), `mc_pmap_end` (src/mc_pmap.c:222-228). -/
def lineEndH (c : RunCfg) : List Cmd :=
  forN c.nset (fun i => [.free (mem (var .idxLinePm) .idxLineRow i)]) ++
  frees [var .idxLinePm, var .SmatLc, var .SmatLl] ++
  whenC (c.mode = .mmap) (frees [var .SmatLcBuf, var .SmatLlBuf]) ++
  whenC c.lagStr [.free (var .lagPrior)] ++
  whenC (c.mode = .pmap) [.free (var .respRatioPrior)]

/-- Accesses of the likelihood callback of a line stage: data, index lists, matrices, work arrays, in
photometric mode the transformed parameters (src/mc_pmap.c:294), in mixed mode the buffers, the seasonal
gaps if they are used. -/
def lineLikeH (c : RunCfg) : List Cmd :=
  useDataH c ++ forN c.nset (fun i => uses [mem (var .idxLinePm) .idxLineRow i]) ++
  uses [var .SmatLc, var .SmatLl, var .workspace, var .workspaceIpiv, var .workspaceInv, var .idxConPm,
    var .PCmat, var .IPCmat] ++
  whenC (c.mode = .pmap) (uses [var .modelTrans]) ++
  whenC (c.mode = .mmap) (uses [var .SmatLcBuf, var .SmatLlBuf]) ++
  whenC c.gap (uses [var .gapCenter, var .gapWidth])

/-- `dnest_line`, `dnest_pmap`, `dnest_vmap`, `dnest_mmap` for the `j`-th number of components
(src/dnest_line.c:22-229, src/dnest_pmap.c:22-138, src/dnest_vmap.c:22-146, src/dnest_mmap.c:22-197).  The
prior ranges use the continuum parameters; the sampler is not started when only the parameter names are
wanted; `from_prior` sorts the centres through a temporary array (src/dnest_line.c:480-496, src/dnest_mmap.c:
216-236, src/dnest_vmap.c:316-336). -/
def dnestLineH (c : RunCfg) (j : ℕ) : List Cmd :=
  [.malloc (var .fptrset)] ++ rangesNewH (c.npAll j) ++
  whenC (c.mode = .pmap) [.malloc (var .modelTrans)] ++
  uses [var .varParam, var .varParamStd, var .widthPrior] ++
  whenC c.lagStr (uses [var .lagPrior]) ++
  whenC (c.mode = .pmap) (uses [var .respRatioPrior]) ++
  forN c.nset (fun i => uses [mem (var .idxLinePm) .idxLineRow i]) ++
  usePriorH (c.npAll j) ++ uses [var .fptrset] ++
  whenC (!c.paraName) (dnestH (c.call j)
    (usePriorH (c.npAll j) ++ whenC (c.sorted j) ([.malloc (var .centers)] ++ uses [var .centers] ++
      [.free (var .centers)]))
    (usePriorH (c.npAll j)) (lineLikeH c)) ++
  [.free (var .fptrset)] ++ rangesFreeH (c.npAll j) ++
  whenC (c.mode = .pmap) [.free (var .modelTrans)]

/-- `postprocess_line`, `postprocess_mmap`, `postprocess_vmap` (src/mc_line.c:1269-1368,
src/mc_mmap.c:133-229, src/mc_vmap.c:146-243). -/
def postLineH (c : RunCfg) : List Cmd :=
  whenC c.root (mallocs [var .bestLine, var .bestStdLine, var .postModel, var .postSample] ++
    uses [var .postModel, var .postSample, var .bestLine, var .bestStdLine] ++
    frees [var .postModel, var .postSample, var .bestLine, var .bestStdLine])

/-- `output_reconstruction_parallel` (src/mc_line.c:172-586; the copies in src/mc_mmap.c:235-650 and
src/mc_vmap.c:611-1040 allocate and release the same blocks) for the `j`-th number of components.  Per
sample and data set two matrices are allocated by `reconstruct_line_from_varmodel3`
(src/mc_line.c:1737-1738, 1852-1853) and four by the virtual-continuum version (src/mc_vmap.c:1418-1421,
1535-1538). -/
def outRecH (c : RunCfg) (j : ℕ) : List Cmd :=
  let pe := if c.mode = .vmap then [var .PEmat1, var .PEmat2, var .PEmat3, var .PEmat4]
    else [var .PEmat1, var .PEmat2]
  whenC c.root [.malloc (var .psAll)] ++
  [.malloc (var .psTask)] ++
  whenC c.root (uses [var .psAll, var .pbMica]) ++ uses [var .psTask] ++
  mallocs [var .nall, var .tall, var .fall, var .feall, var .feallMax, var .fallBest, var .fallStd,
    var .ntall, var .yqBest, var .yqStd, var .yq] ++
  forN c.nset (fun i => [.malloc (mem (var .nall) .nallRow i)]) ++
  forN c.nset (fun i => mallocs [mem (var .tall) .tallRow i, mem (var .fall) .fallRow i,
    mem (var .feall) .feallRow i, mem (var .feallMax) .feallMaxRow i, mem (var .fallBest) .fallBestRow i,
    mem (var .fallStd) .fallStdRow i, mem (var .yqBest) .yqBestRow i, mem (var .yqStd) .yqStdRow i]) ++
  mallocs [var .feallMaxBuf, var .fallBestBuf, var .fallStdBuf, var .yqBestBuf, var .yqStdBuf] ++
  forN c.nset (fun i => mallocs [mem (var .feallMaxBuf) .feallMaxBufRow i,
    mem (var .fallBestBuf) .fallBestBufRow i, mem (var .fallStdBuf) .fallStdBufRow i,
    mem (var .yqBestBuf) .yqBestBufRow i, mem (var .yqStdBuf) .yqStdBufRow i]) ++
  useDataH c ++
  forN (c.psTask j) (fun _ => uses [var .psTask] ++ forN c.nset fun i =>
    mallocs pe ++ uses pe ++ uses [var .USmat, var .workspace, mem (var .fall) .fallRow i,
      mem (var .fallBest) .fallBestRow i] ++ frees pe) ++
  forN c.nset (fun i => uses [mem (var .fallBestBuf) .fallBestBufRow i,
    mem (var .fallStdBuf) .fallStdBufRow i, mem (var .feallMaxBuf) .feallMaxBufRow i]) ++
  [.free (var .psTask)] ++
  whenC c.root [.free (var .psAll)] ++
  forN c.nset (fun i => frees [mem (var .tall) .tallRow i, mem (var .fall) .fallRow i,
    mem (var .feall) .feallRow i, mem (var .nall) .nallRow i, mem (var .feallMax) .feallMaxRow i,
    mem (var .fallBest) .fallBestRow i, mem (var .fallStd) .fallStdRow i,
    mem (var .yqBest) .yqBestRow i, mem (var .yqStd) .yqStdRow i,
    mem (var .feallMaxBuf) .feallMaxBufRow i, mem (var .fallBestBuf) .fallBestBufRow i,
    mem (var .fallStdBuf) .fallStdBufRow i, mem (var .yqBestBuf) .yqBestBufRow i,
    mem (var .yqStdBuf) .yqStdBufRow i]) ++
  frees [var .tall, var .fall, var .feall, var .feallMax, var .fallBest, var .fallStd, var .nall,
    var .ntall, var .yq, var .yqBest, var .yqStd, var .feallMaxBuf, var .fallBestBuf, var .fallStdBuf,
    var .yqBestBuf, var .yqStdBuf]

/-- `output_decompose_line_parallel` (src/line_decomp.c:22-375; the copy in src/line_decomp_mmap.c:22-375
allocates and releases the same blocks) for the `j`-th number of components, `ng` of them.  The rows of
`feall_max` are not released before `feall_max` is (src/line_decomp.c:342-358). -/
def outDecH (c : RunCfg) (j : ℕ) : List Cmd :=
  let pe := [var .fqAll, var .PEmat1, var .PEmat2, var .PEmat3, var .PEmat4]
  whenC c.root [.malloc (var .psAll)] ++
  [.malloc (var .psTask)] ++
  whenC c.root (uses [var .psAll]) ++ uses [var .psTask] ++
  mallocs [var .nall, var .tall, var .fall, var .feall, var .feallMax, var .fallBest, var .fallStd,
    var .ntall] ++
  forN c.nset (fun i => [.malloc (mem (var .nall) .nallRow i)]) ++
  forN c.nset (fun i => mallocs [mem (var .tall) .tallRow i, mem (var .fall) .fallRow i,
    mem (var .feall) .feallRow i, mem (var .feallMax) .feallMaxRow i, mem (var .fallBest) .fallBestRow i,
    mem (var .fallStd) .fallStdRow i]) ++
  mallocs [var .yq, var .feallMaxBuf, var .fallBestBuf, var .fallStdBuf] ++
  forN c.nset (fun i => mallocs [mem (var .feallMaxBuf) .feallMaxBufRow i,
    mem (var .fallBestBuf) .fallBestBufRow i, mem (var .fallStdBuf) .fallStdBufRow i]) ++
  useDataH c ++
  forN (c.low + j) (fun _ => forN (c.psTask j) fun _ => whenC c.root (uses [var .pbMica]) ++
    forN c.nset fun i =>
      mallocs pe ++ uses pe ++ uses [var .USmat, var .workspace, mem (var .fall) .fallRow i,
        mem (var .fallBest) .fallBestRow i, mem (var .feallMax) .feallMaxRow i] ++
      frees [var .PEmat1, var .PEmat2, var .PEmat3, var .PEmat4, var .fqAll]) ++
  [.free (var .psTask)] ++
  whenC c.root [.free (var .psAll)] ++
  forN c.nset (fun i => frees [mem (var .tall) .tallRow i, mem (var .fall) .fallRow i,
    mem (var .feall) .feallRow i, mem (var .nall) .nallRow i,
    mem (var .fallBest) .fallBestRow i, mem (var .fallStd) .fallStdRow i,
    mem (var .feallMaxBuf) .feallMaxBufRow i, mem (var .fallBestBuf) .fallBestBufRow i,
    mem (var .fallStdBuf) .fallStdBufRow i]) ++
  frees [var .tall, var .fall, var .feall] ++ [.free (var .feallMax)] ++
  frees [var .fallBest, var .fallStd, var .nall,
    var .ntall, var .yq, var .feallMaxBuf, var .fallBestBuf, var .fallStdBuf]

/-- The line is decomposed in this stage (src/mc_line.c:121, src/mc_pmap.c:93, src/mc_mmap.c:91;
never in `mc_vmap`). -/
def decomposes (c : RunCfg) (j : ℕ) : Bool :=
  c.decomp && (match c.mode with
    | .gmodel | .pmap => decide (1 < c.low + j)
    | .mmap => true
    | _ => false)

/-- The stage for the `j`-th number of components (src/mc_line.c:72-120, src/mc_pmap.c:63-97,
src/mc_vmap.c:66-104, src/mc_mmap.c:62-89). -/
def stageH (c : RunCfg) (j : ℕ) : List Cmd :=
  dnestLineH c j ++ uses [var .logzArr] ++
  whenC (!c.paraName && !c.postsample)
    (postLineH c ++ outRecH c j ++ whenC (decomposes c j) (outDecH c j))

/-- How many stages there are: mixed mode has one (src/mc_mmap.c:62-78). -/
def stages (c : RunCfg) : ℕ := if c.mode = .mmap then 1 else c.diff

/-- `mc_line`, `mc_pmap`, `mc_vmap`, `mc_mmap` (src/mc_line.c:22-168, src/mc_pmap.c:22-138,
src/mc_vmap.c:22-141, src/mc_mmap.c:22-129). -/
def mcLineH (c : RunCfg) : List Cmd :=
  argvNewH 11 ++ lineInitH c ++ forN (stages c) (stageH c) ++ lineEndH c ++ argvFreeH 11

/-- `begin_run` and `end_run` (src/run.c:19-88; `restart` only changes the arguments of the sampler). -/
def runAllH (c : RunCfg) : List Cmd :=
  readH c ++ initH c ++
  whenC ((!c.postprc && !c.decomp && c.mode != .vmap) || c.mode == .nmap) (mcConH c) ++
  whenC (c.mode != .nmap) (mcLineH c) ++
  freeMemoryH c

end Mica
