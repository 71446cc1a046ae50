import Verif.Model.Res
import Verif.Model.Sampler
import Mathlib.Data.List.GetD
import Mathlib.Analysis.SpecialFunctions.Sqrt

/-!
# Smaller pieces of the driver code

Model selection (`mc_line`, `mc_pmap`), posterior summaries (`postprocess_con`,
`postprocess_line`), the split of the posterior sample over MPI tasks and the averaging of the
reconstructions (`output_reconstruction_parallel`), the conversion of response ratios
(`transform_response_ratio`), the version check and the splitting of elapsed time.

Idealisations: `double` is ℝ, array sizes are ℕ (no overflow of `int`), MPI collectives by their
specification, files as lists of numbers.
-/

namespace Mica

open Classical

/-! ## Choosing the number of components: src/mc_line.c:73, 110-115; src/mc_pmap.c:64, 80-85 -/

/-- The loop body's update of `(logz_max, jzmax)` at index `j` (src/mc_line.c:111-115). -/
noncomputable def bestStep (s : ℝ × ℕ) (j : ℕ) (z : ℝ) : ℝ × ℕ := if s.1 < z then (z, j) else s

/-- The loop over the numbers of components, from index `j` on (src/mc_line.c:74-128).  The evidence
returned by the sampler for each number is an input; the outputs of the body are not modelled. -/
noncomputable def bestLoop (s : ℝ × ℕ) (j : ℕ) : List ℝ → ℝ × ℕ
  | [] => s
  | z :: l => bestLoop (bestStep s j z) (j + 1) l

/-- The number printed as "best number of components" (src/mc_line.c:22 `jzmax=0`, :73
`logz_max = -DBL_MAX`, :141; the same in src/mc_pmap.c:23, :64, :111). -/
noncomputable def bestNumber (low : ℕ) (logz : List ℝ) : ℕ := low + (bestLoop (-DBL_MAX, 0) 0 logz).2

/-! ## Restart file names: src/mc_line.c:87-105; src/mc_pmap.c:42, :54 -/

/-- The text written by `sprintf(postfix, "_%d", n)` for a non-negative `n`. -/
def postfixOf (n : ℕ) : String := "_" ++ toString n

/-- `argv[2]`, the file to which `mc_line` saves the sampler state for `n` components
(src/mc_line.c:87, 93-95). -/
def lineSaveFile (dir : String) (n : ℕ) : String := dir ++ "/data/restart_dnest1d.txt" ++ postfixOf n

/-- `argv[argc+3]`, the file from which `mc_line` restarts for `n` components
(src/mc_line.c:97-105). -/
def lineRestartFile (dir : String) (n : ℕ) : String :=
  dir ++ "/" ++ "data/restart_dnest1d.txt" ++ postfixOf n

/-- The same two names in `mc_pmap` (src/mc_pmap.c:41-42, 50-55): set once before the loop over
the numbers of components, without the postfix. -/
def pmapSaveFile (dir : String) (_n : ℕ) : String := dir ++ "/data/restart_dnest1d.txt"
def pmapRestartFile (dir : String) (_n : ℕ) : String := dir ++ "/" ++ "data/restart_dnest1d.txt"

/-! ## Posterior summaries: src/mc_con.c:401-452; src/mc_line.c:1298-1355 -/

/-- Reading `n * np` numbers from the posterior sample file after the header
(src/mc_line.c:1310-1323): a failing `fscanf` exits.  Surplus numbers are ignored. -/
def readPosterior (n np : ℕ) (toks : List ℝ) : Res (List ℝ) :=
  if toks.length < n * np then .exit else .ok (toks.take (n * np))

/-- `pm[j] += *(posterior_sample + i*num_params + j)` for one parameter `j`, over all `i`
(src/mc_line.c:1334-1338). -/
noncomputable def sumCol (ps : List ℝ) (n np j : ℕ) : ℝ :=
  (List.range n).foldl (fun acc i => acc + ps.getD (i * np + j) 0) 0

/-- `pm[j] /= num_ps` (src/mc_line.c:1340-1341); `num_ps = 0` gives 0/0. -/
noncomputable def meanCol (ps : List ℝ) (n np j : ℕ) : Res ℝ :=
  if n = 0 then .ub else .ok (sumCol ps n np j / n)

/-- `pmstd[j] += pow(*(posterior_sample + i*num_params + j) - pm[j], 2.0)`
(src/mc_line.c:1343-1347). -/
noncomputable def sqCol (ps : List ℝ) (n np j : ℕ) (m : ℝ) : ℝ :=
  (List.range n).foldl (fun acc i => acc + (ps.getD (i * np + j) 0 - m) ^ 2) 0

/-- src/mc_line.c:1349-1355. -/
noncomputable def stdOf (n : ℕ) (s : ℝ) : ℝ := if 1 < n then Real.sqrt (s / (n - 1)) else 0

/-- One line of the summary: `(pm[j], pmstd[j])`. -/
noncomputable def summaryCol (ps : List ℝ) (n np j : ℕ) : Res (ℝ × ℝ) :=
  meanCol ps n np j >>= fun m => .ok (m, stdOf n (sqCol ps n np j m))

/-- `postprocess_line` (src/mc_line.c:1269-1366), `postprocess_con` (src/mc_con.c:374-474), `postprocess_vmap`
(src/mc_vmap.c:146-243) and `postprocess_mmap` (src/mc_mmap.c:133-230): header number `n`, then the numbers of the file; the
reported pairs for the parameters `0 … np-1`. -/
noncomputable def summary (n np : ℕ) (toks : List ℝ) : Res (List (ℝ × ℝ)) :=
  readPosterior n np toks >>= fun ps =>
    (List.range np).foldr (fun j acc => summaryCol ps n np j >>= fun p => acc >>= fun l => .ok (p :: l))
      (.ok [])

/-! ## Splitting the posterior sample over tasks: src/mc_line.c:254-286

The same code is in `output_reconstruction_parallel_mmap` (src/mc_mmap.c:235-648) and
`output_reconstruction_vmap_parallel` (src/mc_vmap.c:611-1040). -/

/-- `num_ps_task_average` (src/mc_line.c:256). -/
def avgPs (n T : ℕ) : ℕ := n / T

/-- `num_ps_task` of task `i`; the root is task 0 (src/mc_line.c:257-260, src/allvars.c:17). -/
def taskPs (n T i : ℕ) : ℕ := if i = 0 then n - avgPs n T * (T - 1) else avgPs n T

/-- `MPI_Scatter` from `all + off`: task `i` of `T` gets the `i`-th run of `cnt` numbers; reading
past the end of the send buffer is undefined (MPI specification). -/
def mpiScatter (all : List ℝ) (off cnt T i : ℕ) : Res (List ℝ) :=
  if all.length < off + T * cnt then .ub
  else .ok (((all.drop off).drop (i * cnt)).take cnt)

/-- The root's `memcpy` behind the scattered part (src/mc_line.c:275-280); source and destination
have to be large enough. -/
def rootCopy (all part : List ℝ) (cap cnt : ℕ) : Res (List ℝ) :=
  if all.length < cnt ∨ cap < part.length + cnt then .ub else .ok (part ++ all.take cnt)

/-- Contents of `posterior_sample_task` on task `i` (src/mc_line.c:262-280). -/
def taskBuffer (all : List ℝ) (n T np i : ℕ) : Res (List ℝ) :=
  mpiScatter all ((taskPs n T 0 - avgPs n T) * np) (avgPs n T * np) T i >>= fun part =>
    if taskPs n T i * np < avgPs n T * np then .ub
    else if i = 0 then
      rootCopy all part (taskPs n T i * np) ((taskPs n T i - avgPs n T) * np)
    else .ok part

/-- The samples a task goes through: `num_ps_task` steps of `post_model += num_params`
(src/mc_line.c:403-404, 449). -/
def taskSamples (buf : List ℝ) (k np : ℕ) : List (List ℝ) :=
  (List.range k).map fun m => (buf.drop (m * np)).take np

/-! ## Averaging the reconstructions: src/mc_line.c:381-402, 419-481 -/

/-- The accumulators of one node: `fall_best`, `fall_std`, `feall_max`. -/
structure RecAcc where
  best : ℝ
  sq : ℝ
  emax : ℝ

/-- One sample: value and error of the reconstruction at the node (src/mc_line.c:419-441).  The
reconstruction itself is a parameter `g`. -/
noncomputable def accStep (g : List ℝ → ℝ × ℝ) (a : RecAcc) (x : List ℝ) : RecAcc :=
  ⟨a.best + (g x).1, a.sq + (g x).1 * (g x).1, max a.emax (g x).2⟩

/-- All samples of one task, starting from zero (src/mc_line.c:381-402). -/
noncomputable def accTask (g : List ℝ → ℝ × ℝ) (l : List (List ℝ)) : RecAcc :=
  l.foldl (accStep g) ⟨0, 0, 0⟩

/-- `MPI_Reduce` with `MPI_SUM`, `MPI_SUM`, `MPI_MAX` (src/mc_line.c:452-460). -/
noncomputable def accMerge (a b : RecAcc) : RecAcc := ⟨a.best + b.best, a.sq + b.sq, max a.emax b.emax⟩

/-- The root's final arithmetic (src/mc_line.c:473-481): mean and uncertainty of the node. -/
noncomputable def accOut (n : ℕ) (a : RecAcc) : ℝ × ℝ :=
  (a.best / n, max (Real.sqrt (a.sq / n - a.best / n * (a.best / n))) a.emax)

/-- Run task `i` and add the results to those of the earlier tasks. -/
noncomputable def reduceTasks (g : List ℝ → ℝ × ℝ) (all : List ℝ) (n T np : ℕ) : ℕ → Res RecAcc
  | 0 => taskBuffer all n T np 0 >>= fun b => .ok (accTask g (taskSamples b (taskPs n T 0) np))
  | i + 1 => reduceTasks g all n T np i >>= fun r =>
      taskBuffer all n T np (i + 1) >>= fun b =>
        .ok (accMerge r (accTask g (taskSamples b (taskPs n T (i + 1)) np)))

/-- Mean and uncertainty of one node as written to the file, for `T` tasks. -/
noncomputable def reconstruct (g : List ℝ → ℝ × ℝ) (all : List ℝ) (n T np : ℕ) : Res (ℝ × ℝ) :=
  reduceTasks g all n T np (T - 1) >>= fun r => .ok (accOut n r)

/-! ## The time nodes: src/mc_line.c:305-316, 346-380 -/

/-- `(int) fmin(con.n*nscale, nd_rec)` with `nscale = 3` (src/mc_line.c:308, src/init.c:135). -/
def numNodes (ncon ndRec : ℕ) : ℕ := min (ncon * 3) ndRec

/-- First and last time of a set: the continuum's and then those of the lines, each given as
`(t[0], t[n-1])` (src/mc_line.c:349-355). -/
noncomputable def tBegEnd (con : ℝ × ℝ) (lines : List (ℝ × ℝ)) : ℝ × ℝ :=
  lines.foldl (fun a l => (min a.1 l.1, max a.2 l.2)) con

/-- The window after `trec_low_ext`, `trec_upp_ext` and the five percent margins
(src/mc_line.c:357-365). -/
noncomputable def recWindow (lowExt uppExt : ℝ) (b : ℝ × ℝ) : ℝ × ℝ :=
  let tbeg := b.1 + lowExt
  let tend := b.2 + uppExt
  let tspan := tend - tbeg
  (tbeg - 0.05 * tspan, tend + 0.05 * tspan)

/-- Node `j` of `n` (src/mc_line.c:367-369 for the continuum, 373-378 for the lines): division by
zero for a single node. -/
noncomputable def recNode (w : ℝ × ℝ) (n j : ℕ) : Res ℝ :=
  if (n : ℝ) - 1 = 0 then .ub else .ok ((w.2 - w.1) / (n - 1) * j + w.1)

/-! ## Response ratios: src/mc_pmap.c:230-273 -/

/-- `a[i] += v` on a list used as memory. -/
noncomputable def addAt (a : List ℝ) (i : ℕ) (v : ℝ) : List ℝ := a.set i (a.getD i 0 + v)

/-- Starts `j` of the line blocks, `for(j = 0; j < num_params_line; j += (1+3*num_gaussian))` with
`num_params_line = nl * (1+3*num_gaussian)` (src/dnest_pmap.c:47-48). -/
def ratioStarts (nl ng : ℕ) : List ℕ := (List.range nl).map fun l => l * (1 + 3 * ng)

/-- The pairs (target address, source address) of the two loops, in order
(src/mc_pmap.c:241-252); `k` runs from 1 to `num_gaussian - 1`. -/
def ratioPairs (nv nl ng : ℕ) : List (ℕ × ℕ) :=
  (ratioStarts nl ng).flatMap fun j =>
    (List.range (ng - 1)).map fun k => (nv + j + 1 + (k + 1) * 3, nv + j + 1 + 0 * 3)

/-- `transform_response_ratio` with distinct input and output arrays. -/
noncomputable def transformRatio (nv nl ng : ℕ) (pin : List ℝ) : List ℝ :=
  (ratioPairs nv nl ng).foldl (fun out p => addAt out p.1 (pin.getD p.2 0)) pin

/-- `transform_response_ratio_inplace` (src/mc_pmap.c:256-273), also `transform_response_ratio` with
`model_in == model_out`: the source is read from the array being changed. -/
noncomputable def transformRatioInplace (nv nl ng : ℕ) (pin : List ℝ) : List ℝ :=
  (ratioPairs nv nl ng).foldl (fun out p => addAt out p.1 (out.getD p.2 0)) pin

/-! ## Version check: cdnest/dnest.c:1629-1651, cdnest/dnest.h:15-17 -/

/-- Outcome of `dnest_check_version` for the parsed numbers of the argument and the library's own
version; `sscanf` itself is not modelled. -/
def checkVersion (lib v : ℤ × ℤ × ℤ) : ℤ :=
  if v.1 > lib.1 then 1
  else if v.1 < lib.1 then -1
  else if v.2.1 > lib.2.1 then 1
  else if v.2.1 < lib.2.1 then -1
  else if v.2.2 > lib.2.2 then 1
  else if v.2.2 > lib.2.2 then -1
  else 0

/-- `DNEST_MAJOR_VERSION`, `DNEST_MINOR_VERSION`, `DNEST_PATCH_VERSION`. -/
def dnestVersion : ℤ × ℤ × ℤ := (0, 1, 0)

/-! ## Elapsed time: src/system.c:40-64 -/

/-- Conversion of a `double` with an integral value to `int`: undefined out of range. -/
def toInt32 (z : ℤ) : Res ℤ := if -2147483648 ≤ z ∧ z ≤ 2147483647 then .ok z else .ub

/-- `get_hms` (src/system.c:58-64).  `(*h)*3600` is `int` arithmetic: undefined on overflow. -/
noncomputable def getHms (dt : ℝ) : Res (ℤ × ℤ × ℝ) :=
  toInt32 ⌊dt / 3600⌋ >>= fun h => toInt32 (h * 3600) >>= fun h3600 =>
    toInt32 ⌊(dt - h3600) / 60⌋ >>= fun m => toInt32 (m * 60) >>= fun m60 =>
      .ok (h, m, dt - h3600 - m60)

/-- `timediff` without `WALLCLOCK`: `clock_t` has 64 bits, `CLOCKS_PER_SEC` is 10^6
(src/system.c:40-53). -/
noncomputable def timeDiff (t0 t1 : ℝ) : ℝ :=
  if t1 - t0 < 0 then t1 + 2 ^ 64 / 1000000 - t0 else t1 - t0

/-- `timediff` with `WALLCLOCK`. -/
noncomputable def timeDiffWall (t0 t1 : ℝ) : ℝ := if t1 - t0 < 0 then 0 else t1 - t0

end Mica
