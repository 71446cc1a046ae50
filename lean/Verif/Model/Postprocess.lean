import Verif.Model.Res
import Verif.Model.Sort
import Mathlib.Analysis.SpecialFunctions.Log.Basic

/-!
# Post-processing of a run (cdnest/dnestpostprocess.c)

Doubles are real numbers; `Option ℝ` is used where the C expression can be something that is not a
finite number (`none` = NaN or infinity).  Files are the lists of the values on their lines; the
number of digits printed is not modelled here, but in `Model/SampleText.lean`.
-/

namespace Mica

/-- `log` of libm on a positive number is finite, on other arguments it is not. -/
noncomputable def clog (x : ℝ) : Option ℝ := open Classical in if 0 < x then some (Real.log x) else none

/-- `logdiffexp`, cdnest/dnestpostprocess.c:35-40. -/
noncomputable def logdiffexp (x1 x2 : ℝ) : Option ℝ :=
  (clog (Real.exp (x1 - x1) - Real.exp (x2 - x1))).map (· + x1)

/-- The maximum loop `max = x[0]; for(...) max = fmax(max, x[j])`, cdnest/dnestpostprocess.c:49-53
and 365-367. -/
noncomputable def maxLoop (x0 : ℝ) (x : List ℝ) : ℝ := x.foldl max x0

/-- `logsumexp`, cdnest/dnestpostprocess.c:44-60; on an empty array `x[0]` is out of bounds. -/
noncomputable def logsumexp (x : List ℝ) : Res ℝ :=
  match x with
  | [] => .ub
  | x0 :: _ =>
    let m := maxLoop x0 x
    .ok (Real.log (x.foldl (fun s y => s + Real.exp (y - m)) 0) + m)

/-- A line of the levels file: log X and the threshold, `levels_orig`,
cdnest/dnestpostprocess.c:103-128 (the tiebreaker column is read but not used). -/
structure PLevel where
  logX : ℝ
  logl : ℝ

/-- A line of the sample-information file, cdnest/dnestpostprocess.c:131-162. -/
structure PInfo where
  level : ℕ
  logl : ℝ
  tie : ℝ

/-- Reading `n` lines of a file, exit if there are fewer, cdnest/dnestpostprocess.c:111-127, 141-160. -/
def readLines {α : Type u} (n : ℕ) (file : List α) : Res (List α) :=
  if file.length < n then .exit else .ok (file.take n)

/-- Reset of assignments beyond the last level, cdnest/dnestpostprocess.c:157-158. -/
def clampInfo (numLevels : ℕ) (p : PInfo) : PInfo :=
  if p.level > numLevels - 1 then { p with level := numLevels - 1 } else p

/-- The search loop of the recalculation branch: the first level whose threshold is above the
likelihood, cdnest/dnestpostprocess.c:187-191. -/
noncomputable def firstAbove (levels : List PLevel) (logl : ℝ) : ℕ :=
  open Classical in levels.findIdx (fun l => decide (logl < l.logl))

/-- Recalculated sample information for one sample: likelihood `logl`, tiebreaker `tie`, and `r` a
random integer (`dnest_rand_int(j)` is `r mod j`, i.e. any number below `j`),
cdnest/dnestpostprocess.c:184-206. -/
noncomputable def recalcInfo (levels : List PLevel) (logl tie : ℝ) (r : ℕ) : PInfo :=
  let j := firstAbove levels logl
  { level := if j = 0 then 0 else r % j, logl := logl, tie := tie }

/-- The sandwiching loop `for(j=sandwhich[i]; j<num_levels; j++)`, cdnest/dnestpostprocess.c:222-228:
`go` runs over the remaining levels, `j` being the index of the first of them. -/
noncomputable def sandwichGo (logl : ℝ) : ℕ → ℕ → List PLevel → ℕ
  | _, acc, [] => acc
  | j, acc, l :: ls =>
    open Classical in sandwichGo logl (j + 1) (if logl > l.logl then j else acc) ls

/-- The sandwiching level of one sample, cdnest/dnestpostprocess.c:219-230. -/
noncomputable def sandwich (levels : List PLevel) (p : PInfo) : ℕ :=
  sandwichGo p.logl p.level p.level (levels.drop p.level)

/-- `SampleType`, cdnest/dnestpostprocess.c:25-29. -/
structure PSample where
  logl : ℝ
  tie : ℝ
  id : ℕ

/-- `cmp_sample`, cdnest/dnestpostprocess.c:475-487 (`true` is 1, `false` is 0). -/
noncomputable def cmpSample (a b : PSample) : Int :=
  open Classical in
  if a.logl > b.logl then 1
  else if a.logl = b.logl ∧ a.tie > b.tie then 1
  else 0

/-- The constant `-1.0E300`, cdnest/dnestpostprocess.c:251 and 290. -/
noncomputable def logXFloor : ℝ := -(10 : ℝ) ^ (300 : ℕ)

/-- `logx_min`, cdnest/dnestpostprocess.c:250-253 (the same choice is made for `left` at 289-292). -/
noncomputable def lowerX (levels : List PLevel) (i : ℕ) : ℝ :=
  if i = levels.length - 1 then logXFloor else
    match levels[i + 1]? with
    | some l => l.logX
    | none => logXFloor

/-- The fraction `(n-1-j)/(n-1.0)`, cdnest/dnestpostprocess.c:275: `0/0` is NaN when `n = 1`. -/
noncomputable def uFrac (n j : ℕ) : Option ℝ :=
  if n = 1 then none else some (((n : ℝ) - 1 - j) / ((n : ℝ) - 1))

/-- `logx_samples_thisLevel[j]`, cdnest/dnestpostprocess.c:249-277, for a level with prior mass
`exp xmax`, next prior mass `exp xmin`, and `n` samples. -/
noncomputable def logxAt (xmax xmin : ℝ) (n j : ℕ) : Option ℝ :=
  (uFrac n j).bind fun f =>
    let umin := Real.exp (xmin - xmax)
    let u := umin + (1 - umin) * (1 / (1 + n) + (1 - 2 / (1 + (n : ℝ))) * f)
    (clog u).map (xmax + ·)

/-- `left`, cdnest/dnestpostprocess.c:287-292. -/
noncomputable def leftAt (xmax xmin : ℝ) (n j : ℕ) : Option ℝ :=
  if j ≠ n - 1 then logxAt xmax xmin n (j + 1) else some xmin

/-- `right`, cdnest/dnestpostprocess.c:294-297. -/
noncomputable def rightAt (xmax xmin : ℝ) (n j : ℕ) : Option ℝ :=
  if j ≠ 0 then logxAt xmax xmin n (j - 1) else some xmax

/-- `logp` before normalisation, cdnest/dnestpostprocess.c:301-304. -/
noncomputable def logpAt (xmax xmin : ℝ) (n j : ℕ) : Option ℝ := do
  let r ← rightAt xmax xmin n j
  let l ← leftAt xmax xmin n j
  (logdiffexp r l).map (Real.log (1 / 2) + ·)

/-- The samples sandwiched by level `i`, in file order, cdnest/dnestpostprocess.c:257-268. -/
def membersOf (info : List PInfo) (sw : List ℕ) (i : ℕ) : List PSample :=
  ((info.zip sw).zipIdx.filter (fun e => e.1.2 = i)).map
    (fun e => { logl := e.1.1.logl, tie := e.1.1.tie, id := e.2 })

/-- The writes `logx_samples[id] = ..; logp_samples[id] = ..` done for level `i`,
cdnest/dnestpostprocess.c:247-305. -/
noncomputable def levelWrites (levels : List PLevel) (info : List PInfo) (sw : List ℕ)
    (i : ℕ) (l : PLevel) : List (ℕ × Option ℝ × Option ℝ) :=
  let sorted := msortC cmpSample (membersOf info sw i)
  let n := sorted.length
  let xmin := lowerX levels i
  sorted.zipIdx.map (fun e => (e.1.id, logxAt l.logX xmin n e.2, logpAt l.logX xmin n e.2))

/-- All writes, in program order. -/
noncomputable def allWrites (levels : List PLevel) (info : List PInfo) (sw : List ℕ) :
    List (ℕ × Option ℝ × Option ℝ) :=
  levels.zipIdx.flatMap (fun e => levelWrites levels info sw e.2 e.1)

/-- Content of cell `j` after the writes: the last value written, undefined if there is none. -/
def cellAfter {β : Type u} (ws : List (ℕ × β)) (j : ℕ) : Res β :=
  match (ws.filter (fun w => w.1 = j)).getLast? with
  | some w => .ok w.2
  | none => .ub

/-- Sequencing over a list. -/
def mapRes {α β : Type} (f : α → Res β) : List α → Res (List β)
  | [] => .ok []
  | a :: l => do
    let b ← f a
    let bs ← mapRes f l
    .ok (b :: bs)

/-- A double that has to be finite: otherwise every later result is NaN and the conversion of the
effective sample size to `int` (line 339) is undefined. -/
def finiteOr {β : Type} : Option β → Res β
  | some b => .ok b
  | none => .ub

/-- Acceptance test `log(u) < logP` with `u` in `[0,1)` (`log 0` is minus infinity),
cdnest/dnestpostprocess.c:373. -/
noncomputable def acceptPost (u w : ℝ) : Bool :=
  open Classical in decide (u = 0 ∨ Real.log u < w)

/-- The `while(true)` loop choosing one sample, cdnest/dnestpostprocess.c:371-380.  The random numbers
are given as a list of pairs (index, uniform); running out of them is `hang`. -/
noncomputable def pickOne (logP : List ℝ) : List (ℕ × ℝ) → Res (ℕ × List (ℕ × ℝ))
  | [] => .hang
  | (w, u) :: ds =>
    match logP[w]? with
    | none => .ub
    | some x => if acceptPost u x then .ok (w, ds) else pickOne logP ds

/-- The loop over posterior samples, cdnest/dnestpostprocess.c:369-381. -/
noncomputable def pickMany (logP : List ℝ) : ℕ → List (ℕ × ℝ) → Res (List ℕ)
  | 0, _ => .ok []
  | n + 1, ds => do
    let r ← pickOne logP ds
    let is ← pickMany logP n r.2
    .ok (r.1 :: is)

/-- The inner copy loop for sample number `i`, cdnest/dnestpostprocess.c:397-403: `post` is the
array of (possibly not yet written) posterior samples. -/
def copyOne {α : Type} (idx : List ℕ) (post : List (Option α)) (i : ℕ) (x : α) : List (Option α) :=
  List.zipWith (fun k q => if k = i then some x else q) idx post

/-- The copy loop over the sample file, cdnest/dnestpostprocess.c:392-405. -/
def copyAll {α : Type} (idx : List ℕ) (samples : List α) : List (Option α) :=
  samples.zipIdx.foldl (fun post e => copyOne idx post e.2 e.1) (idx.map fun _ => none)

/-- What post-processing prints and writes to files. -/
structure PostOut (α : Type) where
  logz : ℝ
  info : ℝ
  ess : ℝ
  numPs : ℕ
  post : List α
  postInfo : List ℝ
  weights : List (Option ℝ × ℝ × ℝ)

/-- The arrays computed up to line 329: log prior masses (before normalisation) and log X. -/
noncomputable def massArrays (levels : List PLevel) (info : List PInfo) :
    Res (List ℝ × List (Option ℝ)) := do
  let sw := info.map (sandwich levels)
  let ws := allWrites levels info sw
  let cells ← mapRes (cellAfter ws) (List.range info.length)
  let logp ← mapRes (fun c => finiteOr c.2) cells
  .ok (logp, cells.map (·.1))

/-- Normalisation and evidence, cdnest/dnestpostprocess.c:311-334: from unnormalised log prior
masses and (tempered) log-likelihoods to (logz, H, ESS, logP). -/
noncomputable def evidence (logp logl : List ℝ) : Res (ℝ × ℝ × ℝ × List ℝ) := do
  let s ← logsumexp logp
  let lp := logp.map (· - s)
  let lP := List.zipWith (· + ·) lp logl
  let z ← logsumexp lP
  let lP2 := lP.map (· - z)
  let h := (lP2.zip logl).foldl (fun a e => a + Real.exp e.1 * e.2) (-z)
  let e := lP2.foldl (fun a x => a + -x * Real.exp x) 0
  .ok (z, h, Real.exp e, lP2)

/-- `postprocess`, cdnest/dnestpostprocess.c:62-473, after the sample information is available
(read from file or recalculated).  `samples` is the sample file, `draws` the random numbers. -/
noncomputable def postprocess {α : Type} (temperature : ℝ) (levels : List PLevel)
    (info : List PInfo) (samples : List α) (draws : List (ℕ × ℝ)) : Res (PostOut α) := do
  let logl := info.map (fun p => p.logl / temperature)
  let m ← massArrays levels info
  let ev ← evidence m.1 logl
  let numPs := ⌊ev.2.2.1⌋₊
  let top ← Res.get ev.2.2.2 0
  let mx := maxLoop top ev.2.2.2
  let lP := ev.2.2.2.map (· - mx)
  let idx ← pickMany lP numPs draws
  let pinfo ← mapRes (fun w => Res.get logl w) idx
  let samples ← readLines info.length samples
  let post ← mapRes finiteOr (copyAll idx samples)
  .ok { logz := ev.1, info := ev.2.1, ess := ev.2.2.1, numPs := numPs, post := post, postInfo := pinfo,
        weights := List.zipWith (fun (c : Option ℝ × PInfo) x => (c.1, c.2.logl, Real.exp x))
          (m.2.zip info) lP }

/-- The whole of `postprocess` when the sample-information file exists: reading included. -/
noncomputable def postprocessFile {α : Type} (temperature : ℝ) (numLevels numSamples : ℕ)
    (levelFile : List PLevel) (infoFile : List PInfo) (sampleFile : List α) (draws : List (ℕ × ℝ)) :
    Res (PostOut α) := do
  let levels ← readLines numLevels levelFile
  let raw ← readLines numSamples infoFile
  postprocess temperature levels (raw.map (clampInfo numLevels)) sampleFile draws

end Mica
