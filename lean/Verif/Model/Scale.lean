import Verif.Model.Data
import Mathlib.Analysis.SpecialFunctions.Log.Base
import Mathlib.Data.List.Sort
import Mathlib.Data.List.GetD

/-!
# Normalisation of the light curves and what `read_data` derives from them
(src/read.c:883-1038, 1040-1332, 1376-1486)
-/

namespace Mica

/-- The sum loop divided by the number of points (src/read.c:1119-1126). -/
noncomputable def meanC (f : List ℝ) : ℝ := f.foldl (fun s x => s + x) 0 / f.length

/-- `if(fdmax<f[j]) fdmax = f[j];` from `fdmax = f[0]` (src/read.c:1120-1124). -/
noncomputable def maxC (f0 : ℝ) (f : List ℝ) : ℝ := f.foldl (fun m x => if m < x then x else m) f0

/-- `if(fdmin>f[j]) fdmin = f[j];` (src/read.c:1125). -/
noncomputable def minC (f0 : ℝ) (f : List ℝ) : ℝ := f.foldl (fun m x => if m > x then x else m) f0

/-- Checks of one light curve and the common flag `flag_norm` (src/read.c:1116-1152, 1163-1193): reading
`f[0]` of an empty curve is out of bounds. -/
noncomputable def checkCurve (f : List ℝ) (flag : Bool) : Res Bool :=
  match f with
  | [] => .ub
  | f0 :: fs =>
    if meanC (f0 :: fs) ≤ 0 then .exit
    else if (maxC f0 (f0 :: fs) - minC f0 (f0 :: fs)) / 2 = 0 then .exit
    else if meanC (f0 :: fs) < (maxC f0 (f0 :: fs) - minC f0 (f0 :: fs)) / 2 / 100 then .ok true
    else .ok flag

/-- Fluxes of a light curve. -/
def fluxes (r : List Row) : List ℝ := r.map fun x => x.2.1

/-- The line light curves of a data set; those without points are skipped (src/read.c:1155-1194). -/
noncomputable def checkLines : List (List Row) → Bool → Res Bool
  | [], b => .ok b
  | l :: ls, b => if l = [] then checkLines ls b else (checkCurve (fluxes l) b).bind (checkLines ls)

/-- First loop of `scale_con_line` (src/read.c:1112-1195). -/
noncomputable def checkSets (vmap : Bool) : List FSet → Bool → Res Bool
  | [], b => .ok b
  | s :: ss, b =>
    if vmap then (checkLines s.lines b).bind (checkSets vmap ss)
    else (checkCurve (fluxes s.con) b).bind fun b' => (checkLines s.lines b').bind (checkSets vmap ss)

/-- A light curve after the normalisation: rows, `scale`, and the pair stored in `flux_minmax` (which no
function reads; it stays without value for light curves without points, zero here). -/
structure NCurve where
  rows : List Row
  scale : ℝ
  mid : ℝ
  half : ℝ

/-- A data set after the normalisation. -/
structure NSet where
  con : NCurve
  lines : List NCurve

/-- Factor of one light curve (src/read.c:1217-1236, 1286-1306): half the range or the mean, and 1 if
transfer functions or variability parameters are shared among sets. -/
noncomputable def scaleOf (norm noscale : Bool) (f0 : ℝ) (f : List ℝ) : ℝ :=
  if noscale then 1 else if norm then (maxC f0 f - minC f0 f) / 2 else meanC f

/-- Normalisation of one light curve with points (src/read.c:1204-1252, 1273-1323). -/
noncomputable def scaleCurve (norm noscale : Bool) (r : List Row) : Res NCurve :=
  match fluxes r with
  | [] => .ub
  | f0 :: fs =>
    let sc := scaleOf norm noscale f0 (f0 :: fs)
    .ok ⟨r.map fun x => (x.1, x.2.1 / sc, x.2.2 / sc), sc,
      (minC f0 (f0 :: fs) + maxC f0 (f0 :: fs)) / 2 / sc, (maxC f0 (f0 :: fs) - minC f0 (f0 :: fs)) / 2 / sc⟩

/-- A line of `data/normalization.txt`: set, number, factor; the factor is `none` where the variable
`scale` has no value. -/
abbrev NormLine := ℕ × ℕ × Option ℝ

/-- Line light curves (src/read.c:1264-1323): curve `j` of set `i` on. -/
noncomputable def scaleLines (norm noscale : Bool) (i : ℕ) : ℕ → List (List Row) → Option ℝ →
    Res (List NCurve × List NormLine × Option ℝ)
  | _, [], sc => .ok ([], [], sc)
  | j, l :: ls, sc =>
    if l = [] then do
      let q ← scaleLines norm noscale i (j + 1) ls sc
      .ok (⟨[], 1, 0, 0⟩ :: q.1, q.2)
    else do
      let c ← scaleCurve norm noscale l
      let q ← scaleLines norm noscale i (j + 1) ls (some c.scale)
      .ok (c :: q.1, (i, j + 1, some c.scale) :: q.2.1, q.2.2)

/-- The continuum of one set (src/read.c:1202-1258): in the mode `vmap` only `scale = 1` is stored, while
the local variable `scale` keeps what it had. -/
noncomputable def scaleCon (vmap norm noscale : Bool) (r : List Row) (sc : Option ℝ) : Res (NCurve × Option ℝ) :=
  if vmap then .ok (⟨r, 1, 0, 0⟩, sc)
  else do
    let c ← scaleCurve norm noscale r
    .ok (c, some c.scale)

/-- Second loop of `scale_con_line` (src/read.c:1201-1324); the line of the continuum in
`normalization.txt` gets the local variable `scale` (1260-1263). -/
noncomputable def scaleSets (vmap norm noscale : Bool) : ℕ → List FSet → Option ℝ → Res (List NSet × List NormLine)
  | _, [], _ => .ok ([], [])
  | i, s :: ss, sc => do
    let c ← scaleCon vmap norm noscale s.con sc
    let l ← scaleLines norm noscale i 0 s.lines c.2
    let q ← scaleSets vmap norm noscale (i + 1) ss l.2.2
    .ok (⟨c.1, l.1⟩ :: q.1, (i, 0, c.2) :: (l.2.1 ++ q.2))

/-- `scale_con_line` (src/read.c:1087-1332). -/
noncomputable def scaleAll (vmap noscale : Bool) (sets : List FSet) : Res (List NSet × List NormLine) := do
  let norm ← checkSets vmap sets false
  scaleSets vmap norm noscale 0 sets none

/-- `error_mean` of a light curve with points (src/read.c:1049-1056, 1073-1079). -/
noncomputable def errorMean (r : List Row) : ℝ := meanC (r.map fun x => x.2.2)

/-- A flux as printed by the programs: `f * dataset[i].con.scale` (src/mc_con.c:135,
src/mc_line.c:494, 502, 515, src/line_decomp.c:319). -/
noncomputable def printed (c : NCurve) (x : ℝ) : ℝ := x * c.scale

/-- First and last row of the continuum are printed (src/read.c:1023-1024), without a check for an empty
light curve; those of lines with a check (1025-1034). -/
def printEnds (s : NSet) : Res Unit :=
  match s.con.rows with
  | [] => .ub
  | _ :: _ => .ok ()

def printAll : List NSet → Res Unit
  | [] => .ok ()
  | s :: ss => (printEnds s).bind fun _ => printAll ss

/-- `read_data` behind the broadcast: normalisation and final printout (src/read.c:895-1038). -/
noncomputable def finishData (vmap noscale : Bool) (sets : List FSet) : Res (List NSet × List NormLine) := do
  let p ← scaleAll vmap noscale sets
  let _ ← printAll p.1
  .ok p

/-! ## Spans and cadences (src/read.c:955-1013) -/

/-- The light curves with points, continuum first. -/
def curvesOf (sets : List FSet) : List (List Row) :=
  ((sets.map fun s => s.con :: s.lines).flatten).filter fun r => !r.isEmpty

/-- `t[n-1] - t[0]`. -/
noncomputable def spanOf (r : List Row) : ℝ := (r.getLastD (0, 0, 0)).1 - (r.headD (0, 0, 0)).1

/-- `tspan_max` (src/read.c:955-982). -/
noncomputable def tspanMax (sets : List FSet) : ℝ :=
  ((curvesOf sets).map spanOf).foldl (fun m x => if m < x then x else m) 0

/-- `tmax`, the last time of all light curves, with `low` for `-DBL_MAX` (src/read.c:956, 966, 979). -/
noncomputable def tmaxAll (low : ℝ) (sets : List FSet) : ℝ :=
  ((curvesOf sets).map fun r => (r.getLastD (0, 0, 0)).1).foldl max low

/-- `parset.lag_limit_upper` after reading (src/read.c:983-986). -/
noncomputable def lagUpper (lim : ℝ) (sets : List FSet) : ℝ := if lim < 0 then tspanMax sets / 2 else lim

/-- One step of the search for the smallest mean cadence (src/read.c:994-997, 1004-1007): for a single
point the quotient 0/0 is not a number and the comparison fails. -/
noncomputable def cadStep (m : ℝ) (r : List Row) : ℝ :=
  if r.length ≤ 1 then m
  else if m > spanOf r / (r.length - 1 : ℕ) then spanOf r / (r.length - 1 : ℕ) else m

/-- `tcadence_con_min`, `tcadence_line_min` (src/read.c:988-1008). -/
noncomputable def tcadCon (sets : List FSet) : ℝ := (sets.map (·.con)).foldl cadStep (tspanMax sets)
noncomputable def tcadLine (sets : List FSet) : ℝ := ((sets.map (·.lines)).flatten).foldl cadStep (tspanMax sets)

/-- `tcadence_min` (src/read.c:1009). -/
noncomputable def tcadMin (sets : List FSet) : ℝ := min (tcadCon sets) (tcadLine sets)

/-- Digits behind the point for printed times (src/read.c:1011-1013), for `tmax ≠ 0`, `tspan_max > 0`
and `nd_rec > 0`; otherwise `log10` is not finite and its conversion to `int` undefined. -/
noncomputable def timeDigits (tmax tspan : ℝ) (ndRec : ℕ) : Res ℤ :=
  if tmax = 0 ∨ tspan = 0 ∨ ndRec = 0 then .ub
  else .ok (max (⌊Real.logb 10 |tmax|⌋ + 1 - ⌊Real.logb 10 (tspan / ndRec)⌋) 6)

/-! ## Seasonal gap (src/read.c:1376-1486) -/

/-- Sampling intervals (src/read.c:1406-1409). -/
noncomputable def gapSteps : List ℝ → List ℝ
  | a :: b :: l => (b - a) :: gapSteps (b :: l)
  | _ => []

/-- The loop over the `m` largest intervals, from the end of the sorted array; running below index 0 is
out of bounds (src/read.c:1414-1417). -/
noncomputable def sumTop (dt : List ℝ) : ℕ → Res ℝ
  | 0 => .ok 0
  | m + 1 => do
    let s ← sumTop dt m
    if m < dt.length then .ok (s + dt.getD (dt.length - 1 - m) 0) else .ub

/-- `get_seasonal_gap` (src/read.c:1388-1425); `qsort` by its specification.  The conversion of the
number of years to `int` is taken without overflow. -/
noncomputable def seasonalGap (t : List ℝ) (cad : ℝ) : Res ℝ :=
  match t with
  | [] => .ub
  | t0 :: ts =>
    let ny := ⌈((t0 :: ts).getLastD 0 - t0) / (1461 / 4)⌉
    if ny > 1 then do
      let s ← sumTop ((gapSteps (t0 :: ts)).mergeSort fun a b => decide (a ≤ b)) (ny - 1).toNat
      .ok (s / ((ny - 1 : ℤ) : ℝ))
    else .ok cad

/-- Default gap of a set: centre and half width (src/read.c:1433-1440). -/
noncomputable def defaultGap (t : List ℝ) (cad : ℝ) : Res (ℝ × ℝ) := do
  let g ← seasonalGap t cad
  .ok (1461 / 4 / 2, g / 2)

end Mica
