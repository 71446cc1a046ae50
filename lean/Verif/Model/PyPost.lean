import Verif.Model.Postprocess

/-!
# Post-processing in Python (postprocess.py)

The numbers printed by `postprocess(fdir, ngau, temperature)`; the plots are not modelled.  `cut = 0`, `numResampleLogX = 1`,
`compression_bias_min = 1` and `compression_scatter = 0` are constants there (29-35), so that the random numbers have no
influence and `levels[:, 0]` (124-128) is what was read.  Rows of the files are records; `none` stands for an exception or for
numbers that are not finite.
-/

namespace Mica

/-- A line of the levels file with its tiebreaker. -/
abbrev PyLevel := PLevel × ℝ

/-- The loop `while sandwich[i] < … and logl_samples[i] > logl_levels[sandwich[i] + 1]` (postprocess.py:117-120), `ls` being the
levels above level `s`.  Tuples are compared in the order of their entries, and of `(a, b, i)` and `(a, b)` the longer one is
the greater one. -/
noncomputable def pyClimb (p : PInfo) : ℕ → List PyLevel → ℕ
  | s, [] => s
  | s, l :: ls => open Classical in if l.1.logl < p.logl ∨ (p.logl = l.1.logl ∧ l.2 ≤ p.tie) then pyClimb p (s + 1) ls else s

/-- `sandwich[i]`. -/
noncomputable def pySandwich (levels : List PyLevel) (p : PInfo) : ℕ := pyClimb p p.level (levels.drop (p.level + 1))

/-- Order of the tuples `(logl, tie, i)`. -/
def tupleLe (a b : PSample) : Prop :=
  a.logl < b.logl ∨ (a.logl = b.logl ∧ (a.tie < b.tie ∨ (a.tie = b.tie ∧ a.id ≤ b.id)))

/-- `sorted(logl_samples_thisLevel)` (postprocess.py:131-135). -/
noncomputable def pySorted (l : List PSample) : List PSample :=
  open Classical in l.mergeSort fun a b => decide (tupleLe a b)

/-- `np.linspace(1.0/(N + 1), 1.0 - 1.0/(N+1), N)`: for `N = 1` its first argument. -/
noncomputable def linU (n : ℕ) : List ℝ :=
  (List.range n).map fun (j : ℕ) => if n = 1 then 1 / ((n : ℝ) + 1)
    else 1 / ((n : ℝ) + 1) + j * ((1 - 1 / ((n : ℝ) + 1) - 1 / ((n : ℝ) + 1)) / ((n : ℝ) - 1))

/-- `np.sort`. -/
noncomputable def npSort (l : List ℝ) : List ℝ := open Classical in l.mergeSort fun a b => decide (a ≤ b)

/-- `logx_samples_thisLevel` (postprocess.py:139-152); the arguments of the logarithm are positive. -/
noncomputable def pyLogx (xmax xmin : ℝ) (n : ℕ) : List ℝ :=
  let umin := Real.exp (xmin - xmax)
  (npSort ((linU n).map fun u => xmax + Real.log (umin + (1 - umin) * u))).reverse

/-- `logp_samples` of sample `j` of the level before normalisation (postprocess.py:157-169). -/
noncomputable def pyLogp (xmax xmin : ℝ) (n j : ℕ) : Option ℝ :=
  let xs := pyLogx xmax xmin n
  let left := if j ≠ n - 1 then xs.getD (j + 1) 0 else xmin
  let right := if j ≠ 0 then xs.getD (j - 1) 0 else xmax
  (logdiffexp right left).map (Real.log (1 / 2) + ·)

/-- What is stored in `logp_samples` for level `i` (postprocess.py:130-169). -/
noncomputable def pyLevelWrites (levels : List PyLevel) (info : List PInfo) (sw : List ℕ) (i : ℕ) (l : PyLevel) :
    List (ℕ × Option ℝ) :=
  let sorted := pySorted (membersOf info sw i)
  sorted.zipIdx.map fun e => (e.1.id, pyLogp l.1.logX (lowerX (levels.map Prod.fst) i) sorted.length e.2)

/-- Entry `j` of `logp_samples`, which is zero before anything is stored (postprocess.py:111). -/
noncomputable def pyCell (levels : List PyLevel) (info : List PInfo) (j : ℕ) : Option ℝ :=
  match ((levels.zipIdx.flatMap fun e => pyLevelWrites levels info (info.map (pySandwich levels)) e.2 e.1).filter
      fun w => w.1 = j).getLast? with
  | some w => w.2
  | none => some 0

/-- `np.max`. -/
noncomputable def npMax : List ℝ → ℝ
  | [] => 0
  | x :: xs => xs.foldl max x

/-- `logsumexp` (postprocess.py:15-19). -/
noncomputable def npLogsumexp (x : List ℝ) : ℝ := Real.log (x.map fun y => Real.exp (y - npMax x)).sum + npMax x

/-- `log(Z)`, information and effective sample size (postprocess.py:78-80, 171-178, 220-226).  With less than two levels or two
samples `genfromtxt` delivers arrays with one dimension, and `levels_orig[:,0]` or `sample_info[…:, :]` raises an exception. -/
noncomputable def pyPost (temperature : ℝ) (levels : List PyLevel) (raw : List PInfo) : Option (ℝ × ℝ × ℝ) :=
  let info := raw.map (clampInfo levels.length)
  if levels.length < 2 ∨ info.length < 2 then none
  else
    ((List.range info.length).mapM fun (j : ℕ) => pyCell levels info j).map fun logp =>
      let logl := info.map fun p => p.logl / temperature
      let lp := logp.map (· - npLogsumexp logp)
      let lP := List.zipWith (· + ·) lp logl
      let z := npLogsumexp lP
      let P := (lP.map (· - z)).map Real.exp
      let h := -z + (List.zipWith (· * ·) P logl).sum
      let P' := P.map (· / P.sum)
      (z, h, Real.exp (-(P'.map fun w => w * Real.log (w + 1 / 10 ^ 300)).sum))

end Mica
