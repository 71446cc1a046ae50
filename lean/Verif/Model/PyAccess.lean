import Verif.Model.LineParams
import Verif.Model.RunPlan

/-!
# The Python interface: dimensions of the data and columns of the posterior sample (python/pymica/pymica.pyx)

An object of one of the classes `gmodel`, `pmap`, `vmap`, `mmap`, `nmap`, as far as the functions that hand out
posterior samples look at it.  A posterior sample is a list of rows, as `numpy.loadtxt` delivers it.  `ValueError` is
`none`.
-/

namespace Mica

/-- Fields of an object (python/pymica/pymica.pyx:28-37): class, `nset`, `nlset`, `num_param_var`,
`parset.flag_uniform_tranfuns`, `parset.num_gaussian_low`, `parset.num_gaussian_upper`. -/
structure PyObj where
  cls : Mode
  nset : ℕ
  nlset : List ℕ
  numParamVar : ℕ
  uniTf : ℕ
  low : ℕ
  upp : ℕ
  deriving DecidableEq

/-- `nset`, `nlset` from a dictionary of data (pymica.pyx:383-389): for every data set the number of light curves
besides the continuum, with or without points. -/
def pyDims {α : Type} (data : List (List α)) : ℕ × List ℕ := (data.length, data.map fun d => d.length - 1)

/-- `len(line[1:].split(":")) - 1` for a header line (pymica.pyx:350-353). -/
def pyFields (line : List Char) : ℕ := ((line.drop 1).filter (· == ':')).length

/-- The object behind `setup` of the class: `num_param_var` is 0 from the start (pymica.pyx:48) and is set in `setup` of
`gmodel` (567-575), `vmap` (992-1000), `mmap` (1226-1234), `nmap` (1460-1468), but not of `pmap` (748-850), which has
two components and never sets `flag_uniform_tranfuns`, 0 from the start (71).  `nmap` has no line parameters. -/
def pySetup (cls : Mode) (dims : ℕ × List ℕ) (uniVar : Bool) (uniTf low upp : ℕ) : PyObj :=
  match cls with
  | .pmap => ⟨.pmap, dims.1, dims.2, 0, 0, 2, 2⟩
  | .nmap => ⟨.nmap, dims.1, dims.2, if uniVar then 3 else 3 * dims.1, 0, 1, 1⟩
  | cls => ⟨cls, dims.1, dims.2, if uniVar then 3 else 3 * dims.1, uniTf, low, upp⟩

/-- `row[start:stop:step]` for `step > 0`; like in Python, what is beyond the end of the row is left out without an
error. -/
def pySlice {α : Type} (row : List α) (start stop step : ℕ) : List α :=
  (List.range ((stop - start + (step - 1)) / step)).filterMap fun k => row[start + step * k]?

/-- The checks in front (pymica.pyx:273-281, 314-322). -/
def PyObj.asked (o : PyObj) (set line : ℤ) : Option (ℕ × ℕ) :=
  if o.nset ≤ set then none
  else if set < 0 then none
  else if o.nlset.getD set.toNat 0 ≤ line then none
  else if line < 0 then none
  else some (set.toNat, line.toNat)

/-- `idx_line = num_param_var; for j in range(0, set-1): idx_line += (1+(i*3))*nlset[j]` (pymica.pyx:287-289,
332-334). -/
def PyObj.setIdx (o : PyObj) (set ng : ℕ) : ℕ :=
  (List.range (set - 1)).foldl (fun a j => a + (1 + ng * 3) * o.nlset.getD j 0) o.numParamVar

/-- `get_posterior_sample_timelag` (pymica.pyx:310-339) for the posterior samples `post i` of `i` components. -/
def PyObj.timelag {α : Type} (o : PyObj) (post : ℕ → List (List α)) (set line : ℤ) : Option (List (List (List α))) :=
  (o.asked set line).map fun p => (List.range (o.upp + 1 - o.low)).map fun q =>
    (post (o.low + q)).map fun row =>
      if o.uniTf = 1 then
        pySlice row (o.numParamVar + (1 + (o.low + q) * 3) * p.2 + 2)
          (o.numParamVar + (1 + (o.low + q) * 3) * p.2 + 2 + (o.low + q) * 3) 3
      else
        pySlice row (o.setIdx p.1 (o.low + q) + (1 + (o.low + q) * 3) * p.2 + 2)
          (o.setIdx p.1 (o.low + q) + (1 + (o.low + q) * 3) * p.2 + 2 + (o.low + q) * 3) 3

/-- `get_posterior_sample_width` (pymica.pyx:268-298). -/
def PyObj.width {α : Type} (o : PyObj) (post : ℕ → List (List α)) (set line : ℤ) : Option (List (List (List α))) :=
  (o.asked set line).map fun p => (List.range (o.upp + 1 - o.low)).map fun q =>
    (post (o.low + q)).map fun row =>
      if o.uniTf = 0 then
        pySlice row (o.setIdx p.1 (o.low + q) + (1 + (o.low + q) * 3) * p.2 + 3)
          (o.setIdx p.1 (o.low + q) + (1 + (o.low + q) * 3) * p.2 + 3 + (o.low + q) * 3) 3
      else
        pySlice row (o.numParamVar + (1 + (o.low + q) * 3) * p.2 + 3)
          (o.numParamVar + (1 + (o.low + q) * 3) * p.2 + 3 + (o.low + q) * 3) 3

end Mica
