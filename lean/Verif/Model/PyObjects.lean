import Verif.Model.Text
import Verif.Model.RunPlan

/-!
# Several objects in one Python process (python/pymica/pymica.pyx): `setup`, `set_priors`, `run`

Each object has its own copy of the settings (`self.parset`), its own `flag_load_prior` and its own array `logz_line`.  The C code
has one `parset`, one `flag_load_prior` and one `prior_file` for the whole process.  Of the settings only the numbers of components
and the name of the data file are recorded.  Exceptions are taken to be caught by the user, so that the session goes on.  Objects
made from a parameter file, exceptions of `setup` for other reasons than a prior file, and what else happens in a run are not
modelled here.
-/

namespace Mica

/-- `num_gaussian_low`, `num_gaussian_diff` and `data_file` of a `PARSET` (src/allvars.h:104-150). -/
structure ObjSet where
  low : ℕ
  diff : ℕ
  data : CStr
  deriving DecidableEq

/-- One object (pymica.pyx:28-37).  `cap`: the number of entries of `logz_line`, 0 also for NULL.  Values of a new object: Cython
zeroes the members, pymica.pyx:71 sets `num_gaussian_low`. -/
structure ProcObj where
  set : ObjSet := ⟨1, 0, []⟩
  load : Bool := false
  cap : ℕ := 0

/-- The process: the C globals (`set` is `parset`; `prior` is `prior_file` if `flag_load_prior` is 1, src/allvars.c:83-84) and the
objects. -/
structure PyProc where
  set : ObjSet := ⟨0, 0, []⟩
  prior : Option CStr := none
  obj : ℕ → ProcObj := fun _ => {}

/-- Calls on object number `i`. -/
inductive ObjOp
  | setup (i low upp : ℕ) (data : CStr)
  | setPriors (i : ℕ) (file : CStr)
  | run (i : ℕ)
  deriving DecidableEq

/-- What the user sees: an exception, or an analysis with these settings and these priors. -/
inductive ObjEv
  | raised (i : ℕ)
  | ran (i : ℕ) (set : ObjSet) (prior : Option CStr)
  deriving DecidableEq

/-- Object `i` becomes `o`. -/
def PyProc.put (s : PyProc) (i : ℕ) (o : ProcObj) : PyProc := { s with obj := fun k => if k = i then o else s.obj k }

/-- The settings and the length of `logz_line` that `setup` gives an object: gmodel pymica.pyx:601-610, pmap 775-779 (always two
components), vmap 1023-1032, mmap 1260-1269; `nmap` (1427-1473) leaves both.  A negative length makes `PyMem_Malloc` fail. -/
def ProcObj.setup (mode : Mode) (low upp : ℕ) (data : CStr) (o : ProcObj) : ProcObj :=
  match mode with
  | .nmap => { o with set := { o.set with data := data } }
  | .pmap => { o with set := ⟨2, 1, data⟩, cap := 1 }
  | _ => { o with set := ⟨low, upp + 1 - low, data⟩, cap := upp + 1 - low }

/-- `setup` raises after the object is changed and before `set_parset` (pymica.pyx:612-614, 1034-1036, 1271-1273; `pmap` and `nmap` have
no such lines). -/
def setupRaises (mode : Mode) (o : ProcObj) : Bool :=
  mode ≠ .pmap ∧ mode ≠ .nmap ∧ o.load = true ∧ 1 < o.set.diff

/-- How many entries of `logz` a run writes: src/mc_line.c:72-108, mc_pmap.c:67-80, mc_vmap.c:68-87 with the global
`num_gaussian_diff`, mc_mmap.c:65, 83; `nmap` has no such stage. -/
def logzNeed (mode : Mode) (s : ObjSet) : ℕ :=
  match mode with
  | .nmap => 0
  | .mmap => 1
  | _ => s.diff

/-- One call.  `mode i` is the class of object `i`.
* `setup`: see above; then `set_parset`, src/read.c:23-27, pymica.pyx:663, 849, 1085, 1322, 1473.
* `set_priors`, pymica.pyx:462-474: the flags and the name first (src/init.c:508-514; `prior_file` has 256 characters,
  src/allvars.h:28, 96), then the check.
* `run`, pymica.pyx:666-676, 853-863, 1088-1097, 1325-1335, 1476-1484: `read_data`, `init` and the stages use the C globals, `logz_line`
  is the object's; the prior file is loaded by src/dnest_line.c:192-194, dnest_pmap.c:100-102, dnest_vmap.c:113-115,
  dnest_mmap.c:159-161, and not in the continuum stage. -/
def objStep (mode : ℕ → Mode) (s : PyProc) : ObjOp → Res (PyProc × List ObjEv)
  | .setup i low upp data =>
    let o := (s.obj i).setup (mode i) low upp data
    if setupRaises (mode i) o then .ok (s.put i o, [.raised i])
    else .ok ({ s.put i o with set := o.set }, [])
  | .setPriors i file =>
    if file.length < 256 then
      let o := { s.obj i with load := true }
      .ok ({ s.put i o with prior := some file }, if 1 < o.set.diff then [.raised i] else [])
    else .ub
  | .run i =>
    if logzNeed (mode i) s.set ≤ (s.obj i).cap then
      .ok (s, [.ran i s.set (if mode i = .nmap then none else s.prior)])
    else .ub

/-- A session: one call after the other. -/
def objSession (mode : ℕ → Mode) : List ObjOp → PyProc → Res (PyProc × List ObjEv)
  | [], s => .ok (s, [])
  | op :: ops, s => objStep mode s op >>= fun a => objSession mode ops a.1 >>= fun b => .ok (b.1, a.2 ++ b.2)

end Mica
