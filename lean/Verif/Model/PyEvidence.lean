import Verif.Model.PySession
import Mathlib.Data.Real.Basic

/-!
# The evidences of a Python session (python/pymica/pymica.pyx): `logz_line`, `logz_con`, `get_evidence`

`logz_line` is a pointer of the object.  Cython sets it to NULL when the object is made; `setup` lets it point to a new block
(the old one is never freed, `__cdealloc__` is not a name Cython knows).  The evidences the sampler finds are inputs.
Calls of `setup` that raise an exception are not modelled.
-/

namespace Mica

/-- What an object knows about evidences, and the files `data/evidence.txt` (number of components and evidence per line) and
`data/evidence_con.txt`.  `low`, `upp`, `diff`: `num_gaussian_low`, `num_gaussian_upper`, `num_gaussian_diff` (pymica.pyx:66-96,
601-608).  `block`: where `logz_line` points to, `none` for NULL; entries never written are `none`. -/
structure EvObj where
  low : ℕ := 1
  upp : ℕ := 1
  diff : ℕ := 0
  block : Option (List (Option ℝ)) := none
  con : ℝ := 0
  flags : MainCfg := {}
  file : Option (List (ℕ × ℝ)) := none
  fileCon : Option ℝ := none

/-- The object made from a parameter file (`__cinit__`, pymica.pyx:506-527, 930-951, 1163-1184, 1401-1422): `get_parset` copies the
numbers of components; `logz_line` stays NULL. -/
def EvObj.fromFile (low upp : ℕ) : EvObj := { low := low, upp := upp, diff := upp + 1 - low }

/-- `setup`: gmodel pymica.pyx:601-610, pmap 775-779 (always two components), vmap 1023-1032, mmap 1260-1269; `nmap` has no such lines.
`PyMem_Malloc` gives NULL for what was a negative number of bytes. -/
def EvObj.setup (mode : Mode) (low upp : ℕ) (o : EvObj) : EvObj :=
  if mode = .nmap then o
  else
    let lu := if mode = .pmap then (2, 2) else (low, upp)
    { o with
      low := lu.1
      upp := lu.2
      diff := lu.2 + 1 - lu.1
      block := if lu.2 + 1 < lu.1 then none else some (List.replicate (lu.2 + 1 - lu.1) none) }

/-- The assignments `logz[0] = …`, `logz[1] = …`; outside the block or through NULL is undefined. -/
def writeLogz (block : Option (List (Option ℝ))) (vals : List ℝ) : Res (Option (List (Option ℝ))) :=
  match block with
  | none => if vals = [] then .ok none else .ub
  | some b => if vals.length ≤ b.length then .ok (some (vals.map some ++ b.drop vals.length)) else .ub

/-- What the loop of `mc_line` (src/mc_line.c:71-112), `mc_pmap` (src/mc_pmap.c:66-84), `mc_vmap` (src/mc_vmap.c:67-91) writes, and
`mc_mmap` (src/mc_mmap.c:83), which has no loop.  `z j`: what `dnest` returns for `low + j` components.  `dnest_line` and the others
return 0.0 without calling `dnest` if parameter names are asked for (src/dnest_line.c:27, 209-214). -/
def lineVals (mode : Mode) (paraName : Bool) (diff : ℕ) (z : ℕ → ℝ) : List ℝ :=
  (List.range (if mode = .mmap then 1 else diff)).map fun j => if paraName then 0 else z j

/-- `run`, `post_run`, `decompose`, `restart`, `print_para_names` (lines at `PyCall.flags`); `zc` is the evidence of the continuum stage
if there is one.  `evidence.txt` is written by src/mc_line.c:138-150, mc_pmap.c:109-121, mc_vmap.c:111-123, mc_mmap.c:104-111, unless
parameter names are asked for; `evidence_con.txt` by src/mc_con.c:147-154. -/
def EvObj.call (mode : Mode) (c : PyCall) (z : ℕ → ℝ) (zc : ℝ) (o : EvObj) : Res EvObj :=
  let m := c.flags mode o.flags
  if mode = .nmap then
    if c = .decompose ∨ c = .paraNames then .ok o else .ok { o with flags := m, con := zc, fileCon := some zc }
  else
    writeLogz o.block (lineVals mode m.paraName o.diff z) >>= fun b =>
    let noCon := (mode = .vmap ∧ c = .run) ∨ c = .postRun ∨ c = .decompose
    .ok { o with
      flags := m
      block := b
      con := if noCon then o.con else zc
      file := if m.paraName then o.file else some ((lineVals mode m.paraName o.diff z).zipIdx.map fun p => (o.low + p.2, p.1))
      fileCon := if noCon ∨ m.paraName then o.fileCon else some zc }

/-- Entry `low + j` of the dictionary of `get_evidence`: key `logz_%d` and `logz_line[j]`.  Reading through NULL, outside the block, or
what was never written is undefined. -/
def EvObj.entry (o : EvObj) (j : ℕ) : Res (CStr × ℝ) :=
  match o.block.bind fun b => b[j]? with
  | some (some v) => .ok ("logz_".toList ++ dec (o.low + j), v)
  | _ => .ub

/-- The loop of `get_evidence`. -/
def evEntries (o : EvObj) : List ℕ → Res (List (CStr × ℝ))
  | [] => .ok []
  | j :: js => o.entry j >>= fun e => evEntries o js >>= fun l => .ok (e :: l)

/-- `get_evidence` of the classes with lines (pymica.pyx:725-733, 912-920, 1146-1154, 1384-1392). -/
def EvObj.evidence (o : EvObj) : Res (List (CStr × ℝ)) := evEntries o (List.range (o.upp + 1 - o.low))

/-- What is done with an object. -/
inductive EvOp
  | setup (low upp : ℕ)
  | call (c : PyCall) (z : ℕ → ℝ) (zc : ℝ)

/-- One after the other. -/
def evRun (mode : Mode) : List EvOp → EvObj → Res EvObj
  | [], o => .ok o
  | .setup low upp :: ops, o => evRun mode ops (o.setup mode low upp)
  | .call c z zc :: ops, o => o.call mode c z zc >>= evRun mode ops

end Mica
