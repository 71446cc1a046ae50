import Verif.Model.RunPlan
import Mathlib.Data.Int.Notation

/-!
# Sessions of the Python interface (python/pymica/pymica.pyx): `run`, `post_run`, `decompose`, `restart`,
`print_para_names`, `prepare`

The flags the C code looks at are global variables; they are 0 when the module is loaded and are changed by `set_argv`
only.  `read_data`, `init`, `end_run`, called around every stage, are elsewhere in the model.
-/

namespace Mica

/-- The functions of an object that start a computation. -/
inductive PyCall
  | run | postRun | decompose | restart | paraNames
  deriving DecidableEq

/-- `set_argv`, src/init.c:498-506. -/
def setArgv (pp de re pn ps : Bool) (m : MainCfg) : MainCfg :=
  { m with postprc := pp, decomp := de, restart := re, paraName := pn, postsample := ps }

/-- The flags after the call.  `gmodel`: pymica.pyx:666-723, `pmap`: 853-910, `vmap`: 1088-1144, `mmap`: 1325-1382,
`nmap`: 1476-1522; `decompose` and `print_para_names` of `nmap` print a message only. -/
def PyCall.flags (mode : Mode) : PyCall → MainCfg → MainCfg
  | .run, m => m
  | .postRun, m => setArgv true false false false false m
  | .decompose, m => if mode = .nmap then m else setArgv true true false false false m
  | .restart, m => setArgv false false true false false m
  | .paraNames, m => if mode = .nmap then m else setArgv false false false true false m

/-- `mc_line`, `mc_pmap`, `mc_vmap`, `mc_mmap`, none for `nmap`. -/
def pyLine (mode : Mode) (dir : CStr) (m : MainCfg) (low diff : ℕ) : Res (List Act) :=
  if mode = .nmap then .ok [] else mcLine mode dir m m.postprc low diff

/-- What the call does when the flags are `m`; same lines as `PyCall.flags`.  Only `run` and `post_run` of `vmap` leave
the continuum stage out. -/
def PyCall.acts (mode : Mode) (dir : CStr) (low diff : ℕ) : PyCall → MainCfg → Res (List Act)
  | .run, m =>
    (if mode = .vmap then .ok [] else mcCon dir m m.postprc) >>= fun a =>
    pyLine mode dir m low diff >>= fun b => .ok (a ++ b)
  | .postRun, m =>
    let m := setArgv true false false false false m
    if mode = .nmap then mcCon dir m m.postprc else pyLine mode dir m low diff
  | .decompose, m =>
    if mode = .nmap then .ok [] else pyLine mode dir (setArgv true true false false false m) low diff
  | .restart, m =>
    let m1 := setArgv true false true false false m
    mcCon dir m1 m1.postprc >>= fun a =>
    pyLine mode dir (setArgv false false true false false m1) low diff >>= fun b => .ok (a ++ b)
  | .paraNames, m =>
    if mode = .nmap then .ok []
    else
      let m := setArgv false false false true false m
      mcCon dir m m.postprc >>= fun a => pyLine mode dir m low diff >>= fun b => .ok (a ++ b)

/-- The flags after a history of calls, from the zeros of a fresh process on. -/
def flagsAfter (mode : Mode) (h : List PyCall) : MainCfg := h.foldl (fun m c => c.flags mode m) {}

/-! ## `prepare` -/

/-- The files in `<dir>/data/` with their contents. -/
abbrev DataDir := CStr → Option (List Char)

/-- `sum(1 for line in f)`: lines that end with a newline, and what is behind the last one, if anything. -/
def pyLines (s : List Char) : ℕ :=
  (s.filter (· == '\n')).length + if s.getLast?.getD '\n' = '\n' then 0 else 1

/-- `"%d"%z`. -/
def decZ (z : ℤ) : CStr := (toString z).toList

/-- `sample1d.txt_%d`, `restart_dnest1d.txt_%d`, `restart_dnest1d.txt_%d_%d` (pymica.pyx:487, 490, 496). -/
def sampleName (i : ℕ) : CStr := "sample1d.txt".toList ++ '_' :: dec i
def restartName (i : ℕ) : CStr := "restart_dnest1d.txt".toList ++ '_' :: dec i
def snapName (i : ℕ) (k : ℤ) : CStr := "restart_dnest1d.txt".toList ++ '_' :: (dec i ++ '_' :: decZ k)

/-- `shutil.copy(src, dst)` for an existing `src`. -/
def DataDir.copy (d : DataDir) (src dst : CStr) : DataDir := fun x => if x = dst then d src else d x

/-- The loop of `prepare` (pymica.pyx:483-497) over the numbers of components `i, i + 1, …`, `k` of them, with the
current value of `last_steps`.  The second component is `false` if an exception is raised. -/
def prepareLoop : ℕ → ℕ → Option ℤ → DataDir → DataDir × Bool
  | _, 0, _, d => (d, true)
  | i, k + 1, last, d =>
    match (match last with
      | some n => some n
      | none => (d (sampleName i)).map fun s => (pyLines s : ℤ) - 1) with
    | none => (d, false)
    | some n =>
      if d (snapName i n) = none then (d, false)
      else prepareLoop (i + 1) k (some n) (d.copy (snapName i n) (restartName i))

/-- `prepare(last_steps)`, pymica.pyx:476-497. -/
def pyPrepare (low upp : ℕ) (last : Option ℤ) (d : DataDir) : DataDir × Bool := prepareLoop low (upp + 1 - low) last d

end Mica
