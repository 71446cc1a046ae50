import Verif.Model.Res
import Verif.Model.Getopt
import Mathlib.Logic.Function.Basic

/-!
# The directories a run starts with

src/run.c:19-42 (`begin_run`), src/read.c:541-551, 674, 1096-1104, src/mc_con.c:655-675 and src/mc_line.c:2345-2362 with
src/init.c:412-420, 454-462 and src/read.c:1337-1346, src/dnest_con.c:66-68, and of the sampler cdnest/dnest.c:936-941,
1754-1785 (`dnest_check_directory`), 1300-1305, 1474-1482, 1159-1160.

A file system is what stands at every absolute path; names are looked up as POSIX says.  There are no links, everything may
be read and written, and the disk is never full.  Lengths of names: C90.
-/

namespace Mica

/-- What stands at a path. -/
inductive FsNode where
  | dir
  | file
  deriving DecidableEq

/-- A file system: absolute paths, as lists of names from the root, to what stands there. -/
abbrev FsTree := List CStr → Option FsNode

/-- The parts of a path name between the slashes. -/
def fsParts : CStr → List CStr
  | [] => [[]]
  | c :: s => if c = '/' then [] :: fsParts s
    else match fsParts s with
      | [] => [[c]]
      | h :: r => (c :: h) :: r

/-- Looking up the parts one after the other (path resolution of POSIX): each but the last has to be a directory; empty parts
and `.` stay, `..` goes up. -/
def fsWalk (t : FsTree) : List CStr → List CStr → Option (List CStr)
  | p, [] => some p
  | p, c :: cs =>
    if t p = some .dir then
      if c = [] ∨ c = ['.'] then fsWalk t p cs
      else if c = ['.', '.'] then fsWalk t p.dropLast cs
      else fsWalk t (p ++ [c]) cs
    else none

/-- Where a name with these characters starts: at the root if it begins with a slash, otherwise in the current directory. -/
def fsBase (cwd : List CStr) (s : CStr) : List CStr := if s.head? = some '/' then [] else cwd

/-- The path that a name means. -/
def fsResolve (t : FsTree) (cwd : List CStr) (s : CStr) : Option (List CStr) :=
  if s = [] then none else fsWalk t (fsBase cwd s) (fsParts s)

/-- `stat`: what stands there. -/
def fsStat (t : FsTree) (cwd : List CStr) (s : CStr) : Option FsNode := (fsResolve t cwd s).bind t

/-- `fopen(s, "w")`: the file system afterwards, nothing if it returns `NULL`. -/
def fsOpenW (t : FsTree) (cwd : List CStr) (s : CStr) : Option FsTree :=
  match fsResolve t cwd s with
  | none => none
  | some p => if t p = some .dir then none else some (Function.update t p (some .file))

/-- `mkdir(s, …)`: the file system afterwards, nothing if it fails.  Slashes at the end do not count. -/
def fsMkdir (t : FsTree) (cwd : List CStr) (s : CStr) : Option FsTree :=
  match fsWalk t (fsBase cwd s) ((fsParts s).reverse.dropWhile (· = [])).reverse with
  | none => none
  | some p => if t p = none then some (Function.update t p (some .dir)) else none

/-- `fopen(s, "w")` followed by the test for `NULL` and `exit`. -/
def openOrExit (t : FsTree) (cwd : List CStr) (s : CStr) : Res FsTree :=
  match fsOpenW t cwd s with
  | some t' => .ok t'
  | none => .exit

/-- `dnest_check_directory`, cdnest/dnest.c:1754-1785; a failing `mkdir` is only reported. -/
def checkDirectory (t : FsTree) (cwd : List CStr) (s : CStr) : Res FsTree :=
  match fsStat t cwd s with
  | none => .ok ((fsMkdir t cwd s).getD t)
  | some .dir => .ok t
  | some .file => .exit

/-- What decides about the start of a run: `FileDir`, `DataFile`, the file of sampler options given on the command line
(empty if none), and whether the first stage is the one of the continuum. -/
structure StartCfg where
  fileDir : CStr
  dataFile : CStr
  optFile : CStr
  con : Bool

/-- The name of the options file written, src/mc_con.c:662, src/mc_line.c:2353. -/
def optName (con : Bool) : CStr := if con then "OPTIONSCON".toList else "OPTIONS1D".toList

/-- The name of the status file, cdnest/dnest.c:1159 with the tag of the stage. -/
def statusName (con : Bool) : CStr := if con then "status.txt".toList else "status1d.txt".toList

/-- The file of sampler options that is used, src/mc_con.c:660-668, src/mc_line.c:2351-2359. -/
def optPath (s : StartCfg) : CStr :=
  if s.optFile = [] then s.fileDir ++ ("/param/".toList ++ optName s.con) else s.optFile

/-- `mc_con_init`, `mc_line_init`: the options are written, or looked into if the file was given. -/
def stageOptions (t : FsTree) (cwd : List CStr) (s : StartCfg) : Res FsTree :=
  if s.optFile = [] then openOrExit t cwd (optPath s)
  else if fsStat t cwd (optPath s) = none then .exit else .ok t

/-- A run up to the end of `setup` of its first stage: the files it needs and opens, in order.  The status file is not tested
for `NULL` before it is written to (cdnest/dnest.c:1160, 620-622): undefined behaviour. -/
def startRun (t : FsTree) (cwd : List CStr) (s : StartCfg) : Res FsTree :=
  if fsStat t cwd "data/".toList ≠ some .dir then .exit
  else if fsStat t cwd "param/".toList ≠ some .dir then .exit
  else if fsStat t cwd (s.fileDir ++ '/' :: s.dataFile) = none then .exit
  else do
    let t ← openOrExit t cwd (s.fileDir ++ "/data/normalization.txt".toList)
    let t ← stageOptions t cwd s
    let t ← checkDirectory t cwd (s.fileDir ++ "/data/".toList)
    if fsStat t cwd (optPath s) = none then .exit
    else do
      let t ← openOrExit t cwd (s.fileDir ++ ("/data/".toList ++ "/DNEST_OPTIONS".toList))
      match fsOpenW t cwd (s.fileDir ++ ("/data/".toList ++ '/' :: statusName s.con)) with
      | none => .ub
      | some t => .ok t

/-- `if not os.path.exists(a): os.mkdir(b)`; a failing `mkdir` raises an exception. -/
def pyEnsure (t : FsTree) (cwd : List CStr) (a b : CStr) : Res FsTree :=
  if fsStat t cwd a = none then
    match fsMkdir t cwd b with
    | some t' => .ok t'
    | none => .exit
  else .ok t

/-- What the constructor of the Python class does to the directories, python/pymica/pymica.pyx:52-59. -/
def pyDirs (t : FsTree) (cwd : List CStr) : Res FsTree := do
  let t ← pyEnsure t cwd "./data".toList "./data/".toList
  pyEnsure t cwd "./param".toList "./param/".toList

end Mica
