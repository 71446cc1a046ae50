import Verif.Model.Config
import Verif.Model.ParNames

/-!
# The sampler's option files

What `mica2` writes (src/init.c:412-500), what the sampler reads (cdnest/dnest.c:1228-1352), and the second
reader of the same file in `mica2` itself (src/read.c:1337-1372).  `atof` is a parameter.
-/

namespace Mica

/-! ## The files written: src/init.c:412-500 -/

/-- Lines closed by newlines. -/
def closed (ls : List (List Char)) : List Char := (ls.map fun l => l ++ ['\n']).flatten

/-- `printf("%.2f", x)`: the multiple of 0.01 chosen by `printf2`, with at least one digit before the point
and two after it.  (A negative number that rounds to zero is printed as `-0.00` in C, here as `0.00`;
the value is the same.) -/
noncomputable def fmt2 (x : ℝ) : List Char :=
  let z : ℤ := _root_.round (x * 100)
  (if z < 0 then ['-'] else []) ++
    (Nat.toDigits 10 (z.natAbs / 100) ++ ['.', (z.natAbs / 10 % 10).digitChar, (z.natAbs % 10).digitChar])

/-- First lines of both files (src/init.c:422-426, 464-468); the fifth one names the stage. -/
def optHead (what : String) : List (List Char) :=
  ["# File containing parameters for DNest.".toList,
   "# Put comments at the top, or at the end of the line.".toList,
   "# Do not change the order of lines.".toList,
   "# Lines beginning with '#' are regarded as comments.".toList,
   what.toList, [], []]

/-- The settings of the continuum stage (src/init.c:428-432): constants. -/
def conSettings : List (List Char) :=
  ["MaxNumberSaves            2000".toList, "PTol                      0.1".toList,
   "NumberParticles           2".toList, "NewLevelIntervalFactor    5".toList,
   "ThreadStepsFactor         20".toList]

/-- The list of options and "default values" in the comment at the end of the file of the continuum stage
(src/init.c:436-444), without the comment sign. -/
def conListed : List (List Char) :=
  ["MaxNumberSaves           2000 #maximum number of saves".toList,
   "PTol                     0.1   #likelihood tolerance in loge".toList,
   "NumberParticles          2  #number of particles".toList,
   "NewLevelIntervalFactor   5  #new level interval".toList,
   "SaveIntervalFactor       5  #particular saving interval".toList,
   "ThreadStepsFactor        20 #thread steps before communications between cores".toList,
   "MaxNumberLevels          0  #maximum number of levels; unlimited for 0".toList,
   "BacktrackingLength       10.0  #backforward tracking length (lambda)".toList,
   "StrengthEqualPush        100.0 #strength to force equal push (beta)".toList]

/-- The same of the line stage (src/init.c:483-491). -/
def lineListed : List (List Char) :=
  ["MaxNumberSaves           2000 #maximum number of saves".toList,
   "PTol                     0.1   #likelihood tolerance in loge".toList,
   "NumberParticles          1  #number of particles".toList,
   "NewLevelIntervalFactor   1  #new level interval".toList,
   "SaveIntervalFactor       1  #particular saving interval".toList,
   "ThreadStepsFactor        1 #thread steps before communications between cores".toList,
   "MaxNumberLevels          0  #maximum number of levels; unlimited for 0".toList,
   "BacktrackingLength       10.0  #backforward tracking length (lambda)".toList,
   "StrengthEqualPush        100.0 #strength to force equal push (beta)".toList]

/-- The comment block: a heading and the list, each line behind a comment sign; the last one is not closed
(src/init.c:435-444, 482-491). -/
def optTail (listed : List (List Char)) : List (List Char) × List Char :=
  ("# Full options and their default values (if not specified) are:".toList ::
    listed.dropLast.map (fun l => "# ".toList ++ l), "# ".toList ++ listed.getLastD [])

/-- `write_options_con` (src/init.c:412-451). -/
def writeOptionsCon : List Char :=
  closed (optHead "# DNest options for continuum reconstruction" ++ conSettings ++ [[], []] ++
    (optTail conListed).1) ++ (optTail conListed).2

/-- The settings of the line stage (src/init.c:470-478). -/
noncomputable def lineSettings (o : SampOpts) : List (List Char) :=
  ["MaxNumberSaves            ".toList ++ fmtInt o.maxSaves,
   "PTol                      ".toList ++ fmt2 o.ptol,
   "NumberParticles           ".toList ++ fmtInt o.numParticles,
   "NewLevelIntervalFactor    ".toList ++ fmt2 o.newLevelFactor,
   "SaveIntervalFactor        ".toList ++ fmt2 o.saveFactor,
   "ThreadStepsFactor         ".toList ++ fmt2 o.threadFactor,
   "MaxNumberLevels           ".toList ++ fmtInt o.maxLevels,
   "BacktrackingLength        ".toList ++ fmt2 o.lam,
   "StrengthEqualPush         ".toList ++ fmt2 o.beta]

/-- `write_options_line` (src/init.c:454-500), with the members of `parset` in `o`. -/
noncomputable def writeOptionsLine (o : SampOpts) : List Char :=
  closed (optHead "# DNest options for continuum-line time lag analysis" ++ lineSettings o ++ [[], []] ++
    (optTail lineListed).1) ++ (optTail lineListed).2

/-! ## The sampler's reader: cdnest/dnest.c:1228-1352 -/

/-- An `unsigned int` option: `(unsigned int) atof(buf2)` (cdnest/dnest.c:1335), else the default. -/
noncomputable def uintField (atof : List Char → ℝ) (st : Assigned) (f : String) (dflt : ℕ) : Res ℕ :=
  match fieldText optTags st f with
  | some t => toU32 (atof t)
  | none => .ok dflt

/-- `options_load` with a file (cdnest/dnest.c:1228-1352): defaults of 1289-1297, then the lines, then the
interval of saves follows that of levels if it is not set (1348-1352).  Conversions happen after
the whole file is read, in the code at each line: a file with both an unknown tag and a number
out of range stops here and is undefined there. -/
noncomputable def loadOptions (atof : List Char → ℝ) (content : List Char) : Res SampOpts :=
  readTags optComment optTags content >>= fun st =>
  uintField atof st "num_particles" 1 >>= fun np =>
  uintField atof st "max_num_levels" 0 >>= fun ml =>
  uintField atof st "max_num_saves" 10000 >>= fun ms =>
  let nl := realField atof optTags st "new_level_interval_factor" 2
  .ok { numParticles := np, maxLevels := ml, maxSaves := ms
        newLevelFactor := nl
        saveFactor := realField atof optTags st "save_interval_factor" nl
        threadFactor := realField atof optTags st "thread_steps_factor" 10
        lam := realField atof optTags st "lam" 10
        beta := realField atof optTags st "beta" 100
        ptol := realField atof optTags st "max_ptol" (1 / 10) }

/-! ## The second reader: src/read.c:1337-1372 -/

/-- `atoi`: 0 if there is no number. -/
def atoiC (s : List Char) : ℤ := (scanInt s).getD 0

/-- The texts in `buf` in the passes of `while(!feof(fp)) { fgets(buf, n+2, fp); …` for a file that is not
empty: the pieces, and the last one once more if reading it did not run into the end of the file,
that is, if it ends with a newline or fills the buffer. -/
def fgetsPasses (n : ℕ) (content : List Char) : List (List Char) :=
  fgetsAll n content ++
    (match (fgetsAll n content).getLast? with
     | some l => if l.getLast? = some '\n' ∨ l.length = n + 1 then [l] else []
     | none => [])

/-- The loop of `get_num_particles` (src/read.c:1351-1369). -/
def numLoop : List (List Char) → Res ℤ
  | [] => .ok 1
  | b :: bs =>
    if b.headD ' ' = '#' then numLoop bs
    else if (nextWord b).1 = [] then numLoop bs
    else match twoWords b with
      | none => .exit
      | some (w, v) => if w = "NumberParticles".toList then .ok (atoiC v) else numLoop bs

/-- `get_num_particles` (src/read.c:1337-1372).  The first pass on an empty file looks at `buf`, which was
never written. -/
def getNumParticles (content : List Char) : Res ℤ :=
  if content = [] then .ub else numLoop (fgetsPasses 254 content)

/-! ## Options of the two stages: src/mc_con.c:655-675, src/mc_line.c:2349-2363 -/

/-- `mc_con_init` (src/mc_con.c:655-675) and the options the continuum stage then samples with.  `user` is
the content of the option file given by the user, if any.  Returns the options and `parset`
afterwards. -/
noncomputable def conStageOpts (atof : List Char → ℝ) (user : Option (List Char)) (parset : SampOpts) :
    Res (SampOpts × SampOpts) :=
  match user with
  | none => loadOptions atof writeOptionsCon >>= fun o => .ok (o, parset)
  | some t => getNumParticles t >>= fun np => loadOptions atof t >>= fun o =>
      .ok (o, { parset with numParticles := np })

/-- First part of `mc_line_init` (src/mc_line.c:2349-2363; the same in mc_mmap.c:820-834 and
mc_vmap.c:249-263) and the options the line stage then samples with. -/
noncomputable def lineStageOpts (atof : List Char → ℝ) (user : Option (List Char)) (parset : SampOpts) :
    Res SampOpts :=
  match user with
  | none => loadOptions atof (writeOptionsLine parset)
  | some t => getNumParticles t >>= fun _ => loadOptions atof t

end Mica
