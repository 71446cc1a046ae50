import Verif.Model.Getopt

/-!
# Which stages a call of the program runs, and the arguments it hands to the sampler

`begin_run` (src/run.c) runs the continuum stage and one of the line stages; each builds an argument list in the
manner of a command line and hands it to `dnest` (cdnest/dnest.c), which reads it with `my_getopt`.  A run is
described by the list of things done (`Act`).  The parameter file, the data and the computations of a stage are
elsewhere in the model.
-/

namespace Mica

/-- `enum model_type`, src/allvars.h. -/
inductive Mode
  | gmodel | pmap | vmap | mmap | nmap
  deriving DecidableEq

/-- What `dnest` reads from its arguments.  Simplification: `-t`, `-c` and `-m`, which no caller hands over, are not
recorded. -/
structure DnestCfg where
  restart : Option CStr := none
  save : CStr := "restart_dnest.txt".toList
  postprc : Bool := false
  limits : Bool := false
  suffix : CStr := []
  tag : CStr := []
  deriving DecidableEq

/-- cdnest/dnest.c:84. -/
def dnestOpts : List Char := "r:s:pt:clx:g:m:".toList

/-- The `switch`, cdnest/dnest.c:86-148; the arrays have `STR_MAX_LENGTH` = 156 characters (cdnest/dnest.h:19,
cdnest/dnestvars.h:88, 92). -/
def dnestSwitch (c : DnestCfg) : Char × Option CStr → Res DnestCfg
  | ('r', some f) => copyStr 156 f >>= fun g => .ok { c with restart := some g }
  | ('s', some f) => copyStr 156 f >>= fun g => .ok { c with save := g }
  | ('p', _) => .ok { c with postprc := true }
  | ('l', _) => .ok { c with limits := true }
  | ('x', some f) => copyStr 156 f >>= fun g => .ok { c with suffix := g }
  | ('g', some f) => copyStr 156 f >>= fun g => .ok { c with tag := g }
  | _ => .ok c

/-- `dnest` up to its broadcasts, cdnest/dnest.c:68-150. -/
def dnestArgs (argv : List CStr) : Res DnestCfg :=
  getoptLoop dnestOpts dnestSwitch ((argv.map List.length).sum + 1) (GState.init argv) {} >>= fun r => .ok r.1

/-- `sprintf(postfix, "_%d", num_gaussian)`. -/
def postfixC (n : ℕ) : CStr := '_' :: (toString n).toList

/-- Handing over an array of `slots` strings of 256 characters (`MICA_MAX_STR_LENGTH`, src/allvars.h:28) filled with
the arguments: `malloc`, `strcpy` and `strcat` in src/mc_con.c:35-60, src/mc_line.c:34-107, src/mc_pmap.c:33-87,
src/mc_vmap.c:34-93, src/mc_mmap.c:32-86. -/
def fillArgv (slots : ℕ) (argv : List CStr) : Res (List CStr) :=
  if argv.length ≤ slots ∧ ∀ a ∈ argv, a.length < 256 then .ok argv else .ub

/-- The arguments of `mc_con`, src/mc_con.c:35-60. -/
def conArgv (dir : CStr) (restart postprc : Bool) : Res (List CStr) :=
  fillArgv 9 (["dnest".toList, "-s".toList, dir ++ "/data/restart_dnest.txt".toList, "-l".toList] ++
    (if restart then ["-r".toList, dir ++ "/".toList ++ "data/restart_dnest.txt".toList] else []) ++
    if postprc then ["-p".toList] else [])

/-- The arguments of `mc_line` for `n` components, src/mc_line.c:34-107. -/
def lineArgv (dir : CStr) (restart postprc : Bool) (n : ℕ) : Res (List CStr) :=
  fillArgv 11 (["dnest".toList, "-s".toList, dir ++ "/data/restart_dnest1d.txt".toList ++ postfixC n, "-l".toList] ++
    (if postprc then ["-p".toList] else []) ++ ["-g".toList, "1d".toList, "-x".toList, postfixC n] ++
    if restart then ["-r".toList, dir ++ "/".toList ++ "data/restart_dnest1d.txt".toList ++ postfixC n] else [])

/-- The arguments of `mc_pmap`, `mc_vmap`, `mc_mmap` for `n` components, src/mc_pmap.c:33-87, src/mc_vmap.c:34-93,
src/mc_mmap.c:32-86. -/
def otherArgv (dir : CStr) (restart postprc : Bool) (n : ℕ) : Res (List CStr) :=
  fillArgv 11 (["dnest".toList, "-s".toList, dir ++ "/data/restart_dnest1d.txt".toList, "-l".toList] ++
    (if restart then ["-r".toList, dir ++ "/".toList ++ "data/restart_dnest1d.txt".toList] else []) ++
    (if postprc then ["-p".toList] else []) ++ ["-g".toList, "1d".toList, "-x".toList, postfixC n])

/-- The kinds of files the sampler writes, cdnest/dnest.c:1375-1463. -/
inductive SFile
  | sample | sampleInfo | levels | state | post | postInfo | limits
  deriving DecidableEq

def SFile.base : SFile → CStr
  | .sample => "/sample".toList
  | .sampleInfo => "/sample_info".toList
  | .levels => "/levels".toList
  | .state => "/sampler_state".toList
  | .post => "/posterior_sample".toList
  | .postInfo => "/posterior_sample_info".toList
  | .limits => "/limits".toList

/-- The order in which the names are built. -/
def SFile.all : List SFile := [.sample, .sampleInfo, .levels, .state, .post, .postInfo, .limits]

/-- The name of a file of the sampler in the directory `sdir`, cdnest/dnest.c:1375-1463. -/
def sfName (sdir : CStr) (c : DnestCfg) (f : SFile) : CStr := sdir ++ f.base ++ c.tag ++ ".txt".toList ++ c.suffix

/-- Building the names, cdnest/dnest.c:1375-1463: `strcpy` and `strcat` into arrays of 156 characters; the length
is looked at afterwards. -/
def sfNames (sdir : CStr) (c : DnestCfg) : List SFile → Res Unit
  | [] => .ok ()
  | f :: l => copyStr 156 (sfName sdir c f) >>= fun _ => sfNames sdir c l

/-- The directory of the samples: `strcpy(dnest_data_dir, parset.file_dir); strcat(dnest_data_dir, "/data/")`
(src/dnest_con.c:66-67, src/dnest_line.c:211-212 and the same in dnest_pmap.c, dnest_vmap.c, dnest_mmap.c), copied
into an array of 156 characters (cdnest/dnest.c:954). -/
def sampleDir (dir : CStr) : Res CStr := copyStr 256 (dir ++ "/data/".toList) >>= copyStr 156

/-- What happens in a run, in order.  `stage` is `none` for the continuum and the number of components otherwise. -/
inductive Act
  /-- `dnest_restart`: the sampler state is read from the file. -/
  | load (stage : Option ℕ) (file : CStr)
  /-- `dnest_run`: new samples; snapshots go to `save`, samples to `sample`. -/
  | sample (stage : Option ℕ) (save sample : CStr)
  /-- `dnest_postprocess`: the posterior sample is drawn from the samples in the file. -/
  | posterior (stage : Option ℕ) (sample post : CStr)
  /-- `postprocess_con`, `postprocess_line`, …: means and standard deviations. -/
  | summary (stage : Option ℕ)
  /-- Light curves with errors. -/
  | recon (stage : Option ℕ)
  /-- Light curves of single components. -/
  | decomp (stage : Option ℕ)
  /-- The file of parameter names and ranges. -/
  | names (stage : Option ℕ)
  /-- `evidence_con.txt`, `evidence.txt`. -/
  | evidence (con : Bool)
  deriving DecidableEq

/-- `dnest` for arguments `argv`, cdnest/dnest.c:68-186. -/
def dnestActs (dir : CStr) (stage : Option ℕ) (argv : List CStr) : Res (List Act) :=
  dnestArgs argv >>= fun c =>
  sampleDir dir >>= fun sdir =>
  sfNames sdir c SFile.all >>= fun _ =>
  .ok ((if c.postprc then [] else
      (match c.restart with
        | some f => [Act.load stage f]
        | none => []) ++ [.sample stage c.save (sfName sdir c .sample)]) ++
    [.posterior stage (sfName sdir c .sample) (sfName sdir c .post)])

/-- `mc_con`, src/mc_con.c:24-180. -/
def mcCon (dir : CStr) (m : MainCfg) (postprc : Bool) : Res (List Act) :=
  conArgv dir m.restart postprc >>= fun argv =>
  dnestActs dir none argv >>= fun l =>
  .ok (l ++ [.summary none, .recon none] ++ if m.paraName then [] else [.evidence true])

/-- The sampler call of a line stage, src/dnest_line.c:207-214, src/dnest_pmap.c:115-122, src/dnest_vmap.c:125-132,
src/dnest_mmap.c:174-181: the names are always written, the sampler is called unless `-n` was given. -/
def dnestLineActs (dir : CStr) (m : MainCfg) (n : ℕ) (argv : Res (List CStr)) : Res (List Act) :=
  argv >>= fun a =>
  if m.paraName then .ok [.names (some n)]
  else dnestActs dir (some n) a >>= fun l => .ok (.names (some n) :: l)

/-- Behind the sampler, src/mc_line.c:116-126, src/mc_pmap.c:93-104, src/mc_vmap.c:102-107, src/mc_mmap.c:90-100:
`dec` is the condition of the mode for the decomposition. -/
def afterActs (m : MainCfg) (dec : Bool) (n : ℕ) : List Act :=
  if m.paraName || m.postsample then []
  else [.summary (some n), .recon (some n)] ++ if dec && m.decomp then [.decomp (some n)] else []

/-- One number of components in `mode`. -/
def lineStage (mode : Mode) (dir : CStr) (m : MainCfg) (postprc : Bool) (n : ℕ) : Res (List Act) :=
  match mode with
  | .gmodel => dnestLineActs dir m n (lineArgv dir m.restart postprc n) >>= fun l =>
      .ok (l ++ afterActs m (decide (1 < n)) n)
  | .pmap => dnestLineActs dir m n (otherArgv dir m.restart postprc n) >>= fun l =>
      .ok (l ++ afterActs m (decide (1 < n)) n)
  | .vmap => dnestLineActs dir m n (otherArgv dir m.restart postprc n) >>= fun l => .ok (l ++ afterActs m false n)
  | .mmap => dnestLineActs dir m n (otherArgv dir m.restart postprc n) >>= fun l => .ok (l ++ afterActs m true n)
  | .nmap => .ok []

/-- The loop over the numbers of components `low, …, low + k - 1`. -/
def lineLoop (mode : Mode) (dir : CStr) (m : MainCfg) (postprc : Bool) : ℕ → ℕ → Res (List Act)
  | _, 0 => .ok []
  | n, k + 1 => lineStage mode dir m postprc n >>= fun a => lineLoop mode dir m postprc (n + 1) k >>= fun b =>
      .ok (a ++ b)

/-- `mc_line`, `mc_pmap`, `mc_vmap`, `mc_mmap` (which runs `low` only). -/
def mcLine (mode : Mode) (dir : CStr) (m : MainCfg) (postprc : Bool) (low diff : ℕ) : Res (List Act) :=
  lineLoop mode dir m postprc low (if mode = .mmap then 1 else diff) >>= fun l =>
  .ok (l ++ if m.paraName then [] else [.evidence false])

/-- `begin_run` after `init`, src/run.c:44-80, for `diff` numbers of components from `low` on. -/
def beginRun (mode : Mode) (dir : CStr) (m : MainCfg) (low diff : ℕ) : Res (List Act) :=
  (if (m.postprc = false ∧ m.decomp = false ∧ mode ≠ .vmap) ∨ mode = .nmap then
      mcCon dir m (if m.restart then true else m.postprc)
    else .ok []) >>= fun a =>
  if mode = .nmap then .ok a
  else mcLine mode dir m (if ((m.postprc = false ∧ m.decomp = false ∧ mode ≠ .vmap) ∧ m.restart) then false
      else m.postprc) low diff >>= fun b => .ok (a ++ b)

/-- `main` behind the command line, src/main.c:132-146: `-v` and `-e` end the run. -/
def runActs (mode : Mode) (dir : CStr) (m : MainCfg) (low diff : ℕ) : Res (List Act) :=
  if m.version || m.examine then .ok [] else beginRun mode dir m low diff

/-! ## The files in `<dir>/data/` -/

/-- The files a run writes. -/
inductive OutFile
  /-- src/read.c:1099. -/
  | normalization
  /-- src/mc_con.c:79, :87, :149. -/
  | pcon | trendCon | evidenceCon
  /-- src/mc_line.c:142, src/mc_pmap.c:113, src/mc_vmap.c:115, src/mc_mmap.c:106. -/
  | evidence
  /-- The files of the sampler, cdnest/dnest.c:1375-1463, for the continuum or a number of components. -/
  | sampler (stage : Option ℕ) (f : SFile)
  /-- Snapshot after `k` saves, cdnest/dnest.c:1801; `number` is the number of components if it is in the name of the
  file to which snapshots go (`mc_line` only). -/
  | snapshotCon (k : ℕ)
  | snapshotLine (number : Option ℕ) (k : ℕ)
  /-- src/mc_line.c:236, :245, src/mc_vmap.c:675, :684, src/mc_mmap.c:299, :308. -/
  | pall (n : ℕ) | trend (n : ℕ)
  /-- src/dnest_line.c:397, src/dnest_pmap.c:218, src/dnest_vmap.c:244. -/
  | names (n : ℕ)
  /-- src/line_decomp.c:210, src/line_decomp_mmap.c:210. -/
  | pline (n comp : ℕ)
  /-- cdnest/dnest.c:1159: `status` and tag; `true` for the line stages. -/
  | status (line : Bool)
  /-- cdnest/dnest.c:1476. -/
  | options
  deriving DecidableEq

/-- The digits printed by `%d`. -/
def dec (n : ℕ) : CStr := (toString n).toList

/-- The name of a file inside `<dir>/data/`.  The sampler's names have a second slash in front, which the file system
ignores. -/
def OutFile.name : OutFile → CStr
  | .normalization => "normalization.txt".toList
  | .pcon => "pcon.txt".toList
  | .trendCon => "trend_con.txt".toList
  | .evidenceCon => "evidence_con.txt".toList
  | .evidence => "evidence.txt".toList
  | .sampler none f => f.base.drop 1 ++ ".txt".toList
  | .sampler (some n) f => f.base.drop 1 ++ "1d.txt".toList ++ '_' :: dec n
  | .snapshotCon k => "restart_dnest.txt".toList ++ '_' :: dec k
  | .snapshotLine none k => "restart_dnest1d.txt".toList ++ '_' :: dec k
  | .snapshotLine (some n) k => "restart_dnest1d.txt".toList ++ '_' :: (dec n ++ '_' :: dec k)
  | .pall n => "pall.txt".toList ++ '_' :: dec n
  | .trend n => "trend.txt".toList ++ '_' :: dec n
  | .names n => "para_names_line.txt".toList ++ '_' :: dec n
  | .pline n c => "pline.txt".toList ++ '_' :: (dec n ++ '_' :: ("comp".toList ++ dec c))
  | .status false => "status.txt".toList
  | .status true => "status1d.txt".toList
  | .options => "DNEST_OPTIONS".toList

end Mica
