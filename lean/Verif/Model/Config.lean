import Verif.Model.Text
import Verif.Model.Sampler
import Mathlib.Algebra.Order.Round

/-!
# Reading the parameter file: src/read.c:36-530, and the sampler's option file:
cdnest/dnest.c:1228-1352

`atof` is a parameter.  Everything happens on the root task; the broadcast is by specification.
-/

namespace Mica

/-! ## The table of tags -/

/-- `DOUBLE`, `STRING`, `INT` (src/read.c:41-43). -/
inductive Kind where
  | double | string | int
  deriving DecidableEq, Repr

/-- One entry of `pardict`: tag, type and the member of `parset` at `addr`. -/
structure TagEntry where
  tag : List Char
  kind : Kind
  field : String

/-- Shorthand for an entry. -/
def mkTag (t : String) (k : Kind) (f : String) : TagEntry := ⟨t.toList, k, f⟩

/-- The table built in src/read.c:53-256, in order. -/
def parTags : List TagEntry :=
  [mkTag "FileDir" .string "file_dir", mkTag "DataFile" .string "data_file",
   mkTag "TypeModel" .int "model", mkTag "MaxNumberSaves" .int "max_num_saves",
   mkTag "FlagUniformVarParams" .int "flag_uniform_var_params",
   mkTag "FlagUniformTranFuns" .int "flag_uniform_tranfuns",
   mkTag "FlagLongtermTrend" .int "flag_trend", mkTag "FlagNegativeResp" .int "flag_negative_resp",
   mkTag "LagLimitLow" .double "lag_limit_low", mkTag "LagLimitUpp" .double "lag_limit_upper",
   mkTag "WidthLimitLow" .double "width_limit_low", mkTag "WidthLimitUpp" .double "width_limit_upper",
   mkTag "NumGaussianLow" .int "num_gaussian_low", mkTag "NumGaussianUpp" .int "num_gaussian_upper",
   mkTag "NumCompLow" .int "num_gaussian_low", mkTag "NumCompUpp" .int "num_gaussian_upper",
   mkTag "FlagConSysErr" .int "flag_con_sys_err", mkTag "FlagLineSysErr" .int "flag_line_sys_err",
   mkTag "TypeLagPrior" .int "type_lag_prior", mkTag "StrLagPrior" .string "str_lag_prior",
   mkTag "StrWidthPrior" .string "str_width_prior", mkTag "StrRatioPrior" .string "str_ratio_prior",
   mkTag "TypeTF" .int "type_tf", mkTag "StrTypeTFMix" .string "str_type_tf_mix",
   mkTag "FlagLagPositivity" .int "flag_lag_posivity", mkTag "FlagGap" .int "flag_gap",
   mkTag "StrGapPrior" .string "str_gap_prior", mkTag "NumberParticles" .int "num_particles",
   mkTag "NewLevelIntervalFactor" .double "new_level_interval_factor",
   mkTag "SaveIntervalFactor" .double "save_interval_factor",
   mkTag "ThreadStepsFactor" .double "thread_steps_factor",
   mkTag "MaxNumberLevels" .int "max_num_levels", mkTag "BacktrackingLength" .double "lam",
   mkTag "StrengthEqualPush" .double "beta", mkTag "PTol" .double "max_ptol",
   mkTag "NumPointRec" .int "nd_rec", mkTag "TimeRecLowExt" .double "trec_low_ext",
   mkTag "TimeRecUppExt" .double "trec_upp_ext"]

/-- The table of the sampler's option file (cdnest/dnest.c:1242-1284). -/
def optTags : List TagEntry :=
  [mkTag "NumberParticles" .int "num_particles",
   mkTag "NewLevelIntervalFactor" .double "new_level_interval_factor",
   mkTag "SaveIntervalFactor" .double "save_interval_factor",
   mkTag "ThreadStepsFactor" .double "thread_steps_factor",
   mkTag "MaxNumberLevels" .int "max_num_levels", mkTag "BacktrackingLength" .double "lam",
   mkTag "StrengthEqualPush" .double "beta", mkTag "MaxNumberSaves" .int "max_num_saves",
   mkTag "PTol" .double "max_ptol"]

/-- Comment lines of the parameter file: first word starts with `#` (src/read.c:301). -/
def parComment (c : Char) : Bool := c == '#'

/-- Comment lines of the option file: first word starts with `%` or `#` (cdnest/dnest.c:1311). -/
def optComment (c : Char) : Bool := c == '%' || c == '#'

/-! ## The reading loop: src/read.c:293-333; cdnest/dnest.c:1304-1345 -/

/-- The values written so far: for each table index its text, in the order of writing; an index is in
the list exactly if its `isset` is 1. -/
abbrev Assigned := List (ℕ × List Char)

/-- The search loop: first index whose tag matches and which is not set yet (src/read.c:303-310). -/
def findTag (tags : List TagEntry) (st : Assigned) (w : List Char) : Option ℕ :=
  (List.range tags.length).find? fun i => (tags.map TagEntry.tag)[i]? == some w && !(st.any fun p => p.1 == i)

/-- One pass of the loop on the text delivered by `fgets` (src/read.c:298-332). -/
def tagLine (comment : Char → Bool) (tags : List TagEntry) (st : Assigned) (line : List Char) :
    Res Assigned :=
  match twoWords line with
  | none => .ok st
  | some (w, v) =>
    if comment (w.headD ' ') then .ok st
    else match findTag tags st w with
      | some j => .ok (st ++ [(j, v)])
      | none => .exit

/-- The loop `while(!feof(fparam))` over the pieces delivered by `fgets(str, 200, fparam)`.  A last call
that reads nothing leaves "empty" in `str`, which has one word and is skipped. -/
def tagLoop (comment : Char → Bool) (tags : List TagEntry) : Assigned → List (List Char) → Res Assigned
  | st, [] => .ok st
  | st, l :: ls => tagLine comment tags st l >>= fun st' => tagLoop comment tags st' ls

/-- The whole file. -/
def readTags (comment : Char → Bool) (tags : List TagEntry) (content : List Char) : Res Assigned :=
  tagLoop comment tags [] (fgetsAll 198 content)

/-- Contents of the member `f` of `parset`: the text of the last write to it, if any.  (Conversion of the
text to a number happens at the write in the code, here at the use.) -/
def fieldText (tags : List TagEntry) (st : Assigned) (f : String) : Option (List Char) :=
  ((st.filter fun p => (tags[p.1]?).map TagEntry.field == some f).getLast?).map Prod.snd

/-! ## Typed settings -/

/-- `(int) atof(buf2)`: truncation towards zero; out of range is undefined (src/read.c:322). -/
noncomputable def toIntC (x : ℝ) : Res ℤ :=
  let z := if 0 ≤ x then ⌊x⌋ else ⌈x⌉
  if -2147483648 ≤ z ∧ z ≤ 2147483647 then .ok z else .ub

/-- The members of `parset` that `read_parset` looks at after reading. -/
structure Config where
  model : ℤ
  uniVar : ℤ
  uniTf : ℤ
  trend : ℤ
  negResp : ℤ
  lagLow : ℝ
  lagUpp : ℝ
  widthLow : ℝ
  widthUpp : ℝ
  widthLowSet : Bool
  widthUppSet : Bool
  ngLow : ℤ
  ngUpp : ℤ
  ngDiff : ℤ
  typeLag : ℤ
  strLag : List Char
  typeTf : ℤ
  strMix : List Char
  posivity : ℤ
  ndRec : ℤ

/-- An `int` member: the text converted, else the default. -/
noncomputable def intField (atof : List Char → ℝ) (tags : List TagEntry) (st : Assigned) (f : String)
    (dflt : ℤ) : Res ℤ :=
  match fieldText tags st f with
  | some t => toIntC (atof t)
  | none => .ok dflt

/-- A `double` member. -/
noncomputable def realField (atof : List Char → ℝ) (tags : List TagEntry) (st : Assigned) (f : String)
    (dflt : ℝ) : ℝ :=
  match fieldText tags st f with
  | some t => atof t
  | none => dflt

/-- A string member. -/
def textField (tags : List TagEntry) (st : Assigned) (f : String) : List Char :=
  (fieldText tags st f).getD []

/-- The settings before the checks, with the defaults of src/read.c:262-291.  `model` and the members
`width_limit_*_isset`, `num_gaussian_diff` have no explicit default; `parset` is a global variable,
so they start as 0. -/
noncomputable def cfgOf (atof : List Char → ℝ) (st : Assigned) : Res Config :=
  intField atof parTags st "model" 0 >>= fun model =>
  intField atof parTags st "flag_uniform_var_params" 0 >>= fun uniVar =>
  intField atof parTags st "flag_uniform_tranfuns" 0 >>= fun uniTf =>
  intField atof parTags st "flag_trend" 0 >>= fun trend =>
  intField atof parTags st "flag_negative_resp" 0 >>= fun negResp =>
  intField atof parTags st "num_gaussian_low" 1 >>= fun ngLow =>
  intField atof parTags st "num_gaussian_upper" 1 >>= fun ngUpp =>
  intField atof parTags st "type_lag_prior" 0 >>= fun typeLag =>
  intField atof parTags st "type_tf" 0 >>= fun typeTf =>
  intField atof parTags st "flag_lag_posivity" 0 >>= fun posivity =>
  intField atof parTags st "nd_rec" 200 >>= fun ndRec =>
  .ok { model, uniVar, uniTf, trend, negResp, ngLow, ngUpp, typeLag, typeTf, posivity, ndRec
        lagLow := realField atof parTags st "lag_limit_low" 0
        lagUpp := realField atof parTags st "lag_limit_upper" (-1)
        widthLow := realField atof parTags st "width_limit_low" DBL_MAX
        widthUpp := realField atof parTags st "width_limit_upper" DBL_MAX
        widthLowSet := false, widthUppSet := false, ngDiff := 0
        strLag := textField parTags st "str_lag_prior"
        strMix := textField parTags st "str_type_tf_mix" }

/-! ## The checks: src/read.c:336-523, block by block -/

/-- src/read.c:345-352. -/
noncomputable def chkLag (c : Config) : Res Config :=
  if c.model = 0 ∧ c.lagUpp ≤ c.lagLow then .exit else .ok c

/-- src/read.c:354-361: which width limits are set. -/
noncomputable def setWidthFlags (c : Config) : Config :=
  { c with widthLowSet := decide (c.widthLow < DBL_MAX), widthUppSet := decide (c.widthUpp < DBL_MAX) }

/-- src/read.c:363-387. -/
noncomputable def chkWidth (c : Config) : Res Config :=
  if c.widthLowSet = true ∧ c.widthLow ≤ 0 then .exit
  else if c.widthUppSet = true ∧ c.widthUpp ≤ 0 then .exit
  else if c.widthUppSet = true ∧ c.widthLowSet = true ∧ c.widthUpp ≤ c.widthLow then .exit
  else .ok c

/-- src/read.c:389-404: at least two components and lag prior type 4 for `pmap` (model 1). -/
def chkPmap (c : Config) : Res Config :=
  if c.model = 1 then
    if c.strLag.headD '\x00' = '\x00' then .exit
    else .ok { c with ngLow := if c.ngLow < 2 then 2 else c.ngLow
                      ngUpp := if c.ngUpp < 2 then 2 else c.ngUpp, typeLag := 4 }
  else .ok c

/-- src/read.c:406-424, and `num_gaussian_diff` at 426. -/
def chkComp (c : Config) : Res Config :=
  if c.ngLow ≤ 0 then .exit
  else if c.ngUpp ≤ 0 then .exit
  else if c.ngUpp < c.ngLow then .exit
  else .ok { c with ngDiff := c.ngUpp - c.ngLow + 1 }

/-- src/read.c:428-431. -/
def oneComp (c : Config) : Config := if c.ngUpp = 1 then { c with typeLag := 0 } else c

/-- src/read.c:433-456. -/
def chkPrior (load : Bool) (c : Config) : Res Config :=
  if load = true ∧ 1 < c.ngDiff then .exit
  else if c.ndRec < 0 then .exit
  else if c.typeLag < 0 ∨ 4 < c.typeLag then .exit
  else if 2 ≤ c.typeLag ∧ c.typeLag ≤ 3 ∧ c.ngLow < 3 then .exit
  else .ok c

/-- src/read.c:458-477, including the condition at 473 that is never true. -/
noncomputable def chkFlags (c : Config) : Res Config :=
  if c.trend < 0 then .exit
  else if 2 < c.trend then .exit
  else if c.posivity ≠ 0 ∧ c.lagLow < 0 then .exit
  else if c.negResp < 0 ∧ 1 < c.negResp then .exit
  else if c.negResp = 1 ∧ c.model ≠ 0 then .exit
  else .ok c

/-- src/read.c:483-487. -/
def negPrior (c : Config) : Config :=
  if c.negResp = 1 ∧ c.typeLag = 0 then { c with typeLag := 1 } else c

/-- src/read.c:488-497. -/
def chkTf (c : Config) : Res Config :=
  if c.posivity = 1 ∧ 1 < c.typeTf ∧ c.typeTf ≤ 3 then .exit
  else if c.uniTf ≠ 0 ∧ c.model ≠ 0 then .exit
  else .ok c

/-- src/read.c:498-526: `mmap` (model 3). -/
def chkMmap (c : Config) : Res Config :=
  if c.model = 3 then
    if c.strMix.headD '\x00' = '\x00' then .exit
    else if c.strMix.length < 2 then .exit
    else if c.strMix.any (fun ch => decide (ch < '0') || decide ('3' < ch)) then .exit
    else .ok { c with posivity := 0, ngLow := c.strMix.length, ngUpp := c.strMix.length }
  else .ok c

/-- All checks; none beyond the first for `nmap` (model 4) (src/read.c:336-342). -/
noncomputable def checkCfg (load : Bool) (c : Config) : Res Config :=
  if c.model < 0 ∨ 4 < c.model then .exit
  else if c.model = 4 then .ok c
  else
    chkLag c >>= fun c => chkWidth (setWidthFlags c) >>= fun c => chkPmap c >>= fun c =>
    chkComp c >>= fun c => chkPrior load (oneComp c) >>= fun c => chkFlags c >>= fun c =>
    chkTf (negPrior c) >>= chkMmap

/-- `read_parset` (src/read.c:36-530). -/
noncomputable def readParset (atof : List Char → ℝ) (load : Bool) (content : List Char) : Res Config :=
  readTags parComment parTags content >>= fun st => cfgOf atof st >>= checkCfg load

/-! ## Sampler options passed through a file: src/init.c:454-500, cdnest/dnest.c:1228-1352 -/

/-- The nine options of the sampler (src/allvars.h:134-139, cdnest/dnest.h). -/
structure SampOpts where
  numParticles : ℤ
  newLevelFactor : ℝ
  saveFactor : ℝ
  threadFactor : ℝ
  maxLevels : ℤ
  lam : ℝ
  beta : ℝ
  maxSaves : ℤ
  ptol : ℝ

/-- Value of the text that `printf("%.2f")` produces: the nearest multiple of 0.01 (ties are resolved by
the C library; here upwards). -/
noncomputable def printf2 (x : ℝ) : ℝ := ((_root_.round (x * 100) : ℤ) : ℝ) / 100

/-- What the sampler works with after `write_options_line` wrote the settings and `options_load` read
them back (src/init.c:473-481: `%d` for the integers, `%.2f` for the others). -/
noncomputable def throughFile (o : SampOpts) : SampOpts :=
  { o with newLevelFactor := printf2 o.newLevelFactor, saveFactor := printf2 o.saveFactor
           threadFactor := printf2 o.threadFactor, lam := printf2 o.lam, beta := printf2 o.beta
           ptol := printf2 o.ptol }

/-! ## Numbers of steps derived from the options: cdnest/dnest.c:1369-1371, 1466-1472 -/

/-- Conversion of a `double` to `unsigned int`: truncation, undefined out of range. -/
noncomputable def toU32 (x : ℝ) : Res ℕ := if -1 < x ∧ x < 4294967296 then .ok ⌊x⌋₊ else .ub

/-- `options.thread_steps`, `options.new_level_interval`, `options.save_interval`. -/
structure Intervals where
  threadSteps : ℕ
  newLevel : ℕ
  save : ℕ

/-- cdnest/dnest.c:1369-1371 and the check at 1466-1472.  `dnest_totaltask * options.thread_steps` is
unsigned 32-bit arithmetic.  The file names in between are not modelled. -/
noncomputable def deriveIntervals (numParams tasks numParticles : ℕ) (threadFactor newFactor saveFactor : ℝ) :
    Res Intervals :=
  toU32 (numParams * threadFactor * numParticles) >>= fun ts =>
  toU32 (((tasks * ts % 4294967296 : ℕ) : ℝ) * newFactor) >>= fun nl =>
  toU32 (((tasks * ts % 4294967296 : ℕ) : ℝ) * saveFactor) >>= fun sv =>
  if nl < tasks * ts % 4294967296 then .exit else .ok ⟨ts, nl, sv⟩

end Mica
