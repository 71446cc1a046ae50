import Verif.Model.Options
import Verif.Model.PyPriors
import Verif.Model.PyAccess

/-!
# Settings of the Python interface (python/pymica/pymica.pyx)

The member `parset` of an object, what the functions `setup` of the five classes make of it, and the parameter file that they
write.  An exception is `none`; the session is taken to end there.  Lengths of texts against the sizes of the arrays are in C113.
-/

namespace Mica

/-- Members of `parset` (src/allvars.h:98-143) that the Python interface sets; 0/1 integers as in C. -/
structure PyParset where
  fileDir : List Char
  dataFile : List Char
  model : ℤ
  typeTf : ℤ
  strMix : List Char
  uniVar : ℤ
  uniTf : ℤ
  trend : ℤ
  lagLow : ℝ
  lagUpp : ℝ
  wLowSet : Bool
  wUppSet : Bool
  wLow : ℝ
  wUpp : ℝ
  posivity : ℤ
  negResp : ℤ
  ngLow : ℤ
  ngUpp : ℤ
  ngDiff : ℤ
  conSys : ℤ
  lineSys : ℤ
  ndRec : ℤ
  recLow : ℝ
  recUpp : ℝ
  strWidth : List Char
  typeLag : ℤ
  strLag : List Char
  strRatio : List Char
  flagGap : ℤ
  strGap : List Char
  opts : SampOpts

/-- A new object (pymica.pyx:65-105); members that are not named there are zero, like everything in a new object. -/
noncomputable def PyParset.fresh : PyParset :=
  { fileDir := "./".toList, dataFile := [], model := 0, typeTf := 0, strMix := [], uniVar := 0, uniTf := 0, trend := 0
    lagLow := 0, lagUpp := -1, wLowSet := false, wUppSet := false, wLow := 0, wUpp := 0, posivity := 0, negResp := 0
    ngLow := 1, ngUpp := 1, ngDiff := 0, conSys := 0, lineSys := 0, ndRec := 200, recLow := 0, recUpp := 0
    strWidth := [], typeLag := 1, strLag := [], strRatio := [], flagGap := 0, strGap := []
    opts := { numParticles := 1, newLevelFactor := 1, saveFactor := 1, threadFactor := 1, maxLevels := 0, lam := 10
              beta := 100, maxSaves := 2000, ptol := 1 / 10 } }

/-- Arguments of the functions `setup`; a class that lacks an argument does not look at it.  `dataFile = none` means that
`data` is given. -/
structure PyArgs where
  dataFile : Option (List Char)
  typeTf : List Char
  uniVar : Bool
  uniTf : ℤ
  trend : ℤ
  posivity : Bool
  negResp : Bool
  lagLimit : ℝ × ℝ
  comps : ℤ × ℤ
  widthLimit : Option (Option ℝ × Option ℝ)
  conSys : Bool
  lineSys : Bool
  ndRec : ℤ
  recExt : ℝ × ℝ
  typeLag : ℤ
  lagPrior : Option (List (ℝ × ℝ))
  ratioPrior : Option (List (ℝ × ℝ))
  widthPrior : Option (List (ℝ × ℝ))
  gap : Bool
  gapPrior : Option (List (ℝ × ℝ))
  opts : SampOpts

/-- 0 or 1. -/
def boolZ (b : Bool) : ℤ := if b then 1 else 0

/-- Values of the C type `int`; others raise an `OverflowError` at the assignment. -/
def IntC (z : ℤ) : Prop := -2147483648 ≤ z ∧ z ≤ 2147483647

instance (z : ℤ) : Decidable (IntC z) := inferInstanceAs (Decidable (_ ∧ _))

/-- All integers among the arguments. -/
def PyArgs.ints (a : PyArgs) : List ℤ :=
  [a.uniTf, a.trend, a.comps.1, a.comps.2, a.ndRec, a.typeLag, a.opts.numParticles, a.opts.maxLevels, a.opts.maxSaves]

/-- `type_tf` (pymica.pyx:394-407): `type_tf` and, for a text of digits, `str_type_tf_mix`. -/
def pyTypeTf (s : List Char) : Option (ℤ × Option (List Char)) :=
  if s = "gaussian".toList then some (0, none)
  else if s = "tophat".toList then some (1, none)
  else if s = "gamma".toList then some (2, none)
  else if s = "exp".toList then some (3, none)
  else if s ≠ [] ∧ s.all (fun c => c == '0' || c == '1' || c == '2' || c == '3') then some (0, some s)
  else none

/-- `basis.setup` (pymica.pyx:363-459), with the values for the arguments that the classes pass on. -/
def baseSetup (typeTf : List Char) (trend : ℤ) (posivity negResp lineSys : Bool) (a : PyArgs) (p : PyParset) :
    Option PyParset :=
  (pyTypeTf typeTf).map fun t =>
    { p with
      dataFile := a.dataFile.getD "data/data_input.txt".toList
      typeTf := t.1, strMix := t.2.getD p.strMix, trend := trend
      posivity := boolZ posivity, negResp := boolZ negResp, conSys := boolZ a.conSys, lineSys := boolZ lineSys
      ndRec := a.ndRec, recLow := a.recExt.1, recUpp := a.recExt.2, opts := a.opts }

/-- Limits of widths (pymica.pyx:592-599, 810-817, 1015-1022, 1252-1259). -/
def widthSetup (a : PyArgs) (p : PyParset) : PyParset :=
  match a.widthLimit with
  | none => p
  | some (l, u) =>
    { p with wLowSet := l.isSome || p.wLowSet, wLow := l.getD p.wLow
             wUppSet := u.isSome || p.wUppSet, wUpp := u.getD p.wUpp }

/-- Number of components, lag limits and lag prior of `gmodel`, `vmap`, `mmap` (pymica.pyx:587-630, 1010-1050, 1247-1287).
`load` is `flag_load_prior`. -/
noncomputable def compSetup (load : Bool) (a : PyArgs) (p : PyParset) : Option PyParset :=
  let q := { widthSetup a { p with lagLow := a.lagLimit.1, lagUpp := a.lagLimit.2 } with
    ngLow := a.comps.1, ngUpp := a.comps.2, ngDiff := a.comps.2 - a.comps.1 + 1, typeLag := a.typeLag }
  if load = true ∧ 1 < q.ngDiff then none
  else match a.lagPrior with
    | none => some q
    | some ps =>
      if 1 < q.ngUpp then (pyPairs q.ngUpp.toNat ps).map fun s => { q with typeLag := 4, strLag := s }
      else some { q with typeLag := 0 }

/-- Width prior (pymica.pyx:632-644, 819-831, 1052-1066, 1289-1303). -/
noncomputable def widthPriorSetup (a : PyArgs) (p : PyParset) : Option PyParset :=
  match a.widthPrior with
  | none => some { p with strWidth := [] }
  | some ps => (pyPairs p.ngUpp.toNat ps).map fun s => { p with strWidth := s }

/-- Gaps (pymica.pyx:646-658, 833-845, 1068-1080, 1305-1317). -/
noncomputable def gapSetup (a : PyArgs) (p : PyParset) : Option PyParset :=
  if a.gap then
    match a.gapPrior with
    | none => some { p with flagGap := 1 }
    | some ps => (pyGap ps).map fun s => { p with flagGap := 1, strGap := s }
  else some { p with flagGap := 0, strGap := [] }

/-- `setup` of the five classes; `Mode` names the class.  `gmodel`: pymica.pyx:532-664 (`model` stays what it is), `pmap`:
747-851, `vmap`: 967-1086, `mmap`: 1205-1323, `nmap`: 1427-1473 (`basis.setup` gets `flag_trend = 0`, whatever the argument
is). -/
noncomputable def pySetParset (cls : Mode) (load : Bool) (a : PyArgs) (p : PyParset) : Option PyParset :=
  if ¬ ∀ z ∈ a.ints, IntC z then none
  else match cls with
  | .gmodel =>
    (baseSetup a.typeTf a.trend a.posivity a.negResp a.lineSys a p).bind fun p =>
    (compSetup load a { p with uniVar := boolZ a.uniVar, uniTf := a.uniTf }).bind fun p =>
    (widthPriorSetup a p).bind (gapSetup a)
  | .pmap =>
    (baseSetup a.typeTf a.trend a.posivity false a.lineSys a p).bind fun p =>
    (a.lagPrior.bind (pyPairs 2)).bind fun s =>
    (match a.ratioPrior with
      | none => some p.strRatio
      | some ps => pyPairs ps.length ps).bind fun r =>
    (widthPriorSetup a (widthSetup a { p with ngLow := 2, ngUpp := 2, ngDiff := 1, model := 1, typeLag := 4
                                              strLag := s, strRatio := r })).bind (gapSetup a)
  | .vmap =>
    (baseSetup a.typeTf a.trend a.posivity false a.lineSys a p).bind fun p =>
    if a.uniTf ≠ 0 ∧ a.uniTf ≠ 1 then none
    else (compSetup load a { p with model := 2, uniVar := boolZ a.uniVar, uniTf := a.uniTf }).bind fun p =>
    (widthPriorSetup a p).bind (gapSetup a)
  | .mmap =>
    (baseSetup a.typeTf a.trend a.posivity a.negResp a.lineSys a p).bind fun p =>
    (compSetup load a { p with model := 3, uniVar := boolZ a.uniVar, uniTf := a.uniTf }).bind fun p =>
    (widthPriorSetup a p).bind (gapSetup a)
  | .nmap =>
    (baseSetup "gaussian".toList 0 false false false a p).map fun p =>
    { p with model := 4, uniVar := boolZ a.uniVar }

/-- Any number of calls of `setup`; between them `set_priors` may be called (the `load` of each call). -/
noncomputable def pySetups (cls : Mode) : List (Bool × PyArgs) → PyParset → Option PyParset
  | [], p => some p
  | (l, a) :: as, p => (pySetParset cls l a p).bind (pySetups cls as)

/-! ## The parameter file: `print_parset`, pymica.pyx:153-215 -/

/-- `"{:30}{}"`. -/
def padded (t : String) (v : List Char) : List Char := t.toList ++ (List.replicate (30 - t.length) ' ' ++ v)

/-- The settings in the file (pymica.pyx:160-200), in order; `num` is the text `repr` of a `float`. -/
noncomputable def paramEntries (num : ℝ → List Char) (p : PyParset) : List (String × List Char) :=
  [("FileDir", p.fileDir), ("DataFile", p.dataFile), ("TypeModel", fmtInt p.model), ("TypeTF", fmtInt p.typeTf),
   ("StrTypeTFMix", p.strMix), ("MaxNumberSaves", fmtInt p.opts.maxSaves), ("FlagUniformVarParams", fmtInt p.uniVar),
   ("FlagUniformTranFuns", fmtInt p.uniTf), ("FlagLongtermTrend", fmtInt p.trend)] ++
  (if p.model = 0 ∨ p.model = 2 ∨ p.model = 3 then [("LagLimitLow", num p.lagLow), ("LagLimitUpp", num p.lagUpp)] else []) ++
  (if p.wLowSet then [("WidthLimitLow", num p.wLow)] else []) ++
  (if p.wUppSet then [("WidthLimitUpp", num p.wUpp)] else []) ++
  [("FlagLagPositivity", fmtInt p.posivity), ("FlagNegativeResp", fmtInt p.negResp), ("NumCompLow", fmtInt p.ngLow),
   ("NumCompUpp", fmtInt p.ngUpp), ("FlagConSysErr", fmtInt p.conSys), ("FlagLineSysErr", fmtInt p.lineSys),
   ("NumPointRec", fmtInt p.ndRec), ("TimeRecLowExt", num p.recLow), ("TimeRecUppExt", num p.recUpp)] ++
  (if p.strWidth ≠ [] then [("StrWidthPrior", p.strWidth)] else []) ++
  [("TypeLagPrior", fmtInt p.typeLag)] ++
  (if p.typeLag = 4 then [("StrLagPrior", p.strLag)] else []) ++
  (if p.strRatio ≠ [] then [("StrRatioPrior", p.strRatio)] else []) ++
  [("FlagGap", fmtInt p.flagGap)] ++
  (if p.strGap ≠ [] then [("StrGapPrior", p.strGap)] else [])

/-- `"{:5}"` of a number, which goes to the right. -/
def right5 (v : List Char) : List Char := List.replicate (5 - v.length) ' ' ++ v

/-- Lines in front (pymica.pyx:156-158). -/
def paramHead : List (List Char) :=
  ["# lines starting with '#' are regarded as comments and are neglected".toList,
   "# if want to turn on the line, remove the beginning '#'".toList, [],
   "#==============================================================".toList]

/-- Lines behind (pymica.pyx:201-213). -/
noncomputable def paramTail (num : ℝ → List Char) (o : SampOpts) : List (List Char) :=
  ["#==============================================================".toList,
   "# options for cdnest sampling".toList,
   "# use the default values or do not turn them on IF NOT familiar with them".toList, [],
   padded "# PTol" (right5 (num o.ptol) ++ "# likelihood tolerance in loge".toList),
   padded "# NumberParticles" (right5 (fmtInt o.numParticles) ++ "# number of particles".toList),
   padded "# NewLevelIntervalFactor" (right5 (num o.newLevelFactor) ++ "# new level interval".toList),
   padded "# SaveIntervalFactor" (right5 (num o.saveFactor) ++ "# particle saving interval".toList),
   padded "# ThreadStepsFactor" (right5 (num o.threadFactor) ++ "# thread steps before communications between cores".toList),
   padded "# MaxNumberLevels" (right5 (fmtInt o.maxLevels) ++ "# maximum number of levels; unlimited for 0".toList),
   padded "# BacktrackingLength" (right5 (num o.lam) ++ "# backforward tracking length (lambda)".toList),
   padded "# StrengthEqualPush" (right5 (num o.beta) ++ "# strength to force equal push (beta)".toList),
   "#==============================================================".toList]

/-- The lines of `param/param_input`. -/
noncomputable def paramLines (num : ℝ → List Char) (p : PyParset) : List (List Char) :=
  paramHead ++ (paramEntries num p).map (fun e => padded e.1 e.2) ++ paramTail num p.opts

/-- The file `param/param_input`. -/
noncomputable def paramText (num : ℝ → List Char) (p : PyParset) : List Char := closed (paramLines num p)

/-- The options of the sampler after `read_parset` (src/read.c:282-291 for the defaults). -/
noncomputable def parOpts (atof : List Char → ℝ) (st : Assigned) : Res SampOpts :=
  intField atof parTags st "num_particles" 1 >>= fun numParticles =>
  intField atof parTags st "max_num_saves" 2000 >>= fun maxSaves =>
  intField atof parTags st "max_num_levels" 0 >>= fun maxLevels =>
  .ok { numParticles, maxSaves, maxLevels
        newLevelFactor := realField atof parTags st "new_level_interval_factor" 1
        saveFactor := realField atof parTags st "save_interval_factor" 1
        threadFactor := realField atof parTags st "thread_steps_factor" 1
        lam := realField atof parTags st "lam" 10
        beta := realField atof parTags st "beta" 100
        ptol := realField atof parTags st "max_ptol" (1 / 10) }

end Mica
