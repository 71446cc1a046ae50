import Verif.Model.Joint

/-!
# The default callbacks of the sampler library (cdnest/dnest.c)

They are used when the caller of `dnest()` leaves pointers of the function set empty.
-/

namespace Mica

/-- `enum PRIOR_TYPE`, cdnest/dnestvars.h:26. -/
inductive PriorType where
  | uniform | gaussian | log
deriving DecidableEq

/-- What `setup` copies from the arguments of `dnest()` (cdnest/dnest.c:969-983): `dnest_param_range`,
`dnest_prior_type`, `dnest_prior_info`.  Simplification: all three arguments are given. -/
structure DefCfg (n : Nat) where
  lo : Fin n → ℝ
  hi : Fin n → ℝ
  ptype : Fin n → PriorType
  mean : Fin n → ℝ
  sd : Fin n → ℝ

/-- One parameter of `dnest_from_prior`, cdnest/dnest.c:2072-2085; `u` is `dnest_rand()`, `z` is
`dnest_randn()`. -/
noncomputable def defDraw {n : Nat} (c : DefCfg n) (i : Fin n) (u z : ℝ) : Res ℝ :=
  match c.ptype i with
  | .gaussian => dnestWrap (z * c.sd i + c.mean i) (c.lo i) (c.hi i)
  | .log => .ok (Real.exp (Real.log (c.lo i) + u * (Real.log (c.hi i) - Real.log (c.lo i))))
  | .uniform => .ok (c.lo i + u * (c.hi i - c.lo i))

/-- The loop of `dnest_from_prior`, cdnest/dnest.c:2065-2087, over the first `k` parameters; `r i` are
the uniform and the Gaussian number of parameter `i`, `mem` what the memory held before. -/
noncomputable def defFromPrior {n : Nat} (c : DefCfg n) (r : Fin n → ℝ × ℝ) (mem : Fin n → ℝ) :
    ℕ → Res (Fin n → ℝ)
  | 0 => .ok mem
  | k + 1 => do
    let pm ← defFromPrior c r mem k
    if h : k < n then
      let x ← defDraw c ⟨k, h⟩ (r ⟨k, h⟩).1 (r ⟨k, h⟩).2
      return Function.update pm ⟨k, h⟩ x
    else return pm

/-- The contribution of a parameter to `logH`, cdnest/dnest.c:2104-2117. -/
noncomputable def defTerm {n : Nat} (c : DefCfg n) (i : Fin n) (x : ℝ) : ℝ :=
  match c.ptype i with
  | .uniform => 0
  | .log => -Real.log x
  | .gaussian => -0.5 * ((x - c.mean i) / c.sd i) ^ 2

/-- Step width of the two default moves: `dnest_perturb` uses the whole range (cdnest/dnest.c:2097),
`dnest_perturb_limit` the limits of a level (cdnest/dnest.c:2131-2143). -/
noncomputable def defWidth {n : Nat} (c : DefCfg n) (limit : Bool) (s : ConStep n) (which : Fin n) : ℝ :=
  if limit then
    let wl := if s.levelUpdate - 5 > s.sizeLevels - 15 then s.sizeLevels - 15 else s.levelUpdate - 5
    if wl > 0 then (s.limits (wl - 1) which).2 - (s.limits (wl - 1) which).1
    else c.hi which - c.lo which
  else c.hi which - c.lo which

/-- `dnest_perturb` (`limit = false`, cdnest/dnest.c:2089-2119) and `dnest_perturb_limit`
(`limit = true`, cdnest/dnest.c:2121-2166).  The random index is the first of the stream. -/
noncomputable def defPerturb {n : Nat} (c : DefCfg n) (limit : Bool) : Perturb n := fun s pm =>
  match s.cands with
  | [] => .hang
  | which :: _ => do
    let x ← dnestWrap (pm which + s.h * defWidth c limit s which) (c.lo which) (c.hi which)
    return (Function.update pm which x, (0 - defTerm c which (pm which)) + defTerm c which x)

/-! ## Which callbacks are used -/

/-- An entry of the function set: empty, given by the caller, or put in by the library. -/
inductive Callback where
  | user | dflt | dfltLimit | sameAsCal
deriving DecidableEq

/-- `DNestFptrSet`, cdnest/dnest.h; `none` is NULL. -/
structure FptrSet where
  fromPrior : Option Callback
  printParticle : Option Callback
  readParticle : Option Callback
  cal : Option Callback
  calInitial : Option Callback
  calRestart : Option Callback
  perturb : Option Callback
  restartAction : Option Callback
  acceptAction : Option Callback
  killAction : Option Callback

/-- `dnest_malloc_fptrset`, cdnest/dnest.c:1730-1746. -/
def mallocFptrset : FptrSet := ⟨none, none, none, none, none, none, none, none, none, none⟩

/-- `dnest_check_fptrset`, cdnest/dnest.c:1653-1728; `flag` is the global `dnest_flag_limits`. -/
def checkFptrset (flag : ℕ) (f : FptrSet) : Res FptrSet := do
  let fp := f.fromPrior.or (some .dflt)
  let pp := f.printParticle.or (some .dflt)
  let rp := f.readParticle.or (some .dflt)
  match f.cal with
  | none => .exit
  | some cal =>
    return { fromPrior := fp
             printParticle := pp
             readParticle := rp
             cal := some cal
             calInitial := f.calInitial.or (some .sameAsCal)
             calRestart := f.calRestart.or (some .sameAsCal)
             perturb := f.perturb.or (some (if flag = 0 then .dflt else .dfltLimit))
             restartAction := f.restartAction.or (some .dflt)
             acceptAction := f.acceptAction.or (some .dflt)
             killAction := f.killAction.or (some .dflt) }

/-- Beginning of one call of `dnest()`, cdnest/dnest.c:46-157: the function set is completed with the
value `dnest_flag_limits` has at that moment; then the flag is reset and `-l` is looked for.  `optL`
says whether `-l` is among the arguments.  Returns the completed function set and the new flag, which
is also what decides whether `limits` is allocated (cdnest/dnest.c:1035, 1076). -/
def dnestBegin (flag : ℕ) (optL : Bool) (f : FptrSet) : Res (FptrSet × ℕ) := do
  let f' ← checkFptrset flag f
  return (f', if optL then 1 else 0)

/-- Several calls of `dnest()` in one process, each with its own function set; the flag is a global
variable that starts at 0 (cdnest/dnestvars.c:67). -/
def dnestCalls : ℕ → List (Bool × FptrSet) → Res (List (FptrSet × ℕ))
  | _, [] => .ok []
  | flag, (l, f) :: cs => do
    let r ← dnestBegin flag l f
    let rs ← dnestCalls r.2 cs
    return r :: rs

end Mica
