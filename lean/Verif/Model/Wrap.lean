import Mathlib.Data.Real.Basic
import Mathlib.Algebra.Order.Floor.Ring
import Mathlib.Algebra.Order.Archimedean.Real.Basic
import Verif.Model.Res

/-!
# Wrapping of proposals (cdnest/dnest.c) and the continuum model's prior/perturbation (src/dnest_con.c)
-/

namespace Mica

/-- `mod`, cdnest/dnest.c:1509-1525.  The last branch prints a warning and calls `exit(0)`.
Simplification: `double` is ℝ. -/
noncomputable def cmod (y x : ℝ) : Res ℝ :=
  if 0 < x then .ok ((y / x - (⌊y / x⌋ : ℝ)) * x)
  else if x = 0 then .ok 0
  else .exit

/-- `dnest_wrap`, cdnest/dnest.c:1527-1530. -/
noncomputable def dnestWrap (x min max : ℝ) : Res ℝ := do
  let m ← cmod (x - min) (max - min)
  return m + min

/-- `wrap_limit`, cdnest/dnest.c:1532-1536. -/
noncomputable def wrapLimit (x lo hi : ℝ) : ℝ := max (min x hi) lo

/-- `mod_int`, cdnest/dnest.c:1538-1544.  C integer division truncates towards zero (`Int.tdiv`).
The recursive call always has a non-negative argument, hence it is unfolded once.
Division by zero is undefined behaviour.  Simplification: no `int` overflow. -/
def modInt (y x : Int) : Res Int :=
  if x = 0 then .ub
  else if 0 ≤ y then .ok (y - (y.tdiv x) * x)
  else .ok ((x - 1) - ((-y - 1) - ((-y - 1).tdiv x) * x))

/-- Configuration of the continuum model's parameters:
`range i` is `par_range_model[i]` (set in src/dnest_con.c:84-105);
`fix i` is `some v` iff `par_fix[i] == 1` with `par_fix_val[i] = v` (src/dnest_con.c:52-64). -/
structure ConCfg (n : Nat) where
  lo : Fin n → ℝ
  hi : Fin n → ℝ
  fix : Fin n → Option ℝ

/-- `from_prior_con`, src/dnest_con.c:107-123.  `u i` is the i-th uniform random number. -/
noncomputable def fromPriorCon {n : Nat} (c : ConCfg n) (u : Fin n → ℝ) : Fin n → ℝ :=
  let pm := fun i => c.lo i + u i * (c.hi i - c.lo i)
  fun i => match c.fix i with
    | some v => v
    | none => pm i

/-- The `do..while(par_fix[which] == 1)` loop, src/dnest_con.c:167-171, on a given stream of
random indices. -/
def pickFree {n : Nat} (c : ConCfg n) : List (Fin n) → Res (Fin n)
  | [] => .hang
  | w :: ws => if (c.fix w).isSome then pickFree c ws else .ok w

/-- Random numbers and sampler context of one perturbation:
`cands` the stream of random indices, `h` the value of `dnest_randh()`,
`levelUpdate`, `sizeLevels` the sampler's current level and number of levels,
`limits l p` the level-dependent limits `(limits[l*np*2+p*2], limits[l*np*2+p*2+1])`. -/
structure ConStep (n : Nat) where
  cands : List (Fin n)
  h : ℝ
  levelUpdate : Int
  sizeLevels : Int
  limits : Int → Fin n → ℝ × ℝ

/-- Step width, src/dnest_con.c:173-187. -/
noncomputable def conWidth {n : Nat} (c : ConCfg n) (s : ConStep n) (which : Fin n) : ℝ :=
  let wl := if s.levelUpdate > s.sizeLevels - 10 then s.sizeLevels - 10 else s.levelUpdate
  if wl > 0 then (s.limits (wl - 1) which).2 - (s.limits (wl - 1) which).1
  else c.hi which - c.lo which

/-- `perturb_con`, src/dnest_con.c:160-193 (the returned `logH` is always 0). -/
noncomputable def perturbCon {n : Nat} (c : ConCfg n) (s : ConStep n) (pm : Fin n → ℝ) :
    Res (Fin n → ℝ) := do
  let which ← pickFree c s.cands
  let x ← dnestWrap (pm which + s.h * conWidth c s which) (c.lo which) (c.hi which)
  return Function.update pm which x

/-- Any number of perturbations one after the other (each proposal is either kept or dropped by the
sampler, `keep`; see `update_particle`, cdnest/dnest.c:729-779). -/
noncomputable def perturbConRun {n : Nat} (c : ConCfg n) :
    List (ConStep n × Bool) → (Fin n → ℝ) → Res (Fin n → ℝ)
  | [], pm => .ok pm
  | (s, keep) :: ss, pm => do
    let q ← perturbCon c s pm
    perturbConRun c ss (if keep then q else pm)

end Mica
