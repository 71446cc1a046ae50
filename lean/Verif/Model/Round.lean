import Verif.Model.Wrap

/-!
# `dnest_wrap` and the continuum model's moves in rounded arithmetic

Every operation on `double` is followed by a rounding `rd : ℝ → ℝ`.  Simplifications: no overflow and
no NaN (the exponent is unbounded above), no fused or extended-precision operations.
-/

namespace Mica

/-- The numbers a `double` can hold, `m · 2^e` with `|m| ≤ 2^53` and `e ≥ -1074` (subnormal numbers
included).  Simplification: no largest exponent. -/
def F64 : Set ℝ := {x | ∃ m e : ℤ, |m| ≤ 2 ^ 53 ∧ -1074 ≤ e ∧ x = (m : ℝ) * (2 : ℝ) ^ e}

/-- `mod`, cdnest/dnest.c:1509-1525, in rounded arithmetic (`floor` is exact).  `y/x` is written twice
in the source; both are the same rounded number. -/
noncomputable def rMod (rd : ℝ → ℝ) (y x : ℝ) : Res ℝ :=
  if 0 < x then .ok (rd (rd (rd (y / x) - (⌊rd (y / x)⌋ : ℝ)) * x))
  else if x = 0 then .ok 0
  else .exit

/-- `dnest_wrap`, cdnest/dnest.c:1527-1530, in rounded arithmetic. -/
noncomputable def rWrap (rd : ℝ → ℝ) (x min max : ℝ) : Res ℝ := do
  let m ← rMod rd (rd (x - min)) (rd (max - min))
  return rd (m + min)

/-- `from_prior_con`, src/dnest_con.c:107-123, in rounded arithmetic. -/
noncomputable def rFromPriorCon (rd : ℝ → ℝ) {n : Nat} (c : ConCfg n) (u : Fin n → ℝ) : Fin n → ℝ :=
  fun i => match c.fix i with
    | some v => v
    | none => rd (c.lo i + rd (u i * rd (c.hi i - c.lo i)))

/-- Step width, src/dnest_con.c:173-187, in rounded arithmetic. -/
noncomputable def rConWidth (rd : ℝ → ℝ) {n : Nat} (c : ConCfg n) (s : ConStep n) (which : Fin n) : ℝ :=
  rd (conWidth c s which)

/-- `perturb_con`, src/dnest_con.c:160-193, in rounded arithmetic. -/
noncomputable def rPerturbCon (rd : ℝ → ℝ) {n : Nat} (c : ConCfg n) (s : ConStep n) (pm : Fin n → ℝ) :
    Res (Fin n → ℝ) := do
  let which ← pickFree c s.cands
  let x ← rWrap rd (rd (pm which + rd (s.h * rConWidth rd c s which))) (c.lo which) (c.hi which)
  return Function.update pm which x

/-- Any number of perturbations, each kept or dropped (`update_particle`, cdnest/dnest.c:729-779). -/
noncomputable def rPerturbConRun (rd : ℝ → ℝ) {n : Nat} (c : ConCfg n) :
    List (ConStep n × Bool) → (Fin n → ℝ) → Res (Fin n → ℝ)
  | [], pm => .ok pm
  | (s, keep) :: ss, pm => do
    let q ← rPerturbCon rd c s pm
    rPerturbConRun rd c ss (if keep then q else pm)

end Mica
