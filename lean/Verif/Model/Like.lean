import Verif.Model.Res
import Verif.Model.Semisep
import Verif.Model.BlockInv
import Verif.Model.Sampler
import Mathlib.Analysis.SpecialFunctions.Pow.Real

/-!
# Covariance assembly and likelihoods (src/mc_con.c:476-717, src/mc_line.c:1862-2321, 2431-2629)

Doubles are real numbers; row-major arrays are functions on addresses, filled by lists of writes in
program order.  BLAS products are matrix products; `dgetrf` followed by `dgetri`/`dgetrs` is the
inverse (a singular matrix makes the wrapper call `error_exit(9)`).
-/

namespace Mica

open Matrix

/-- A light curve, `LC` of src/allvars.h: number of points, times, fluxes, errors, mean error. -/
structure LC where
  n : ℕ
  t : ℕ → ℝ
  f : ℕ → ℝ
  fe : ℕ → ℝ
  em : ℝ

/-- One data set: continuum and lines, `DATASET` of src/allvars.h. -/
structure DSet where
  con : LC
  line : List LC

/-- Damping timescale, `tau = exp(pm[idx+2])`, src/mc_con.c:506. -/
noncomputable def pmTau (pm : ℕ → ℝ) (idx : ℕ) : ℝ := Real.exp (pm (idx + 2))

/-- `sigma = exp(pm[idx+1]) * sqrt(tau)`, src/mc_con.c:507. -/
noncomputable def pmSigma (pm : ℕ → ℝ) (idx : ℕ) : ℝ := Real.exp (pm (idx + 1)) * Real.sqrt (pmTau pm idx)

/-- `syserr = (exp(pm[idx])-1.0)*error_mean`, src/mc_con.c:505 and src/mc_line.c:2493. -/
noncomputable def pmSyserr (pm : ℕ → ℝ) (idx : ℕ) (em : ℝ) : ℝ := (Real.exp (pm idx) - 1) * em

/-- Performing writes `(address, value)` in order. -/
def runWrites (ws : List (ℕ × ℝ)) (mem : ℕ → ℝ) : ℕ → ℝ :=
  ws.foldl (fun m w => Function.update m w.1 w.2) mem

/-- The `n1 x n2` matrix stored in row-major order. -/
def matOf (mem : ℕ → ℝ) (n1 n2 : ℕ) : Matrix (Fin n1) (Fin n2) ℝ := fun i j => mem (i * n2 + j)

/-- The writes to `PCmat` of `set_covar_Pmat_data`, src/mc_con.c:689-717. -/
noncomputable def conWrites (sigma tau alpha syserr : ℝ) (d : LC) : List (ℕ × ℝ) :=
  (List.range d.n).flatMap fun i =>
    ((List.range i).flatMap fun j =>
      let v := Real.exp (-((|d.t i - d.t j| / tau) ^ alpha))
      [(i * d.n + j, v), (j * d.n + i, v)]) ++
    [(i * d.n + i, 1 + (d.fe i * d.fe i + syserr * syserr) / (sigma * sigma))]

/-- The trend matrix of one light curve, src/mc_con.c:510-517. -/
noncomputable def trendMat (t : ℕ → ℝ) (n nq : ℕ) : Matrix (Fin n) (Fin nq) ℝ :=
  fun i j => if (j : ℕ) = 0 then 1 else t i ^ (j : ℕ)

open Classical in
/-- `inverse_mat`, src/mathfun.c:132-150. -/
noncomputable def luInv {n : ℕ} (A : Matrix (Fin n) (Fin n) ℝ) : Res (Matrix (Fin n) (Fin n) ℝ) :=
  if A.det = 0 then .exit else .ok A⁻¹

open Classical in
/-- `lndet_mat3`, src/mathfun.c:395-424: logarithm of the absolute value and sign of the determinant
(product of the signs of the pivots and of the row interchanges). -/
noncomputable def lndet3 {n : ℕ} (A : Matrix (Fin n) (Fin n) ℝ) : Res (ℝ × ℤ) :=
  if A.det = 0 then .exit else .ok (Real.log |A.det|, if 0 < A.det then 1 else -1)

/-- The contribution of one data set to `prob_con_variability`, src/mc_con.c:499-563; `none`: the
function returns `-DBL_MAX`.  `mem` is the previous content of `PCmat`. -/
noncomputable def conTerm (nq : ℕ) (d : LC) (pm : ℕ → ℝ) (idx : ℕ) (mem : ℕ → ℝ) : Res (Option ℝ) :=
  let syserr := pmSyserr pm idx d.em
  let tau := pmTau pm idx
  let sigma := pmSigma pm idx
  let L := trendMat d.t d.n nq
  let f : Fin d.n → ℝ := fun i => d.f i
  let PC := matOf (runWrites (conWrites sigma tau 1 syserr d) mem) d.n d.n
  luInv PC >>= fun IPC =>
  let Cq := Lᵀ * (IPC * L)
  let yq := Lᵀ.mulVec (IPC.mulVec f)
  luInv Cq >>= fun Cqi =>
  let y := f - L.mulVec (Cqi.mulVec yq)
  let quad := -(1 / 2) * (y ⬝ᵥ IPC.mulVec y) / (sigma * sigma)
  lndet3 PC >>= fun r1 =>
  let lndet := r1.1 + 2 * d.n * Real.log sigma
  if r1.2 = -1 then .ok none else
  lndet3 Cq >>= fun r2 =>
  let lndetICq := r2.1 - 2 * nq * Real.log sigma
  if r2.2 = -1 then .ok none else
  .ok (some (quad + (-(1 / 2) * lndet - 1 / 2 * lndetICq)))

/-- The loop over data sets of `prob_con_variability`, src/mc_con.c:496-564: `k` is the loop index,
`idx` the array `idx_con_pm`.  (The content `mem` of `PCmat` left by the previous pass is arbitrary.) -/
noncomputable def probConLoop (nq : ℕ) (pm : ℕ → ℝ) (idx : ℕ → ℕ) (mem : ℕ → ℝ) :
    List LC → ℕ → ℝ → Res ℝ
  | [], _, prob => .ok prob
  | d :: ds, k, prob =>
    conTerm nq d pm (idx k) mem >>= fun r =>
    match r with
    | none => .ok (-DBL_MAX)
    | some v => probConLoop nq pm idx mem ds (k + 1) (prob + v)

/-- `prob_con_variability`, src/mc_con.c:476-567. -/
noncomputable def probCon (nq : ℕ) (pm : ℕ → ℝ) (idx : ℕ → ℕ) (mem : ℕ → ℝ) (ds : List LC) : Res ℝ :=
  probConLoop nq pm idx mem ds 0 0

open Classical in
/-- The contribution of one data set to `prob_con_variability_semiseparable`, src/mc_con.c:589-650.
The return codes of the symmetric inversion are ignored by the code; for a singular matrix the
log-determinant is not finite: `none`. -/
noncomputable def conTermSemi (nq : ℕ) (d : LC) (pm : ℕ → ℝ) (idx : ℕ) : Option ℝ :=
  let syserr := pmSyserr pm idx d.em
  let tau := pmTau pm idx
  let sigma := pmSigma pm idx
  let sigma2 := sigma * sigma
  let L := trendMat d.t d.n nq
  let f : Fin d.n → ℝ := fun i => d.f i
  let W := ssW d.t sigma2 (1 / tau) d.fe syserr
  let D := ssD d.t sigma2 (1 / tau) d.fe syserr
  let phi := ssPhi d.t (1 / tau)
  let lndet := ssLndet D d.n
  let ybuf : Matrix (Fin d.n) (Fin nq) ℝ :=
    fun i j => ssSolveMat (fun i j => if j = 0 then 1 else d.t i ^ j) W D phi d.n sigma2 i j
  let Cq := Lᵀ * ybuf
  let yq := ybufᵀ.mulVec f
  let q := (inverseSymat Cq).mulVec yq
  let y : Fin d.n → ℝ := (-1 : ℝ) • L.mulVec q + (1 : ℝ) • f
  let z : Fin d.n → ℝ := fun i =>
    ssSolve (fun i => if h : i < d.n then y ⟨i, h⟩ else 0) W D phi d.n sigma2 i
  if (upperSym Cq).det = 0 then none
  else some (-(1 / 2) * (y ⬝ᵥ z) + (-(1 / 2) * lndet - 1 / 2 * lndetSymat Cq))

/-- The loop of `prob_con_variability_semiseparable`, src/mc_con.c:588-651; a non-finite term makes the
sum non-finite. -/
noncomputable def probConSemiLoop (nq : ℕ) (pm : ℕ → ℝ) (idx : ℕ → ℕ) : List LC → ℕ → ℝ → Option ℝ
  | [], _, prob => some prob
  | d :: ds, k, prob =>
    match conTermSemi nq d pm (idx k) with
    | none => none
    | some v => probConSemiLoop nq pm idx ds (k + 1) (prob + v)

/-- `prob_con_variability_semiseparable`, src/mc_con.c:569-653. -/
noncomputable def probConSemi (nq : ℕ) (pm : ℕ → ℝ) (idx : ℕ → ℕ) (ds : List LC) : Option ℝ :=
  probConSemiLoop nq pm idx ds 0 0

end Mica
