import Verif.Model.Semisep
import Verif.Model.Pivot
import Mathlib.Analysis.SpecialFunctions.Log.Basic
import Mathlib.LinearAlgebra.Matrix.NonsingularInverse

/-!
# Inversion by blocks (src/mathfun.c:640-923, 925-949, 993-1083)

BLAS and LAPACK calls are modelled by their mathematical meaning (`cblas_dgemm`: matrix product,
`dgetrf`/`dgetri` and `dsytrf`/`dsytri`: inverse; `dsytrf`: pivots, see `Verif.Model.Pivot`).  `dsytrf`/`dsytri` with `'U'`
read only the upper triangle, which is part of the model (`upperSym`).
-/

namespace Mica

open Matrix

/-- The block of a two-dimensional array, `n1` rows from `r` and `n2` columns from `c`. -/
def block (A : ℕ → ℕ → ℝ) (r n1 c n2 : ℕ) : Matrix (Fin n1) (Fin n2) ℝ :=
  fun i j => A (r + i) (c + j)

/-- A square array holding a matrix. -/
def arrayOf {n : ℕ} (M : Matrix (Fin n) (Fin n) ℝ) (i j : ℕ) : ℝ :=
  if hi : i < n then if hj : j < n then M ⟨i, hi⟩ ⟨j, hj⟩ else 0 else 0

/-- The symmetric matrix whose upper triangle is that of `A`: what `dsytrf(.., 'U', ..)` reads. -/
def upperSym {n : ℕ} (A : Matrix (Fin n) (Fin n) ℝ) : Matrix (Fin n) (Fin n) ℝ :=
  fun i j => if i ≤ j then A i j else A j i

/-- `inverse_symat`, src/mathfun.c:221-246: inverse of the symmetric matrix given by the upper
triangle, the lower triangle of the result is filled from the upper one. -/
noncomputable def inverseSymat {n : ℕ} (A : Matrix (Fin n) (Fin n) ℝ) : Matrix (Fin n) (Fin n) ℝ :=
  upperSym (upperSym A)⁻¹

/-- The log-determinant returned by `inverse_symat_lndet`, src/mathfun.c:247-266: the sum of logarithms
of the diagonal of the factored array (see `Verif.Model.Pivot`). -/
noncomputable def lndetSymat {n : ℕ} (A : Matrix (Fin n) (Fin n) ℝ) : ℝ :=
  bkLndet n (arrayOf (upperSym A))

/-- The sign returned by `inverse_symat_lndet_sign`, src/mathfun.c:267-284. -/
noncomputable def signSymat {n : ℕ} (A : Matrix (Fin n) (Fin n) ℝ) : ℤ :=
  bkSign n (arrayOf (upperSym A))

/-- The entries `(i,j)` with `j >= i` of `S - SN`; the others keep `SN`, src/mathfun.c:658-664. -/
def subUpper {n : ℕ} (S SN : Matrix (Fin n) (Fin n) ℝ) : Matrix (Fin n) (Fin n) ℝ :=
  fun i j => if i ≤ j then S i j - SN i j else SN i j

/-- `inverse_symat_partition_inv`, src/mathfun.c:700-741: returns `(PN, QN, SN)`. -/
noncomputable def partInv {n1 n2 : ℕ} (Pinv : Matrix (Fin n1) (Fin n1) ℝ)
    (S : Matrix (Fin n2) (Fin n2) ℝ) (Q : Matrix (Fin n1) (Fin n2) ℝ) :
    Matrix (Fin n1) (Fin n1) ℝ × Matrix (Fin n1) (Fin n2) ℝ × Matrix (Fin n2) (Fin n2) ℝ :=
  let work := Pinv * Q
  let SN := inverseSymat (subUpper S (Qᵀ * work))
  let QN := work * SN
  let pwork := QN * workᵀ
  (Pinv + pwork, -QN, SN)

/-- `inverse_symat_partition`, src/mathfun.c:640-685. -/
noncomputable def partition {n1 n2 : ℕ} (P : Matrix (Fin n1) (Fin n1) ℝ)
    (S : Matrix (Fin n2) (Fin n2) ℝ) (Q : Matrix (Fin n1) (Fin n2) ℝ) :
    Matrix (Fin n1) (Fin n1) ℝ × Matrix (Fin n1) (Fin n2) ℝ × Matrix (Fin n2) (Fin n2) ℝ :=
  let PN := inverseSymat P
  let work := PN * Q
  let SN := inverseSymat (subUpper S (Qᵀ * work))
  let QN := work * SN
  let pwork := QN * workᵀ
  (PN + pwork, -QN, SN)

/-- Common part of `inverse_symat_lndet_partition_inv_fast` (src/mathfun.c:795-819) and
`inverse_symat_lndet_partition_inv_semiseparable` (src/mathfun.c:925-950), after `work` has been
computed: returns `(PN, QN, SN, lndet)`. -/
noncomputable def partFastCore {n1 n2 : ℕ} (Pinv : Matrix (Fin n1) (Fin n1) ℝ)
    (S : Matrix (Fin n2) (Fin n2) ℝ) (Q work : Matrix (Fin n1) (Fin n2) ℝ) :
    Matrix (Fin n1) (Fin n1) ℝ × Matrix (Fin n1) (Fin n2) ℝ × Matrix (Fin n2) (Fin n2) ℝ × ℝ :=
  let SN0 := (-1 : ℝ) • (Qᵀ * work) + (1 : ℝ) • S
  let SN := inverseSymat SN0
  let QN := (-1 : ℝ) • (work * SN)
  (((-1 : ℝ) • (QN * workᵀ) + (1 : ℝ) • Pinv), QN, SN, lndetSymat SN0)

/-- `inverse_symat_lndet_partition_inv_fast`, src/mathfun.c:795-819. -/
noncomputable def partFast {n1 n2 : ℕ} (Pinv : Matrix (Fin n1) (Fin n1) ℝ)
    (S : Matrix (Fin n2) (Fin n2) ℝ) (Q : Matrix (Fin n1) (Fin n2) ℝ) :
    Matrix (Fin n1) (Fin n1) ℝ × Matrix (Fin n1) (Fin n2) ℝ × Matrix (Fin n2) (Fin n2) ℝ × ℝ :=
  partFastCore Pinv S Q (Pinv * Q)

/-- Copying the four blocks into the new array, src/mathfun.c:893-919. -/
def assemble {n1 n2 : ℕ} (PN : Matrix (Fin n1) (Fin n1) ℝ) (QN : Matrix (Fin n1) (Fin n2) ℝ)
    (SN : Matrix (Fin n2) (Fin n2) ℝ) (i j : ℕ) : ℝ :=
  if hi : i < n1 then
    if hj : j < n1 then PN ⟨i, hi⟩ ⟨j, hj⟩
    else if hj' : j - n1 < n2 then QN ⟨i, hi⟩ ⟨j - n1, hj'⟩ else 0
  else if hi' : i - n1 < n2 then
    if hj : j < n1 then QN ⟨j, hj⟩ ⟨i - n1, hi'⟩
    else if hj' : j - n1 < n2 then SN ⟨i - n1, hi'⟩ ⟨j - n1, hj'⟩ else 0
  else 0

/-- One pass of the loop over bands, src/mathfun.c:863-921: `(ni, Ai, lndet)` and the size of the next
band.  Two-dimensional arrays are indexed by row and column (row-major storage with the strides of the
code); `work_inv` has room for the disjoint pieces `Ai`, `ANi`, `QNi`, `SNi`, `pwork`. -/
noncomputable def bandStep (A : ℕ → ℕ → ℝ) (st : ℕ × (ℕ → ℕ → ℝ) × ℝ) (nq : ℕ) : ℕ × (ℕ → ℕ → ℝ) × ℝ :=
  let ni := st.1
  let Q := block A 0 ni ni nq
  let S := block A ni nq ni nq
  let r := partFast (block st.2.1 0 ni 0 ni) S Q
  (ni + nq, assemble r.1 r.2.1 r.2.2.1, st.2.2 + r.2.2.2)

/-- `inverse_symat_partition_iter`, src/mathfun.c:844-923, for bands of sizes `n0 :: narr`: the content of
the array `A` on return (second component).  The inverse of the first block is kept in `work_inv` (852, 862);
`A` is written by the last pass of the loop only (`if(k==np) Ai = A;`, 890), so that `A` is left as it was
when there is no pass. -/
noncomputable def partIter (A : ℕ → ℕ → ℝ) (n0 : ℕ) (narr : List ℕ) : ℕ × (ℕ → ℕ → ℝ) × ℝ :=
  let A1 := block A 0 n0 0 n0
  match narr with
  | [] => (n0, A, lndetSymat A1)
  | nq :: rest => rest.foldl (bandStep A) (bandStep A (n0, arrayOf (inverseSymat A1), lndetSymat A1) nq)

/-- The first pass (`k = 1`) of the loop of `inverse_semiseparable_iter`, src/mathfun.c:1031-1035: the
product `P^-1 Q` comes from the semiseparable solver. -/
noncomputable def bandStepSemi (W D phi : ℕ → ℝ) (a1 : ℝ) (A : ℕ → ℕ → ℝ)
    (st : ℕ × (ℕ → ℕ → ℝ) × ℝ) (nq : ℕ) : ℕ × (ℕ → ℕ → ℝ) × ℝ :=
  let ni := st.1
  let Q := block A 0 ni ni nq
  let S := block A ni nq ni nq
  let work : Matrix (Fin ni) (Fin nq) ℝ :=
    fun i j => ssSolveMat (fun i j => A i (ni + j)) W D phi ni a1 i j
  let r := partFastCore (block st.2.1 0 ni 0 ni) S Q work
  (ni + nq, assemble r.1 r.2.1 r.2.2.1, st.2.2 + r.2.2.2)

/-- `inverse_semiseparable_iter`, src/mathfun.c:1000-1083: as above, `A` is written by the last pass only
(`if(k==np) Ai = A;`, 1050), not at all when there is no pass. -/
noncomputable def semiIter (t : ℕ → ℝ) (a1 c1 : ℝ) (sigma : ℕ → ℝ) (syserr : ℝ) (A : ℕ → ℕ → ℝ)
    (n0 : ℕ) (narr : List ℕ) : ℕ × (ℕ → ℕ → ℝ) × ℝ :=
  let W := ssW t a1 c1 sigma syserr
  let D := ssD t a1 c1 sigma syserr
  let phi := ssPhi t c1
  let st := (n0, arrayOf (ssInverse t a1 c1 W D n0), ssLndet D n0)
  match narr with
  | [] => (n0, A, ssLndet D n0)
  | nq :: rest => rest.foldl (bandStep A) (bandStepSemi W D phi a1 A st nq)

end Mica
