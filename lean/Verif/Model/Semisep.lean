import Mathlib.Analysis.SpecialFunctions.Exp
import Mathlib.Analysis.SpecialFunctions.Log.Basic
import Mathlib.LinearAlgebra.Matrix.Symmetric
import Mathlib.LinearAlgebra.Matrix.NonsingularInverse

/-!
# The semiseparable solver (src/mathfun.c:500-626, 951-991)

Arrays are functions on indices, of which only those below the length are used; doubles are real
numbers.  A loop `for(i=1; i<n; i++)` that fills an array from its previous entries is a recursion on
the index.
-/

namespace Mica

open Matrix

/-- `phi`, src/mathfun.c:510-514. -/
noncomputable def ssPhi (t : ℕ → ℝ) (c1 : ℝ) : ℕ → ℝ
  | 0 => 0
  | i + 1 => Real.exp (-c1 * (t (i + 1) - t i))

/-- State `(S, D[i], W[i])` of the loop at index `i`, src/mathfun.c:516-526. -/
noncomputable def ssState (t : ℕ → ℝ) (a1 c1 : ℝ) (sigma : ℕ → ℝ) (syserr : ℝ) : ℕ → ℝ × ℝ × ℝ
  | 0 =>
    let A := sigma 0 * sigma 0 + syserr * syserr + a1
    (0, A, 1 / A)
  | i + 1 =>
    let p := ssState t a1 c1 sigma syserr i
    let S := ssPhi t c1 (i + 1) * ssPhi t c1 (i + 1) * (p.1 + p.2.1 * p.2.2 * p.2.2)
    let A := sigma (i + 1) * sigma (i + 1) + syserr * syserr + a1
    let D := A - a1 * a1 * S
    (S, D, 1 / D * (1 - a1 * S))

/-- `D` as computed by `compute_semiseparable_drw`, src/mathfun.c:506-527. -/
noncomputable def ssD (t : ℕ → ℝ) (a1 c1 : ℝ) (sigma : ℕ → ℝ) (syserr : ℝ) (i : ℕ) : ℝ :=
  (ssState t a1 c1 sigma syserr i).2.1

/-- `W` as computed by `compute_semiseparable_drw`, src/mathfun.c:506-527. -/
noncomputable def ssW (t : ℕ → ℝ) (a1 c1 : ℝ) (sigma : ℕ → ℝ) (syserr : ℝ) (i : ℕ) : ℝ :=
  (ssState t a1 c1 sigma syserr i).2.2

/-- Forward substitution: `(f, z[i])` at index `i`, src/mathfun.c:538-545. -/
noncomputable def ssFwd (y W phi : ℕ → ℝ) (a1 : ℝ) : ℕ → ℝ × ℝ
  | 0 => (0, y 0)
  | i + 1 =>
    let p := ssFwd y W phi a1 i
    let f := phi (i + 1) * (p.1 + W i * p.2)
    (f, y (i + 1) - a1 * f)

/-- Backward substitution, `k` steps from the end: `(g, z[n-1-k])`, src/mathfun.c:547-554; `z` is the
result of the forward substitution. -/
noncomputable def ssBack (z W D phi : ℕ → ℝ) (n : ℕ) (a1 : ℝ) : ℕ → ℝ × ℝ
  | 0 => (0, z (n - 1) / D (n - 1))
  | k + 1 =>
    let p := ssBack z W D phi n a1 k
    let i := n - 2 - k
    let g := phi (i + 1) * (p.1 + a1 * p.2)
    (g, z i / D i - W i * g)

/-- `multiply_matvec_semiseparable_drw`, src/mathfun.c:533-555. -/
noncomputable def ssSolve (y W D phi : ℕ → ℝ) (n : ℕ) (a1 : ℝ) (i : ℕ) : ℝ :=
  (ssBack (fun i => (ssFwd y W phi a1 i).2) W D phi n a1 (n - 1 - i)).2

/-- `multiply_mat_semiseparable_drw` applied to an `n x m` row-major matrix `Y`, entry `(i,j)`:
the loops over the columns are independent, src/mathfun.c:562-590. -/
noncomputable def ssSolveMat (Y : ℕ → ℕ → ℝ) (W D phi : ℕ → ℝ) (n : ℕ) (a1 : ℝ) (i j : ℕ) : ℝ :=
  ssSolve (fun i => Y i j) W D phi n a1 i

/-- The determinant loop `lndet += log(D[i])`, src/mc_con.c:616-618 and src/mathfun.c:968-979. -/
noncomputable def ssLndet (D : ℕ → ℝ) : ℕ → ℝ
  | 0 => 0
  | n + 1 => ssLndet D n + Real.log (D n)

/-- The lower triangular matrix filled by `inverse_semiseparable`, src/mathfun.c:969-977 (entries
above the diagonal are not referenced by `dtrtri`/`dlauum` with `'L'`; they are 0 here). -/
noncomputable def ssLower (t : ℕ → ℝ) (a1 c1 : ℝ) (W D : ℕ → ℝ) (n : ℕ) : Matrix (Fin n) (Fin n) ℝ :=
  fun i j => if j = i then 1 * Real.sqrt (D i)
    else if j < i then a1 * (Real.exp (-c1 * (t i - t j)) * W j) * Real.sqrt (D j) else 0

/-- The matrix returned by `inverse_semiseparable`, src/mathfun.c:961-991: `dtrtri` inverts the
triangular matrix, `dlauum` forms `Lᵀ L` (lower triangle), the upper triangle is mirrored. -/
noncomputable def ssInverse (t : ℕ → ℝ) (a1 c1 : ℝ) (W D : ℕ → ℝ) (n : ℕ) : Matrix (Fin n) (Fin n) ℝ :=
  let M := (ssLower t a1 c1 W D n)⁻¹
  let P := Mᵀ * M
  fun i j => if j ≤ i then P i j else P j i

end Mica
