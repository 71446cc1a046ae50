import Mathlib.Analysis.SpecialFunctions.Log.Basic
import Mathlib.Analysis.SpecialFunctions.Sqrt
import Mathlib.Logic.Equiv.Basic

/-!
# The pivots of the symmetric factorisation

`inverse_symat_lndet` and `inverse_symat_lndet_sign` (src/mathfun.c:247-283) call LAPACK's `dsytrf`
with `'U'` and read the log-determinant off the diagonal of the factored array.  LAPACK itself is not
part of the repository; its documented algorithm (Bunch-Kaufman partial pivoting, reference
implementation `dsytf2`) is written out here because that diagonal is the determinant only if no 2x2
pivot occurs.  The matrix is symmetric (given by its upper triangle), arrays are functions on indices.
-/

namespace Mica

/-- The constant `(1 + sqrt 17) / 8` of the pivoting rule. -/
noncomputable def bkAlpha : ℝ := (1 + Real.sqrt 17) / 8

open Classical in
/-- `idamax`: the first index below `m` with the largest absolute value (`0` for `m = 0`). -/
noncomputable def amaxIdx (f : ℕ → ℝ) : ℕ → ℕ
  | 0 => 0
  | m + 1 => if |f (amaxIdx f m)| < |f m| then m else amaxIdx f m

/-- Largest absolute value among the entries of row `r` off the diagonal, columns below `m`. -/
noncomputable def rowMax (A : ℕ → ℕ → ℝ) (r : ℕ) : ℕ → ℝ
  | 0 => 0
  | m + 1 => if m = r then rowMax A r m else max (rowMax A r m) |A r m|

/-- Interchange of rows and columns `r` and `s`. -/
def swapRC (A : ℕ → ℕ → ℝ) (r s : ℕ) : ℕ → ℕ → ℝ :=
  fun i j => A (Equiv.swap r s i) (Equiv.swap r s j)

/-- Elimination with the 1x1 pivot at index `m`. -/
noncomputable def elim1 (A : ℕ → ℕ → ℝ) (m : ℕ) : ℕ → ℕ → ℝ :=
  fun i j => A i j - A i m * A j m / A m m

/-- Elimination with the 2x2 pivot at the indices `m`, `m+1`. -/
noncomputable def elim2 (A : ℕ → ℕ → ℝ) (m : ℕ) : ℕ → ℕ → ℝ :=
  fun i j => A i j - (A i m * (A (m + 1) (m + 1) * A j m - A m (m + 1) * A j (m + 1)) +
    A i (m + 1) * (A m m * A j (m + 1) - A m (m + 1) * A j m)) /
      (A m m * A (m + 1) (m + 1) - A m (m + 1) * A m (m + 1))

open Classical in
/-- The diagonal left in the array by `dsytrf(.., 'U', ..)`, last index first: Bunch-Kaufman partial
pivoting on the leading part of the given size. -/
noncomputable def bkDiag : ℕ → (ℕ → ℕ → ℝ) → List ℝ
  | 0, _ => []
  | 1, A => [A 0 0]
  | m + 2, A =>
    let k := m + 1
    let imax := amaxIdx (fun i => A i k) k
    let colmax := |A imax k|
    let rowmax := rowMax A imax (k + 1)
    if max |A k k| colmax = 0 then A k k :: bkDiag (m + 1) A
    else if bkAlpha * colmax ≤ |A k k| then A k k :: bkDiag (m + 1) (elim1 A k)
    else if bkAlpha * colmax * (colmax / rowmax) ≤ |A k k| then A k k :: bkDiag (m + 1) (elim1 A k)
    else if bkAlpha * rowmax ≤ |A imax imax| then
      let B := swapRC A imax k
      B k k :: bkDiag (m + 1) (elim1 B k)
    else
      let B := swapRC A imax m
      B k k :: B m m :: bkDiag m (elim2 B m)

/-- The loop `lndet += log(fabs(a[i*n+i]))`, src/mathfun.c:277-281 (and :253-257 without `fabs`, where
the logarithm of a negative pivot is not a number; the theorems show that the pivots are positive). -/
noncomputable def bkLndet (n : ℕ) (A : ℕ → ℕ → ℝ) : ℝ :=
  ((bkDiag n A).map fun d => Real.log |d|).sum

open Classical in
/-- The loop `sign *= (a[i*n+i]>=0?1:-1)`, src/mathfun.c:277-282. -/
noncomputable def bkSign (n : ℕ) (A : ℕ → ℕ → ℝ) : ℤ :=
  ((bkDiag n A).map fun d => if 0 ≤ d then 1 else -1).prod

end Mica
