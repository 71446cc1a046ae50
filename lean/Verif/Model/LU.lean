import Verif.Model.Like
import Mathlib.LinearAlgebra.Matrix.Determinant.Basic

/-!
# Determinants from LU factors (src/mathfun.c:152-189, 314-454)

`LAPACKE_dgetrf` overwrites the matrix by its factors and stores the row interchanges; the functions below read the determinant,
its logarithm and sign off this output.  LAPACK is described by what it guarantees about the output (`IsLU`), not by an
algorithm.  Doubles are real numbers.
-/

namespace Mica

open Matrix

/-- Output of `dgetrf`: the array with both factors, and the interchanges: row `i` with row `p i`.  (`ipiv[i]` is `p i + 1`.) -/
structure LUOut (n : ℕ) where
  a : Matrix (Fin n) (Fin n) ℝ
  p : Fin n → Fin n

/-- The lower factor, with ones on the diagonal. -/
def lowUnit {n : ℕ} (a : Matrix (Fin n) (Fin n) ℝ) : Matrix (Fin n) (Fin n) ℝ :=
  fun i j => if i = j then 1 else if j < i then a i j else 0

/-- The upper factor. -/
def uppPart {n : ℕ} (a : Matrix (Fin n) (Fin n) ℝ) : Matrix (Fin n) (Fin n) ℝ := fun i j => if i ≤ j then a i j else 0

/-- The interchanges, performed one after the other. -/
def rowSwaps {n : ℕ} (p : Fin n → Fin n) (l : List (Fin n)) (A : Matrix (Fin n) (Fin n) ℝ) : Matrix (Fin n) (Fin n) ℝ :=
  l.foldl (fun B i => B.submatrix (Equiv.swap i (p i)) id) A

/-- What LAPACK documents about `dgetrf`: after the interchanges the matrix is the product of the factors; rows are interchanged
with later ones only, and pivots are chosen such that the entries of the lower factor are at most 1. -/
structure IsLU {n : ℕ} (A : Matrix (Fin n) (Fin n) ℝ) (o : LUOut n) : Prop where
  prod : rowSwaps o.p (List.finRange n) A = lowUnit o.a * uppPart o.a
  later : ∀ i, i ≤ o.p i
  small : ∀ i j, j < i → |o.a i j| ≤ 1

open Classical in
/-- `det_mat`, src/mathfun.c:314-338; `info` is nonzero if a diagonal entry is exactly zero. -/
noncomputable def detMat {n : ℕ} (o : LUOut n) : Res ℝ :=
  if ∃ i, o.a i i = 0 then .exit
  else .ok <| (List.finRange n).foldl
    (fun det i => let det := det * o.a i i; if (o.p i : ℕ) + 1 ≠ (i : ℕ) + 1 then -det else det) 1

open Classical in
/-- `lndet_mat`, src/mathfun.c:341-360. -/
noncomputable def lndetMat {n : ℕ} (o : LUOut n) : Res ℝ :=
  if ∃ i, o.a i i = 0 then .exit
  else .ok <| (List.finRange n).foldl (fun s i => s + Real.log |o.a i i|) 0

open Classical in
/-- The second loop of `lndet_mat2`, src/mathfun.c:386-395: `sign` is set anew in every pass, and the loop left when it is
-1. -/
noncomputable def sign2 {n : ℕ} (o : LUOut n) : List (Fin n) → ℤ → ℤ
  | [], s => s
  | i :: l, _ =>
    let s : ℤ := if 0 ≤ o.a i i then 1 else -1
    let s := if (o.p i : ℕ) + 1 ≠ (i : ℕ) + 1 then s * -1 else s
    if s = -1 then s else sign2 o l s

open Classical in
/-- `lndet_mat2`, src/mathfun.c:362-397; `s0` is the value of `*sign` on entry. -/
noncomputable def lndetMat2 {n : ℕ} (o : LUOut n) (s0 : ℤ) : Res (ℝ × ℤ) :=
  if ∃ i, o.a i i = 0 then .exit
  else .ok ((List.finRange n).foldl (fun s i => s + Real.log |o.a i i|) 0, sign2 o (List.finRange n) s0)

open Classical in
/-- `lndet_mat3`, src/mathfun.c:396-430, and the loop of `inverse_mat_lndet`, src/mathfun.c:165-179. -/
noncomputable def lndetMat3 {n : ℕ} (o : LUOut n) : Res (ℝ × ℤ) :=
  if ∃ i, o.a i i = 0 then .exit
  else .ok <| (List.finRange n).foldl (fun s i =>
    let sg : ℤ := s.2 * (if 0 ≤ o.a i i then 1 else -1)
    (s.1 + Real.log |o.a i i|, if (o.p i : ℕ) + 1 ≠ (i : ℕ) + 1 then sg * -1 else sg)) (0, 1)

/-- `inverse_mat_lndet`, src/mathfun.c:152-189: inverse, log-determinant and sign; `dgetri` computes the inverse of the matrix
whose factors it is given. -/
noncomputable def inverseMatLndet {n : ℕ} (A : Matrix (Fin n) (Fin n) ℝ) (o : LUOut n) :
    Res (Matrix (Fin n) (Fin n) ℝ × ℝ × ℤ) :=
  lndetMat3 o >>= fun r => luInv A >>= fun B => .ok (B, r.1, r.2)

/-- What LAPACK documents about `dpotrf(.., 'L', ..)`: the lower triangle `L` of the output satisfies `A = L Lᵀ` and has a
positive diagonal; the rest of the array is left alone. -/
structure IsChol {n : ℕ} (A a : Matrix (Fin n) (Fin n) ℝ) : Prop where
  prod : (Matrix.of fun i j => if j ≤ i then a i j else 0) * (Matrix.of fun i j => if j ≤ i then a i j else 0)ᵀ = A
  pos : ∀ i, 0 < a i i

/-- `Chol_decomp_U`, src/mathfun.c:431-454, applied to the output of `dpotrf`: zeros above the diagonal. -/
def cholDecompU {n : ℕ} (a : Matrix (Fin n) (Fin n) ℝ) : Matrix (Fin n) (Fin n) ℝ := fun i j => if i < j then 0 else a i j

end Mica
