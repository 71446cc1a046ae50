import Verif.Model.Line
import Verif.Model.Workspace
import Mathlib.Algebra.BigOperators.Group.Finset.Basic

/-!
# The likelihoods as programs on memory (src/mathfun.c, src/mc_con.c, src/mc_line.c)

`Model/Like.lean` and `Model/Line.lean` describe the likelihoods by matrices.  Here the same functions are programs that
work on arrays of doubles through pointers, as the code does: all intermediate matrices are pieces of shared work arrays,
which keep what previous calls left in them, and every helper gets a pointer and numbers of rows and columns.
An access outside of an array, or a library call whose result overlaps one of its arguments, is undefined behaviour.
Doubles are real numbers, the arrays of times and errors of the data (which are only read, element by element) are
functions.
-/

namespace Mica

open Matrix

/-- The arrays: the shared work arrays (src/init.c:281-304), the continuum fluxes of data set `k` (`dataset[k].con.f`) and
the fluxes of all its light curves (`alldata[k].f`). -/
inductive Arr where
  | sh (b : Buf)
  | flux (k : ℕ)
  | fall (k : ℕ)
  deriving DecidableEq

/-- Content of all arrays. -/
abbrev Mem := Arr → ℕ → ℝ

/-- A `double *`. -/
structure DPtr where
  arr : Arr
  off : ℕ
  deriving DecidableEq

/-- `p + n`. -/
def DPtr.plus (p : DPtr) (n : ℕ) : DPtr := ⟨p.arr, p.off + n⟩

/-- `p[i]` as a value; `sz` gives the number of elements of every array. -/
def ldd (sz : Arr → ℕ) (p : DPtr) (i : ℕ) (M : Mem) : Res ℝ :=
  if p.off + i < sz p.arr then .ok (M p.arr (p.off + i)) else .ub

/-- `p[i] = v`. -/
def std (sz : Arr → ℕ) (p : DPtr) (i : ℕ) (v : ℝ) (M : Mem) : Res Mem :=
  if p.off + i < sz p.arr then
    .ok (fun a x => if a = p.arr ∧ x = p.off + i then v else M a x)
  else .ub

/-- `for(i=0; i<n; i++) body`. -/
def forD {σ : Type} : (n : ℕ) → (ℕ → σ → Res σ) → σ → Res σ
  | 0, _, s => .ok s
  | n + 1, body, s => forD n body s >>= body n

/-- Number of elements between the first and the last one of a matrix with `r` rows, `c` columns and distance `ld` between
rows. -/
def extent (r ld c : ℕ) : ℕ := if r = 0 then 0 else (r - 1) * ld + c

/-- The piece lies within its array. -/
def inside (sz : Arr → ℕ) (p : DPtr) (len : ℕ) : Prop := p.off + len ≤ sz p.arr

/-- The pieces have no element in common. -/
def apart (p : DPtr) (l : ℕ) (q : DPtr) (r : ℕ) : Prop := p.arr ≠ q.arr ∨ p.off + l ≤ q.off ∨ q.off + r ≤ p.off

open Classical in
/-- `cblas_dgemm(CblasRowMajor, ta, tb, m, n, k, alpha, a, lda, b, ldb, beta, c, ldc)` by its specification: row lengths that
are too small are reported and the program ends; `c` is not read if `beta` is 0. -/
noncomputable def dgemm (sz : Arr → ℕ) (ta tb : Bool) (m n k : ℕ) (alpha : ℝ) (a : DPtr) (lda : ℕ) (b : DPtr) (ldb : ℕ)
    (beta : ℝ) (c : DPtr) (ldc : ℕ) (M : Mem) : Res Mem :=
  let ra := if ta then k else m
  let ca := if ta then m else k
  let rb := if tb then n else k
  let cb := if tb then k else n
  if lda < max 1 ca ∨ ldb < max 1 cb ∨ ldc < max 1 n then .exit
  else if ¬ (inside sz a (extent ra lda ca) ∧ inside sz b (extent rb ldb cb) ∧ inside sz c (extent m ldc n)) then .ub
  else if ¬ (apart c (extent m ldc n) a (extent ra lda ca) ∧ apart c (extent m ldc n) b (extent rb ldb cb)) then .ub
  else .ok fun A x =>
    if A = c.arr ∧ c.off ≤ x ∧ (x - c.off) / ldc < m ∧ (x - c.off) % ldc < n then
      alpha * (∑ l ∈ Finset.range k,
        M a.arr (a.off + (if ta then l * lda + (x - c.off) / ldc else (x - c.off) / ldc * lda + l)) *
        M b.arr (b.off + (if tb then (x - c.off) % ldc * ldb + l else l * ldb + (x - c.off) % ldc))) +
      (if beta = 0 then 0 else beta * M A x)
    else M A x

open Classical in
/-- `cblas_dgemv(CblasRowMajor, ta, m, n, alpha, a, lda, x, 1, beta, y, 1)`: `a` has `m` rows and `n` columns. -/
noncomputable def dgemv (sz : Arr → ℕ) (ta : Bool) (m n : ℕ) (alpha : ℝ) (a : DPtr) (lda : ℕ) (x : DPtr) (beta : ℝ) (y : DPtr)
    (M : Mem) : Res Mem :=
  let nx := if ta then m else n
  let ny := if ta then n else m
  if lda < max 1 n then .exit
  else if ¬ (inside sz a (extent m lda n) ∧ inside sz x nx ∧ inside sz y ny) then .ub
  else if ¬ (apart y ny a (extent m lda n) ∧ apart y ny x nx) then .ub
  else .ok fun A i =>
    if A = y.arr ∧ y.off ≤ i ∧ i < y.off + ny then
      alpha * (∑ l ∈ Finset.range nx,
        M a.arr (a.off + (if ta then l * lda + (i - y.off) else (i - y.off) * lda + l)) * M x.arr (x.off + l)) +
      (if beta = 0 then 0 else beta * M A i)
    else M A i

open Classical in
/-- `cblas_ddot(n, x, 1, y, 1)`. -/
noncomputable def ddot (sz : Arr → ℕ) (n : ℕ) (x y : DPtr) (M : Mem) : Res ℝ :=
  if inside sz x n ∧ inside sz y n then
    .ok (∑ l ∈ Finset.range n, M x.arr (x.off + l) * M y.arr (y.off + l))
  else .ub

open Classical in
/-- `memcpy(dst, src, n*sizeof(double))`. -/
noncomputable def copyD (sz : Arr → ℕ) (dst src : DPtr) (n : ℕ) (M : Mem) : Res Mem :=
  if inside sz dst n ∧ inside sz src n ∧ apart dst n src n then
    .ok fun A x => if A = dst.arr ∧ dst.off ≤ x ∧ x < dst.off + n then M src.arr (src.off + (x - dst.off)) else M A x
  else .ub

/-! ### Helpers for products, src/mathfun.c:19-104 -/

/-- `multiply_mat`, src/mathfun.c:20-24. -/
noncomputable def fMat (sz : Arr → ℕ) (a b c : DPtr) (n : ℕ) : Mem → Res Mem := dgemm sz false false n n n 1 a n b n 0 c n
/-- `multiply_mat_transposeA`, src/mathfun.c:26-30. -/
noncomputable def fMatTA (sz : Arr → ℕ) (a b c : DPtr) (n : ℕ) : Mem → Res Mem := dgemm sz true false n n n 1 a n b n 0 c n
/-- `multiply_mat_transposeB`, src/mathfun.c:32-36. -/
noncomputable def fMatTB (sz : Arr → ℕ) (a b c : DPtr) (n : ℕ) : Mem → Res Mem := dgemm sz false true n n n 1 a n b n 0 c n
/-- `multiply_mat_MN`, src/mathfun.c:38-42. -/
noncomputable def fMN (sz : Arr → ℕ) (a b c : DPtr) (m n k : ℕ) : Mem → Res Mem := dgemm sz false false m n k 1 a k b n 0 c n
/-- `multiply_mat_MN_alpha_beta`, src/mathfun.c:44-48. -/
noncomputable def fMNab (sz : Arr → ℕ) (a b c : DPtr) (m n k : ℕ) (alpha beta : ℝ) : Mem → Res Mem :=
  dgemm sz false false m n k alpha a k b n beta c n
/-- `multiply_mat_MN_transposeA`, src/mathfun.c:50-54. -/
noncomputable def fMNTA (sz : Arr → ℕ) (a b c : DPtr) (m n k : ℕ) : Mem → Res Mem := dgemm sz true false m n k 1 a m b n 0 c n
/-- `multiply_mat_MN_transposeA_alpha_beta`, src/mathfun.c:56-61. -/
noncomputable def fMNTAab (sz : Arr → ℕ) (a b c : DPtr) (m n k : ℕ) (alpha beta : ℝ) : Mem → Res Mem :=
  dgemm sz true false m n k alpha a m b n beta c n
/-- `multiply_mat_MN_transposeB`, src/mathfun.c:63-67. -/
noncomputable def fMNTB (sz : Arr → ℕ) (a b c : DPtr) (m n k : ℕ) : Mem → Res Mem := dgemm sz false true m n k 1 a k b k 0 c n
/-- `multiply_mat_MN_transposeB_alpha_beta`, src/mathfun.c:69-74. -/
noncomputable def fMNTBab (sz : Arr → ℕ) (a b c : DPtr) (m n k : ℕ) (alpha beta : ℝ) : Mem → Res Mem :=
  dgemm sz false true m n k alpha a k b k beta c n
/-- `multiply_matvec`, src/mathfun.c:76-79. -/
noncomputable def fMatvec (sz : Arr → ℕ) (a x : DPtr) (n : ℕ) (y : DPtr) : Mem → Res Mem := dgemv sz false n n 1 a n x 0 y
/-- `multiply_matvec_transposeA`, src/mathfun.c:81-84. -/
noncomputable def fMatvecTA (sz : Arr → ℕ) (a x : DPtr) (n : ℕ) (y : DPtr) : Mem → Res Mem := dgemv sz true n n 1 a n x 0 y
/-- `multiply_matvec_MN`, src/mathfun.c:86-89. -/
noncomputable def fMatvecMN (sz : Arr → ℕ) (a : DPtr) (m n : ℕ) (x y : DPtr) : Mem → Res Mem := dgemv sz false m n 1 a n x 0 y
/-- `multiply_matvec_MN_alpha_beta`, src/mathfun.c:91-94. -/
noncomputable def fMatvecMNab (sz : Arr → ℕ) (a : DPtr) (m n : ℕ) (x y : DPtr) (alpha beta : ℝ) : Mem → Res Mem :=
  dgemv sz false m n alpha a n x beta y
/-- `multiply_matvec_MN_transposeA`, src/mathfun.c:96-99. -/
noncomputable def fMatvecMNTA (sz : Arr → ℕ) (a : DPtr) (m n : ℕ) (x y : DPtr) : Mem → Res Mem := dgemv sz true m n 1 a n x 0 y
/-- `multiply_matvec_MN_transposeA_alpha_beta`, src/mathfun.c:101-104. -/
noncomputable def fMatvecMNTAab (sz : Arr → ℕ) (a : DPtr) (m n : ℕ) (x y : DPtr) (alpha beta : ℝ) : Mem → Res Mem :=
  dgemv sz true m n alpha a n x beta y

/-- The `r x c` matrix stored without gaps at `p`. -/
def matAt (M : Mem) (p : DPtr) (r c : ℕ) : Matrix (Fin r) (Fin c) ℝ := fun i j => M p.arr (p.off + (i * c + j))

/-- The vector stored at `p`. -/
def vecAt (M : Mem) (p : DPtr) (n : ℕ) : Fin n → ℝ := fun i => M p.arr (p.off + i)

/-- `multiply_vec2mat`, src/mathfun.c:302-311. -/
noncomputable def fVec2mat (sz : Arr → ℕ) (x a : DPtr) (n : ℕ) : Mem → Res Mem :=
  forD n fun i => forD (i + 1) fun j M =>
    ldd sz x i M >>= fun xi => ldd sz x j M >>= fun xj =>
    std sz a (j * n + i) (xi * xj) M >>= fun M =>
    ldd sz a (j * n + i) M >>= fun v => std sz a (i * n + j) v M

/-! ### Inverse of a symmetric matrix, src/mathfun.c:205-284 -/

open Classical in
/-- `dsytrf` and `dsytri` with `'U'` on the `n x n` matrix at `p`: only the upper triangle is read and replaced, by that of
the inverse; the integers at `ipiv` are counted, not stored. -/
noncomputable def dsytri (sz : Arr → ℕ) (p : DPtr) (n : ℕ) (M : Mem) : Res Mem :=
  if inside sz p (n * n) ∧ n ≤ sz (.sh .ipiv) then
    .ok fun A x =>
      if A = p.arr ∧ p.off ≤ x ∧ x < p.off + n * n ∧ (x - p.off) / n ≤ (x - p.off) % n then
        arrayOf (upperSym (matAt M p n n))⁻¹ ((x - p.off) / n) ((x - p.off) % n)
      else M A x
  else .ub

/-- The loops `for(i=0; i<n; i++) for(j=0; j<i; j++) a[i*n+j] = a[j*n+i]`, src/mathfun.c:225-227, 243-245, 276-278. -/
noncomputable def fillLower (sz : Arr → ℕ) (p : DPtr) (n : ℕ) : Mem → Res Mem :=
  forD n fun i => forD i fun j M => ldd sz p (j * n + i) M >>= fun v => std sz p (i * n + j) v M

open Classical in
/-- `inverse_symat_lndet`, src/mathfun.c:230-248, and `inverse_symat_lndet_sign`, 250-281: log-determinant, sign and memory;
the sum over the diagonal of the factored matrix is `lndetSymat` (`Model/Pivot.lean`).  For a singular matrix a pivot is zero,
the log-determinant is not finite and `dsytri` reports it: `none`. -/
noncomputable def fInverseSymat (sz : Arr → ℕ) (p : DPtr) (n : ℕ) (M : Mem) : Res (Option (ℝ × ℤ × Mem)) :=
  if ¬ (inside sz p (n * n) ∧ n ≤ sz (.sh .ipiv)) then .ub
  else if (upperSym (matAt M p n n)).det = 0 then .ok none
  else dsytri sz p n M >>= fillLower sz p n >>= fun M' =>
    .ok (some (lndetSymat (matAt M p n n), signSymat (matAt M p n n), M'))

/-! ### The semiseparable solver, src/mathfun.c:506-590 -/

/-- `compute_semiseparable_drw`, src/mathfun.c:506-528; `sigma i` reads the error `sigma[i]`, which belongs to the data or
lies in the workspace. -/
noncomputable def fSemi (sz : Arr → ℕ) (t : ℕ → ℝ) (n : ℕ) (a1 c1 : ℝ) (sigma : ℕ → Mem → Res ℝ) (syserr : ℝ) (W D phi : DPtr)
    (M : Mem) : Res Mem :=
  std sz phi 0 0 M >>=
  forD (n - 1) (fun i => std sz phi (i + 1) (Real.exp (-c1 * (t (i + 1) - t i)))) >>=
  (fun M => sigma 0 M >>= fun s0 => std sz D 0 (s0 * s0 + syserr * syserr + a1) M) >>= fun M =>
  ldd sz D 0 M >>= fun d0 =>
  std sz W 0 (1 / d0) M >>= fun M =>
  (forD (n - 1) (fun i (s : ℝ × Mem) =>
    ldd sz phi (i + 1) s.2 >>= fun ph =>
    ldd sz D i s.2 >>= fun d =>
    ldd sz W i s.2 >>= fun w =>
    let S := ph * ph * (s.1 + d * w * w)
    sigma (i + 1) s.2 >>= fun si =>
    let A := si * si + syserr * syserr + a1
    std sz D (i + 1) (A - a1 * a1 * S) s.2 >>= fun M =>
    ldd sz D (i + 1) M >>= fun d' =>
    std sz W (i + 1) (1 / d' * (1 - a1 * S)) M >>= fun M => .ok (S, M)) (0, M)) >>= fun s => .ok s.2

/-- Forward substitution for one column, src/mathfun.c:538-545 (vector) and 569-578 (column of a matrix); `ay`, `az` are the
addresses of the elements of the column. -/
noncomputable def fFwd (sz : Arr → ℕ) (Y : DPtr) (ay : ℕ → ℕ) (W phi : DPtr) (n : ℕ) (a1 : ℝ) (Z : DPtr) (az : ℕ → ℕ)
    (M : Mem) : Res Mem :=
  ldd sz Y (ay 0) M >>= fun y0 =>
  std sz Z (az 0) y0 M >>= fun M =>
  (forD (n - 1) (fun i (s : ℝ × Mem) =>
    ldd sz phi (i + 1) s.2 >>= fun ph =>
    ldd sz W i s.2 >>= fun w =>
    ldd sz Z (az i) s.2 >>= fun z =>
    let f := ph * (s.1 + w * z)
    ldd sz Y (ay (i + 1)) s.2 >>= fun y =>
    std sz Z (az (i + 1)) (y - a1 * f) s.2 >>= fun M => .ok (f, M)) (0, M)) >>= fun s => .ok s.2

/-- Backward substitution for one column, src/mathfun.c:547-554 and 580-590. -/
noncomputable def fBack (sz : Arr → ℕ) (W D phi : DPtr) (n : ℕ) (a1 : ℝ) (Z : DPtr) (az : ℕ → ℕ) (M : Mem) : Res Mem :=
  ldd sz Z (az (n - 1)) M >>= fun z =>
  ldd sz D (n - 1) M >>= fun d =>
  std sz Z (az (n - 1)) (z / d) M >>= fun M =>
  (forD (n - 1) (fun k (s : ℝ × Mem) =>
    let i := n - 2 - k
    ldd sz phi (i + 1) s.2 >>= fun ph =>
    ldd sz Z (az (i + 1)) s.2 >>= fun z1 =>
    let g := ph * (s.1 + a1 * z1)
    ldd sz Z (az i) s.2 >>= fun z =>
    ldd sz D i s.2 >>= fun d =>
    ldd sz W i s.2 >>= fun w =>
    std sz Z (az i) (z / d - w * g) s.2 >>= fun M => .ok (g, M)) (0, M)) >>= fun s => .ok s.2

/-- `multiply_matvec_semiseparable_drw`, src/mathfun.c:533-556. -/
noncomputable def fSolveVec (sz : Arr → ℕ) (y W D phi : DPtr) (n : ℕ) (a1 : ℝ) (z : DPtr) (M : Mem) : Res Mem :=
  fFwd sz y id W phi n a1 z id M >>= fBack sz W D phi n a1 z id

/-- `multiply_mat_semiseparable_drw`, src/mathfun.c:562-591. -/
noncomputable def fSolveMat (sz : Arr → ℕ) (Y W D phi : DPtr) (n m : ℕ) (a1 : ℝ) (Z : DPtr) (M : Mem) : Res Mem :=
  forD m (fun j => fFwd sz Y (fun i => i * m + j) W phi n a1 Z (fun i => i * m + j)) M >>=
  forD m (fun j => fBack sz W D phi n a1 Z (fun i => i * m + j))

/-! ### The likelihood of the continuum, src/mc_con.c:569-653 -/

/-- The loops over `Larr`, src/mc_con.c:603-610. -/
noncomputable def fTrendCon (sz : Arr → ℕ) (t : ℕ → ℝ) (n nq : ℕ) (L : DPtr) : Mem → Res Mem :=
  forD n fun i M => std sz L (i * nq) 1 M >>= forD (nq - 1) fun j => std sz L (i * nq + (j + 1)) (t i ^ (j + 1))

/-- `for(i=0; i<n; i++) lndet += log(D[i])`, src/mc_con.c:615-617; the logarithm of a number that is not positive is not
finite (`none`). -/
noncomputable def fLndet (sz : Arr → ℕ) (D : DPtr) (n : ℕ) (M : Mem) : Res ℝ :=
  forD n (fun i s => ldd sz D i M >>= fun d => .ok (s + Real.log d)) 0

/-- The pointers into `workspace` of `prob_con_variability_semiseparable`. -/
structure ConPtrs where
  Larr : DPtr
  ybuf : DPtr
  y : DPtr
  yq : DPtr
  Cq : DPtr
  W : DPtr
  D : DPtr
  phi : DPtr

/-- src/mc_con.c:579-588; `nmax` is `ncon_max`. -/
def conPtrs (nq nmax : ℕ) : ConPtrs :=
  let Larr : DPtr := ⟨.sh .workspace, 0⟩
  let ybuf := Larr.plus (nmax * nq)
  let y := ybuf.plus (nmax * nq)
  let yq := y.plus nmax
  let Cq := yq.plus nq
  let W := Cq.plus (nq * nq)
  let D := W.plus nmax
  let phi := D.plus nmax
  ⟨Larr, ybuf, y, yq, Cq, W, D, phi⟩

/-- One pass of the loop over data sets of `prob_con_variability_semiseparable`, src/mc_con.c:593-650: the term added to
`prob`, and the memory afterwards.  (`log(D[i])` is taken as for positive arguments, see `Model/Semisep.lean`.) -/
noncomputable def fConTerm (sz : Arr → ℕ) (nq : ℕ) (P : ConPtrs) (d : LC) (k : ℕ) (pm : ℕ → ℝ) (idx : ℕ) (M : Mem) :
    Res (Option (ℝ × Mem)) :=
  let fcon : DPtr := ⟨.flux k, 0⟩
  let syserr := pmSyserr pm idx d.em
  let tau := pmTau pm idx
  let sigma := pmSigma pm idx
  let sigma2 := sigma * sigma
  fTrendCon sz d.t d.n nq P.Larr M >>=
  fSemi sz d.t d.n sigma2 (1 / tau) (fun i _ => .ok (d.fe i)) syserr P.W P.D P.phi >>= fun M =>
  fLndet sz P.D d.n M >>= fun lndet =>
  fSolveMat sz P.Larr P.W P.D P.phi d.n nq sigma2 P.ybuf M >>=
  fMNTA sz P.Larr P.ybuf P.Cq nq nq d.n >>=
  fMatvecMNTA sz P.ybuf d.n nq fcon P.yq >>=
  fInverseSymat sz P.Cq nq >>= fun r =>
  match r with
  | none => .ok none
  | some (lndetICq, _, M) =>
    fMN sz P.Cq P.yq P.ybuf nq 1 nq M >>=
    copyD sz P.y fcon d.n >>=
    fMatvecMNab sz P.Larr d.n nq P.ybuf P.y (-1) 1 >>=
    fSolveVec sz P.y P.W P.D P.phi d.n sigma2 P.ybuf >>= fun M =>
    ddot sz d.n P.y P.ybuf M >>= fun s =>
    .ok (some (-(1 / 2) * s + (-(1 / 2) * lndet - 1 / 2 * lndetICq), M))

/-- The loop over data sets, src/mc_con.c:587-651: memory is handed on from pass to pass. -/
noncomputable def fConLoop (sz : Arr → ℕ) (nq : ℕ) (P : ConPtrs) (pm : ℕ → ℝ) (idx : ℕ → ℕ) : List LC → ℕ → ℝ → Mem → Res (Option ℝ)
  | [], _, prob, _ => .ok (some prob)
  | d :: ds, k, prob, M =>
    fConTerm sz nq P d k pm (idx k) M >>= fun r =>
    match r with
    | none => .ok none
    | some (v, M') => fConLoop sz nq P pm idx ds (k + 1) (prob + v) M'

/-- `prob_con_variability_semiseparable`, src/mc_con.c:569-653; `M` is what memory holds when it is called. -/
noncomputable def fProbCon (sz : Arr → ℕ) (nq nmax : ℕ) (pm : ℕ → ℝ) (idx : ℕ → ℕ) (ds : List LC) (M : Mem) : Res (Option ℝ) :=
  fConLoop sz nq (conPtrs nq nmax) pm idx ds 0 0 M

end Mica
