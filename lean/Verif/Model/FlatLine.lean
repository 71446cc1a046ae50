import Verif.Model.Flat

/-!
# The likelihood of continuum and lines as a program on memory (src/mc_line.c:2192-2321, src/mathfun.c:795-819, 925-1083)

As in `Model/Flat.lean`: all intermediate matrices are pieces of the shared work arrays, which hold what earlier calls left.
-/

namespace Mica

open Matrix

/-- Continue unless the result is not finite (`none`). -/
def thenO {α β : Type} (r : Res (Option α)) (f : α → Res (Option β)) : Res (Option β) :=
  r >>= fun o => match o with
    | none => .ok none
    | some a => f a

/-! ### Integers in an array of doubles -/

/-- How two `int`s are laid out in the eight bytes of a double: `put h v x` replaces the half `h` of the element `x`, `get h x`
reads it.  Nothing else is assumed; in particular nothing about the number that the bytes represent. -/
structure IntCells where
  put : Bool → ℕ → ℝ → ℝ
  get : Bool → ℝ → ℕ
  get_put : ∀ h v x, get h (put h v x) = v
  get_put_other : ∀ h v x, get (!h) (put h v x) = get (!h) x

/-- `narr[i] = v`, where `narr` is `(int *)p`. -/
def stInt (E : IntCells) (sz : Arr → ℕ) (p : DPtr) (i v : ℕ) (M : Mem) : Res Mem :=
  std sz p (i / 2) (E.put (decide (i % 2 = 1)) v (M p.arr (p.off + i / 2))) M

/-- `narr[i]`. -/
def ldInt (E : IntCells) (sz : Arr → ℕ) (p : DPtr) (i : ℕ) (M : Mem) : Res ℕ :=
  ldd sz p (i / 2) M >>= fun x => .ok (E.get (decide (i % 2 = 1)) x)

/-! ### Inverse of the first block, src/mathfun.c:961-991 -/

/-- The lower triangle of a matrix, which is what `dtrtri` and `dlauum` with `'L'` read. -/
def lowerPart {n : ℕ} (A : Matrix (Fin n) (Fin n) ℝ) : Matrix (Fin n) (Fin n) ℝ := fun i j => if j ≤ i then A i j else 0

open Classical in
/-- Replacing the lower triangle (with diagonal) of the `n x n` matrix at `p` by that of `f` of it. -/
noncomputable def mapLower (sz : Arr → ℕ) (p : DPtr) (n : ℕ) (f : Matrix (Fin n) (Fin n) ℝ → Matrix (Fin n) (Fin n) ℝ)
    (M : Mem) : Res Mem :=
  if inside sz p (n * n) then
    .ok fun A x =>
      if A = p.arr ∧ p.off ≤ x ∧ x < p.off + n * n ∧ (x - p.off) % n ≤ (x - p.off) / n then
        arrayOf (f (lowerPart (matAt M p n n))) ((x - p.off) / n) ((x - p.off) % n)
      else M A x
  else .ub

/-- `LAPACKE_dtrtri(LAPACK_ROW_MAJOR, 'L', 'N', n, A, n)` for a matrix without zero on the diagonal, by its specification. -/
noncomputable def dtrtri (sz : Arr → ℕ) (p : DPtr) (n : ℕ) : Mem → Res Mem := mapLower sz p n fun L => L⁻¹

/-- `LAPACKE_dlauum(LAPACK_ROW_MAJOR, 'L', n, A, n)`: `Lᵀ L`. -/
noncomputable def dlauum (sz : Arr → ℕ) (p : DPtr) (n : ℕ) : Mem → Res Mem := mapLower sz p n fun L => Lᵀ * L

/-- `for(i=0; i<n; i++) for(j=i+1; j<n; j++) A[i*n+j] = A[j*n+i]`, src/mathfun.c:987-989. -/
noncomputable def fillUpper (sz : Arr → ℕ) (p : DPtr) (n : ℕ) : Mem → Res Mem :=
  forD n fun i => forD (n - (i + 1)) fun j M =>
    ldd sz p ((i + 1 + j) * n + i) M >>= fun v => std sz p (i * n + (i + 1 + j)) v M

/-- The loop that fills the lower triangle and adds up the log-determinant, src/mathfun.c:970-979.  The logarithm of a number
that is not positive is not finite: `none`. -/
noncomputable def fTri (sz : Arr → ℕ) (t : ℕ → ℝ) (n : ℕ) (a1 c1 : ℝ) (W D A : DPtr) (M : Mem) : Res (ℝ × Mem) :=
  forD n (fun i (s : ℝ × Mem) =>
    ldd sz D i s.2 >>= fun di =>
    std sz A (i * n + i) (1 * Real.sqrt di) s.2 >>=
    forD i (fun j M =>
      ldd sz W j M >>= fun wj => ldd sz D j M >>= fun dj =>
      std sz A (i * n + j) (a1 * (Real.exp (-c1 * (t i - t j)) * wj) * Real.sqrt dj) M) >>= fun M =>
    ldd sz D i M >>= fun di => .ok (s.1 + Real.log di, M)) (0, M)

open Classical in
/-- `inverse_semiseparable`, src/mathfun.c:961-991: log-determinant and memory.  If an element of `D` is not positive, its
square root or logarithm is not finite or `dtrtri` finds a zero on the diagonal: `none`. -/
noncomputable def fInverseSemi (sz : Arr → ℕ) (t : ℕ → ℝ) (n : ℕ) (a1 c1 : ℝ) (sigma : ℕ → Mem → Res ℝ) (syserr : ℝ)
    (W D phi A : DPtr) (M : Mem) : Res (Option (ℝ × Mem)) :=
  fSemi sz t n a1 c1 sigma syserr W D phi M >>= fun M =>
  fTri sz t n a1 c1 W D A M >>= fun r =>
  if ∃ i < n, r.2 D.arr (D.off + i) ≤ 0 then .ok none else
  dtrtri sz A n r.2 >>= dlauum sz A n >>= fillUpper sz A n >>= fun M => .ok (some (r.1, M))

/-! ### One band after the other, src/mathfun.c:795-819, 925-949, 1000-1083 -/

/-- Copying `r` rows of `c` elements from `src`, where row and column give the address, to the matrix at `dst`,
src/mathfun.c:1021-1035. -/
noncomputable def fTake (sz : Arr → ℕ) (src : DPtr) (ad : ℕ → ℕ → ℕ) (dst : DPtr) (r c : ℕ) : Mem → Res Mem :=
  forD r fun i => forD c fun j M => ldd sz src (ad i j) M >>= fun v => std sz dst (i * c + j) v M

/-- The part common to `inverse_symat_lndet_partition_inv_fast`, src/mathfun.c:805-817, and
`inverse_symat_lndet_partition_inv_semiseparable`, 937-949, as called: `SN = S` and `QN = Q`. -/
noncomputable def fPart (sz : Arr → ℕ) (Pinv S Q : DPtr) (n1 n2 : ℕ) (PN work : DPtr) (M : Mem) : Res (Option (ℝ × Mem)) :=
  thenO (fMNTAab sz Q work S n2 n2 n1 (-1) 1 M >>= fInverseSymat sz S n2) fun r =>
  fMNab sz work S Q n1 n2 n2 (-1) 0 r.2.2 >>=
  copyD sz PN Pinv (n1 * n1) >>=
  fMNTBab sz Q work PN n1 n1 n2 (-1) 1 >>= fun M => .ok (some (r.1, M))

/-- The loops that put the blocks together, src/mathfun.c:1053-1078. -/
noncomputable def fPut (sz : Arr → ℕ) (Ai ANi QNi SNi : DPtr) (ni nq : ℕ) (M : Mem) : Res Mem :=
  forD ni (fun i M =>
    forD ni (fun j M => ldd sz ANi (i * ni + j) M >>= fun v => std sz Ai (i * (ni + nq) + j) v M) M >>=
    forD nq (fun j M =>
      ldd sz QNi (i * nq + j) M >>= fun v =>
      std sz Ai ((ni + j) * (ni + nq) + i) v M >>= fun M =>
      ldd sz Ai ((ni + j) * (ni + nq) + i) M >>= fun v => std sz Ai (i * (ni + nq) + (ni + j)) v M)) M >>=
  forD nq (fun i => forD nq fun j M =>
    ldd sz SNi (i * nq + j) M >>= fun v => std sz Ai ((ni + i) * (ni + nq) + (ni + j)) v M)

/-- One pass of the loop of `inverse_semiseparable_iter`, src/mathfun.c:1012-1080: `work` is `work_inv`, `first` tells whether
`k==1`, `last` whether `k==np`. -/
noncomputable def fBand (sz : Arr → ℕ) (W D phi : DPtr) (a1 : ℝ) (A work : DPtr) (nt ni nq : ℕ) (first last : Bool) (M : Mem) :
    Res (Option (ℝ × Mem)) :=
  let ANi := work.plus (nt * nt)
  let QNi := ANi.plus (ni * ni)
  let SNi := QNi.plus (ni * nq)
  let pwork := SNi.plus (nq * nq)
  thenO (fTake sz A (fun i j => i * nt + (ni + j)) QNi ni nq M >>=
    fTake sz A (fun i j => (ni + i) * nt + (ni + j)) SNi nq nq >>=
    (if first then fSolveMat sz QNi W D phi ni nq a1 pwork else fMN sz work QNi pwork ni nq ni) >>=
    fPart sz work SNi QNi ni nq ANi pwork) fun r =>
  fPut sz (if last then A else work) ANi QNi SNi ni nq r.2 >>= fun M => .ok (some (r.1, M))

/-- The loop `for(k=1; k<=np; k++)` with `todo` passes left, src/mathfun.c:1012-1081. -/
noncomputable def fBands (E : IntCells) (sz : Arr → ℕ) (W D phi : DPtr) (a1 : ℝ) (A work narr : DPtr) (nt : ℕ) :
    (todo : ℕ) → (k ni : ℕ) → ℝ → Mem → Res (Option (ℝ × Mem))
  | 0, _, _, ld, M => .ok (some (ld, M))
  | todo + 1, k, ni, ld, M =>
    ldInt E sz narr k M >>= fun nq =>
    thenO (fBand sz W D phi a1 A work nt ni nq (k == 1) (todo == 0) M) fun r =>
    fBands E sz W D phi a1 A work narr nt todo (k + 1) (ni + nq) (ld + r.1) r.2

/-- `inverse_semiseparable_iter`, src/mathfun.c:1000-1083. -/
noncomputable def fSemiIter (E : IntCells) (sz : Arr → ℕ) (t : ℕ → ℝ) (a1 c1 : ℝ) (sigma : ℕ → Mem → Res ℝ) (syserr : ℝ)
    (W D phi A : DPtr) (nt : ℕ) (narr : DPtr) (np : ℕ) (work : DPtr) (M : Mem) : Res (Option (ℝ × Mem)) :=
  ldInt E sz narr 0 M >>= fun ni =>
  thenO (fInverseSemi sz t ni a1 c1 sigma syserr W D phi work M) fun r =>
  fBands E sz W D phi a1 A work narr nt np 1 ni r.1 r.2

/-! ### The likelihood, src/mc_line.c:2192-2321 -/

/-- Rows of `Larr` that belong to the continuum, src/mc_line.c:2235-2243. -/
noncomputable def fTrendFirst (sz : Arr → ℕ) (t : ℕ → ℝ) (n nq nqall : ℕ) (L : DPtr) : Mem → Res Mem :=
  forD n fun i M =>
    std sz L (i * nqall) 1 M >>=
    forD (nq - 1) (fun j => std sz L (i * nqall + (j + 1)) (t i ^ (j + 1))) >>=
    forD (nqall - nq) (fun j => std sz L (i * nqall + (nq + j)) 0)

/-- Rows of `Larr` that belong to the lines, src/mc_line.c:2244-2258. -/
noncomputable def fTrendLines (sz : Arr → ℕ) (nq nqall : ℕ) (L : DPtr) : List LC → (j np : ℕ) → Mem → Res Mem
  | [], _, _, M => .ok M
  | a :: l, j, np, M =>
    forD a.n (fun m M =>
      forD nqall (fun i => std sz L ((np + m) * nqall + i) 0) M >>=
      std sz L ((np + m) * nqall + nq + j * nq + 0) 1 >>=
      forD (nq - 1) (fun i => std sz L ((np + m) * nqall + nq + j * nq + (i + 1)) (a.t m ^ (i + 1)))) M >>=
    fTrendLines sz nq nqall L l (j + 1) (np + a.n)

/-- `set_covar_Pmat_data_line_array`, src/mc_line.c:2530-2629: its writes to `PCmat`, in the order of the code.  (The copies of
the same values in `PSmat` and the scratch arrays of the covariance functions, for which see `Model/ArrayKernel.lean`, are left
out: they are other arrays.) -/
noncomputable def fCovar (sz : Arr → ℕ) (ws : List (ℕ × ℝ)) (M : Mem) : Res Mem :=
  match ws with
  | [] => .ok M
  | w :: ws => std sz ⟨.sh .pcmat, 0⟩ w.1 w.2 M >>= fCovar sz ws

/-- The pointers of `prob_line_variability4`. -/
structure LinePtrs where
  Larr : DPtr
  ybuf : DPtr
  y : DPtr
  yq : DPtr
  Cq : DPtr
  W : DPtr
  D : DPtr
  phi : DPtr
  fe : DPtr
  narr : DPtr

/-- src/mc_line.c:2206-2220; `nmax` is `nall_max`, `lmax` is `nlset_max`. -/
def linePtrs (nq nmax lmax : ℕ) : LinePtrs :=
  let Larr : DPtr := ⟨.sh .workspace, 0⟩
  let ybuf := Larr.plus (nmax * ((1 + lmax) * nq))
  let y := ybuf.plus (nmax * ((1 + lmax) * nq))
  let yq := y.plus nmax
  let Cq := yq.plus ((1 + lmax) * nq)
  let W := Cq.plus (((1 + lmax) * nq) * ((1 + lmax) * nq))
  let D := W.plus nmax
  let phi := D.plus nmax
  let fe := phi.plus nmax
  let narr := fe.plus nmax
  ⟨Larr, ybuf, y, yq, Cq, W, D, phi, fe, narr⟩

/-- What a data set contributes: the loop goes on, or the function returns `-DBL_MAX`. -/
inductive Outcome where
  | goOn (v : ℝ) (M : Mem)
  | reject

open Classical in
/-- One pass of the loop over data sets, src/mc_line.c:2225-2317.  `none`: the value is not finite. -/
noncomputable def fLineTerm (E : IntCells) (sz : Arr → ℕ) (nq : ℕ) (P : LinePtrs) (K : Kernels) (d : DSet) (k : ℕ) (pm : ℕ → ℝ)
    (idxc : ℕ) (idxl : ℕ → ℕ) (M : Mem) : Res (Option Outcome) :=
  let fall : DPtr := ⟨.fall k, 0⟩
  let PC : DPtr := ⟨.sh .pcmat, 0⟩
  let work : DPtr := ⟨.sh .inv, 0⟩
  let tau := pmTau pm idxc
  let sigma := pmSigma pm idxc
  let syserr := pmSyserr pm idxc d.con.em / sigma
  let nall := d.nall
  let nqall := nq * (1 + d.line.length)
  fTrendFirst sz d.con.t d.con.n nq nqall P.Larr M >>=
  fTrendLines sz nq nqall P.Larr d.line 0 d.con.n >>=
  stInt E sz P.narr 0 d.con.n >>=
  forD d.line.length (fun i => stInt E sz P.narr (i + 1) ((d.line[i]?.map LC.n).getD 0)) >>=
  fCovar sz (lineWritesArr K d pm idxc idxl) >>=
  forD d.con.n (fun i => std sz P.fe i (d.con.fe i / sigma)) >>= fun M =>
  thenO (fSemiIter E sz d.con.t 1 (1 / tau) (fun i => ldd sz P.fe i) syserr P.W P.D P.phi PC nall P.narr d.line.length work M)
    fun r =>
  let lndet := r.1 + 2 * nall * Real.log sigma
  fMN sz PC P.Larr P.ybuf nall nqall nall r.2 >>=
  fMNTA sz P.Larr P.ybuf P.Cq nqall nqall nall >>=
  fMatvecMNTA sz P.ybuf nall nqall fall P.yq >>=
  fInverseSymat sz P.Cq nqall >>= fun o =>
  match o with
  -- `info!=0`
  | none => .ok (some .reject)
  | some (ld, sign, M) =>
    if sign = -1 then .ok (some .reject) else
    let lndetICq := ld + -2 * nqall * Real.log sigma
    fMN sz P.Cq P.yq P.ybuf nqall 1 nqall M >>=
    copyD sz P.y fall nall >>=
    fMatvecMNab sz P.Larr nall nqall P.ybuf P.y (-1) 1 >>=
    fMatvec sz PC P.y nall P.ybuf >>= fun M =>
    ddot sz nall P.y P.ybuf M >>= fun s =>
    let prob1 := -(1 / 2) * s / (sigma * sigma)
    if 0 < prob1 then .ok (some .reject) else
    .ok (some (.goOn (prob1 - 1 / 2 * lndet - 1 / 2 * lndetICq) M))

/-- The loop over data sets, src/mc_line.c:2222-2319: memory is handed on from pass to pass. -/
noncomputable def fLineLoop (E : IntCells) (sz : Arr → ℕ) (P : LinePtrs) (e : LineEnv) : List DSet → ℕ → ℝ → Mem → Res (Option ℝ)
  | [], _, prob, _ => .ok (some prob)
  | d :: ds, k, prob, M =>
    thenO (fLineTerm E sz e.nq P (e.K k) d k e.pm (e.idxc k) (e.idxl k) M) fun r =>
    match r with
    | .reject => .ok (some (-DBL_MAX))
    | .goOn v M' => fLineLoop E sz P e ds (k + 1) (prob + v) M'

/-- `prob_line_variability4`, src/mc_line.c:2192-2321. -/
noncomputable def fProbLine (E : IntCells) (sz : Arr → ℕ) (nmax lmax : ℕ) (e : LineEnv) (ds : List DSet) (M : Mem) :
    Res (Option ℝ) := fLineLoop E sz (linePtrs e.nq nmax lmax) e ds 0 0 M

end Mica
