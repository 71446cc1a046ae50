import Verif.Model.Line

/-!
# Reconstruction of light curves (src/mc_con.c:182-369, 719-740; src/mc_line.c:1373-1855, 2630-2795)

Doubles are real numbers, BLAS products matrix products, as in `Verif.Model.Like`; arrays used as
scratch space are given by their content.
-/

namespace Mica

open Matrix

/-- `sqrt` of a double: `none` is NaN. -/
noncomputable def cSqrt (x : ℝ) : Option ℝ := if x < 0 then none else some (Real.sqrt x)

/-- What a reconstruction returns: `yqall`, `fcon`/`fall` and `fecon`/`feall`. -/
@[ext] structure Recon (q m : ℕ) where
  coef : Fin q → ℝ
  val : Fin m → ℝ
  err : Fin m → Option ℝ

/-- The writes to `USmat` of `set_covar_Umat`, src/mc_con.c:723-740. -/
noncomputable def umatWrites (tau alpha : ℝ) (d : LC) (m : ℕ) (trec : ℕ → ℝ) : List (ℕ × ℝ) :=
  (List.range m).flatMap fun i => (List.range d.n).map fun j =>
    (i * d.n + j, Real.exp (-((|trec i - d.t j| / tau) ^ alpha)))

/-- `recostruct_con_from_varmodel`, src/mc_con.c:182-277 (`alpha` is 1 in src/mc_con.c:117): `m` times
`trec`; `memP` and `memU` are the previous contents of `PCmat` and `USmat`. -/
noncomputable def conRec (nq : ℕ) (sigma tau syserr : ℝ) (d : LC) (m : ℕ) (trec : ℕ → ℝ) (memP memU : ℕ → ℝ) :
    Res (Recon nq m) :=
  let PC := matOf (runWrites (conWrites sigma tau 1 syserr d) memP) d.n d.n
  let U := matOf (runWrites (umatWrites tau 1 d m trec) memU) m d.n
  let L := trendMat d.t d.n nq
  let Lrec := trendMat trec m nq
  let f : Fin d.n → ℝ := fun i => d.f i
  luInv PC >>= fun IPC =>
  let Cq0 := Lᵀ * (IPC * L)
  let yuq := Lᵀ.mulVec (IPC.mulVec f)
  luInv Cq0 >>= fun Cq =>
  let yq := Cq.mulVec yuq
  let y := f - L.mulVec yq
  let fcon := U.mulVec (IPC.mulVec y)
  let PEmat1 := U * IPC
  let PEmat2 := PEmat1 * Uᵀ
  let PEmat3 := PEmat1 * L - Lrec
  let PEmat4 := (PEmat3 * Cq) * PEmat3ᵀ
  .ok ⟨yq, fcon + Lrec.mulVec yq,
    fun i => (cSqrt (1 - PEmat2 i i + PEmat4 i i)).map fun s => sigma * s⟩

/-- `recostruct_con_from_varmodel_semiseparable`, src/mc_con.c:279-369 (the one used).
`multiply_mat_transposeB_semiseparable_drw` (src/mathfun.c:598-626) solves for the rows of `USmat`. -/
noncomputable def conRecSemi (nq : ℕ) (sigma tau syserr : ℝ) (d : LC) (m : ℕ) (trec : ℕ → ℝ) (memU : ℕ → ℝ) :
    Res (Recon nq m) :=
  let Us := runWrites (umatWrites tau 1 d m trec) memU
  let U := matOf Us m d.n
  let L := trendMat d.t d.n nq
  let f : Fin d.n → ℝ := fun i => d.f i
  let sigma2 := sigma * sigma
  let W := ssW d.t sigma2 (1 / tau) d.fe syserr
  let D := ssD d.t sigma2 (1 / tau) d.fe syserr
  let phi := ssPhi d.t (1 / tau)
  let ybuf : Matrix (Fin d.n) (Fin nq) ℝ :=
    fun i j => ssSolveMat (fun i j => if j = 0 then 1 else d.t i ^ j) W D phi d.n sigma2 i j
  let Cq0 := Lᵀ * ybuf
  let yuq := ybufᵀ.mulVec f
  luInv Cq0 >>= fun Cq =>
  let yq := Cq.mulVec yuq
  let y : Fin d.n → ℝ := (-1 : ℝ) • L.mulVec yq + (1 : ℝ) • f
  let PEmat1 : Matrix (Fin d.n) (Fin m) ℝ := fun i j => ssSolve (fun i => Us (i + j * d.n)) W D phi d.n sigma2 i
  let fcon0 : Fin m → ℝ := sigma2 • PEmat1ᵀ.mulVec y
  let Lrec := trendMat trec m nq
  let fcon : Fin m → ℝ := (1 : ℝ) • Lrec.mulVec yq + (1 : ℝ) • fcon0
  let PEmat2 := sigma2 • (U * PEmat1)
  let X := sigma2 • (PEmat1ᵀ * L) + (-1 : ℝ) • Lrec
  let PEmat1' := (1 / sigma2) • (X * Cq)
  let PEmat2' := (1 : ℝ) • (PEmat1' * Xᵀ) + (-1 : ℝ) • PEmat2
  .ok ⟨yq, fcon, fun i => (cSqrt (1 + PEmat2' i i)).map fun s => sigma * s⟩

/-! ## Lines -/

/-- Row `r` of `USmat` for a reconstructed point at `t1`: the entries of the data lines, numbered from `m`
with first point at `np`; `S m t2` is the covariance with a point of line `m`, src/mc_line.c:2657-2667 and
2688-2717 (there the loop over `m` is split at `m = k`). -/
def uRow (S : ℕ → ℝ → ℝ) (nd r : ℕ) : List LC → ℕ → ℕ → List (ℕ × ℝ)
  | [], _, _ => []
  | a :: l, m, np => ((List.range a.n).map fun j => (r * nd + (np + j), S m (a.t j))) ++
      uRow S nd r l (m + 1) (np + a.n)

/-- The rows of `USmat` of the reconstructed lines, src/mc_line.c:2670-2720. -/
def uLines (K : Kernels) (nd : ℕ) (d : DSet) : List LC → ℕ → ℕ → List (ℕ × ℝ)
  | [], _, _ => []
  | a :: l, k, np =>
    ((List.range a.n).flatMap fun i =>
      ((List.range d.con.n).map fun j => ((np + i) * nd + j, K.Slc (d.con.t j) (a.t i) k)) ++
      uRow (fun m t2 => if m = k then K.Sll (a.t i) t2 k else K.Sll2 (a.t i) t2 k m) nd (np + i) d.line 0 d.con.n) ++
    uLines K nd d l (k + 1) (np + a.n)

/-- `set_covar_Umat_line`, src/mc_line.c:2633-2722, and `set_covar_Umat_line_mmap`, src/mc_mmap.c:1218-1307,
the same with the covariance functions for mixed types.  The counts `nall` and times `tall` of the
reconstruction are those of the light curves of `R`. -/
noncomputable def uWrites (K : Kernels) (tau : ℝ) (d R : DSet) : List (ℕ × ℝ) :=
  ((List.range R.con.n).flatMap fun i =>
    ((List.range d.con.n).map fun j => (i * d.nall + j, Real.exp (-|R.con.t i - d.con.t j| / tau))) ++
    uRow (fun k t2 => K.Slc (R.con.t i) t2 k) d.nall i d.line 0 d.con.n) ++
  uLines K d.nall d R.line 0 R.con.n

/-- The line part of `set_covar_Amat_line`, src/mc_line.c:2765-2793. -/
noncomputable def aLines (K : Kernels) (nt : ℕ) : List LC → ℕ → ℕ → List (ℕ × ℝ)
  | [], _, _ => []
  | a :: l, k, np =>
    ((List.range a.n).flatMap fun j =>
      ((List.range j).flatMap fun i => both nt (np + j) (np + i) (K.Sll (a.t j) (a.t i) k)) ++
      [((np + j) * nt + (np + j), K.Sll (a.t j) (a.t j) k)] ++
      llRow K.Sll2 nt (np + j) (a.t j) k l (k + 1) (np + a.n)) ++
    aLines K nt l (k + 1) (np + a.n)

/-- `set_covar_Amat_line`, src/mc_line.c:2727-2795, and `set_covar_Amat_line_mmap`, src/mc_mmap.c:1312-1382. -/
noncomputable def aWrites (K : Kernels) (tau : ℝ) (R : DSet) : List (ℕ × ℝ) :=
  ((List.range R.con.n).flatMap fun i =>
    ((List.range i).flatMap fun j => both R.nall i j (Real.exp (-|R.con.t i - R.con.t j| / tau))) ++
    [(i * R.nall + i, 1)] ++
    lcRow K.Slc R.nall i (R.con.t i) R.line 0 R.con.n) ++
  aLines K R.nall R.line 0 R.con.n

/-- `Larr_rec`, src/mc_line.c:1801-1828: as `Larr`, for the reconstructed times. -/
noncomputable def DSet.trendRec (R : DSet) (nq q : ℕ) : Matrix (Fin R.nall) (Fin q) ℝ :=
  fun p c => trendRow nq R.series 0 p c

/-- `reconstruct_line_from_varmodel` after the matrices have been set up, src/mc_line.c:1601-1681. -/
noncomputable def lineRec1 {n q m : ℕ} (PC : Matrix (Fin n) (Fin n) ℝ) (U : Matrix (Fin m) (Fin n) ℝ)
    (A : Matrix (Fin m) (Fin m) ℝ) (L : Matrix (Fin n) (Fin q) ℝ) (Lrec : Matrix (Fin m) (Fin q) ℝ)
    (f : Fin n → ℝ) (sigma : ℝ) : Res (Recon q m) :=
  luInv PC >>= fun I1 =>
  let T := I1 * L
  let Cq0 := Lᵀ * T
  let yq0 := Tᵀ.mulVec f
  luInv Cq0 >>= fun Cq1 =>
  let yq := Cq1.mulVec yq0
  let y := f - L.mulVec yq
  luInv PC >>= fun I2 =>
  let fall := U.mulVec (I2.mulVec y)
  luInv PC >>= fun I3 =>
  let PE2 := I3 * Uᵀ
  let PE1 := U * PE2
  let PE3 := PE2ᵀ * L - Lrec
  luInv Cq0 >>= fun Cq =>
  let PE4 := (PE3 * Cq) * PE3ᵀ
  .ok ⟨yq, fall + Lrec.mulVec yq, fun i => (cSqrt (A i i - PE1 i i + PE4 i i)).map fun s => sigma * s⟩

/-- `reconstruct_line_from_varmodel2` after the matrices have been set up, src/mc_line.c:1416-1513; the
return codes of `inverse_symat` are ignored by the code. -/
noncomputable def lineRec2 {n q m : ℕ} (PC : Matrix (Fin n) (Fin n) ℝ) (U : Matrix (Fin m) (Fin n) ℝ)
    (A : Matrix (Fin m) (Fin m) ℝ) (L : Matrix (Fin n) (Fin q) ℝ) (Lrec : Matrix (Fin m) (Fin q) ℝ)
    (f : Fin n → ℝ) (sigma : ℝ) : Recon q m :=
  let IPC := inverseSymat PC
  let Cq := inverseSymat (Lᵀ * (IPC * L))
  let yq := Cq.mulVec (Lᵀ.mulVec (IPC.mulVec f))
  let y := f - L.mulVec yq
  let fall := U.mulVec (IPC.mulVec y)
  let PE1 := U * IPC
  let PE2 := PE1 * Uᵀ
  let PE3 := PE1 * L - Lrec
  let PE4 := (PE3 * Cq) * PE3ᵀ
  ⟨yq, fall + Lrec.mulVec yq, fun i => (cSqrt (A i i - PE2 i i + PE4 i i)).map fun s => sigma * s⟩

/-- `reconstruct_line_from_varmodel3` (the one used), src/mc_line.c:1692-1855, and
`reconstruct_line_from_varmodel_mmap`, src/mc_mmap.c:650-814, the same with the array fill for mixed types; for `PCmat`, `USmat`, `ASmat`
as set up in lines 1740-1744. -/
noncomputable def lineRec3 (nq : ℕ) (d : DSet) (pm : ℕ → ℝ) (idxc : ℕ) {m : ℕ}
    (PC : Matrix (Fin d.nall) (Fin d.nall) ℝ) (U : Matrix (Fin m) (Fin d.nall) ℝ)
    (A : Matrix (Fin m) (Fin m) ℝ) (Lrec : Matrix (Fin m) (Fin (nq * (1 + d.line.length))) ℝ) (f : Fin d.nall → ℝ) :
    Recon (nq * (1 + d.line.length)) m :=
  let tau := pmTau pm idxc
  let sigma := pmSigma pm idxc
  let syserr := pmSyserr pm idxc d.con.em / sigma
  let L := d.trend nq
  let r := semiIter d.con.t 1 (1 / tau) (fun i => d.con.fe i / sigma) syserr (arrayOf PC) d.con.n
    (d.line.map LC.n)
  let IPC := block r.2.1 0 d.nall 0 d.nall
  let ybuf := IPC * L
  let Cq := inverseSymat (Lᵀ * ybuf)
  let yq := Cq.mulVec (ybufᵀ.mulVec f)
  let y : Fin d.nall → ℝ := (-1 : ℝ) • L.mulVec yq + (1 : ℝ) • f
  let PE1 := U * IPC
  let fall0 := PE1.mulVec y
  let fall : Fin m → ℝ := (1 : ℝ) • Lrec.mulVec yq + (1 : ℝ) • fall0
  let PE2 := PE1 * Uᵀ
  let X := (1 : ℝ) • (PE1 * L) + (-1 : ℝ) • Lrec
  let PE2' := (1 : ℝ) • ((X * Cq) * Xᵀ) + (-1 : ℝ) • PE2
  ⟨yq, fall, fun i => (cSqrt (A i i + PE2' i i)).map fun s => sigma * s⟩

/-- `PCmat` after `set_covar_Pmat_data_line`, src/mc_line.c:2431-2523. -/
noncomputable def DSet.PCseq (K : Kernels) (d : DSet) (pm : ℕ → ℝ) (idxc : ℕ) (idxl : ℕ → ℕ)
    (mem : ℕ → ℝ) : Matrix (Fin d.nall) (Fin d.nall) ℝ :=
  matOf (runWrites (lineWrites K d pm idxc idxl) mem) d.nall d.nall

/-- `USmat` after `set_covar_Umat_line`. -/
noncomputable def DSet.US (K : Kernels) (d R : DSet) (pm : ℕ → ℝ) (idxc : ℕ) (mem : ℕ → ℝ) :
    Matrix (Fin R.nall) (Fin d.nall) ℝ :=
  matOf (runWrites (uWrites K (pmTau pm idxc) d R) mem) R.nall d.nall

/-- `ASmat` after `set_covar_Amat_line`. -/
noncomputable def DSet.AS (K : Kernels) (R : DSet) (pm : ℕ → ℝ) (idxc : ℕ) (mem : ℕ → ℝ) :
    Matrix (Fin R.nall) (Fin R.nall) ℝ :=
  matOf (runWrites (aWrites K (pmTau pm idxc) R) mem) R.nall R.nall

/-- The three line reconstructions from the data: `f` is the array `alldata[k].f`, and `memP`, `memU`, `memA`
are the previous contents of `PCmat`, `USmat`, `ASmat`. -/
noncomputable def lineRecs (K : Kernels) (nq : ℕ) (d R : DSet) (pm : ℕ → ℝ) (idxc : ℕ) (idxl : ℕ → ℕ)
    (f : Fin d.nall → ℝ) (memP memU memA : ℕ → ℝ) :
    Res (Recon (nq * (1 + d.line.length)) R.nall) × Recon (nq * (1 + d.line.length)) R.nall ×
      Recon (nq * (1 + d.line.length)) R.nall :=
  let PC := d.PCseq K pm idxc idxl memP
  let U := DSet.US K d R pm idxc memU
  let A := DSet.AS K R pm idxc memA
  let Lrec := R.trendRec nq (nq * (1 + d.line.length))
  (lineRec1 PC U A (d.trend nq) Lrec f (pmSigma pm idxc),
    lineRec2 PC U A (d.trend nq) Lrec f (pmSigma pm idxc),
    lineRec3 nq d pm idxc PC U A Lrec f)

end Mica
