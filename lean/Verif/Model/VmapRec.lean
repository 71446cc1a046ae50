import Verif.Model.Recon
import Verif.Model.VmapLike
import Verif.Model.Misc

/-!
# Reconstruction in the virtual-continuum mode (src/mc_vmap.c:605-1040, 1376-1799)

The light curves to be reconstructed are those of a data set `R`: its continuum is the virtual one.
`output_reconstruction_vmap` (1042-1375) is not called.
-/

namespace Mica

open Matrix

/-- `PCmat` after `set_covar_Pmat_data_line_vmap`, src/mc_vmap.c:1547-1606. -/
noncomputable def vPCseq (K : Kernels) (pm : ℕ → ℝ) (idxc : ℕ) (idxl : ℕ → ℕ) (ls : List LC) (mem : ℕ → ℝ) :
    Matrix (Fin (totalN ls)) (Fin (totalN ls)) ℝ :=
  matOf (runWrites (llWrites K (vSigma pm idxc) pm idxl (totalN ls) ls 0 0) mem) (totalN ls) (totalN ls)

/-- The rows of `USmat` of the reconstructed lines, src/mc_vmap.c:1642-1686; the loop over the data lines is
split at the line itself in the code. -/
def vuLines (K : Kernels) (nd : ℕ) (ls : List LC) : List LC → ℕ → ℕ → List (ℕ × ℝ)
  | [], _, _ => []
  | a :: l, k, np =>
    ((List.range a.n).flatMap fun i =>
      uRow (fun m t2 => if m = k then K.Sll (a.t i) t2 k else K.Sll2 (a.t i) t2 k m) nd (np + i) ls 0 0) ++
    vuLines K nd ls l (k + 1) (np + a.n)

/-- `set_covar_Umat_line_vmap`, src/mc_vmap.c:1611-1688; lines 1622-1640 are the rows of the virtual
continuum. -/
def vuWrites (K : Kernels) (ls : List LC) (R : DSet) : List (ℕ × ℝ) :=
  ((List.range R.con.n).flatMap fun i => uRow (fun k t2 => K.Slc (R.con.t i) t2 k) (totalN ls) i ls 0 0) ++
  vuLines K (totalN ls) ls R.line 0 R.con.n

/-- `USmat` after `set_covar_Umat_line_vmap`. -/
noncomputable def vUS (K : Kernels) (ls : List LC) (R : DSet) (mem : ℕ → ℝ) :
    Matrix (Fin R.nall) (Fin (totalN ls)) ℝ :=
  matOf (runWrites (vuWrites K ls R) mem) R.nall (totalN ls)

/-- `ASmat` after `set_covar_Amat_line_vmap`, src/mc_vmap.c:1695-1765, the same loops as in
`set_covar_Amat_line`. -/
noncomputable def vAS (K : Kernels) (tau : ℝ) (R : DSet) (mem : ℕ → ℝ) : Matrix (Fin R.nall) (Fin R.nall) ℝ :=
  matOf (runWrites (aWrites K tau R) mem) R.nall R.nall

/-- `Larr_rec`, src/mc_vmap.c:1471-1496: zero for the virtual continuum. -/
noncomputable def vTrendRec (nq q : ℕ) (R : DSet) : Matrix (Fin R.nall) (Fin q) ℝ :=
  fun p c => if (p : ℕ) < R.con.n then 0 else trendRow nq R.line 0 (p - R.con.n) c

/-- `yqall`, src/mc_vmap.c:1455-1459 and 858-862: the `nq` coefficients of the virtual continuum are zero, those
of the lines follow. -/
def vCoef {q : ℕ} (nq : ℕ) (yq : Fin q → ℝ) : Fin (nq + q) → ℝ := Fin.append (fun _ => 0) yq

/-- `reconstruct_line_from_varmodel_vmap` after the matrices have been set up, src/mc_vmap.c:1445-1533; `nv` is
the number of points of the virtual continuum. -/
noncomputable def vRec {n q m : ℕ} (nq nv : ℕ) (PC : Matrix (Fin n) (Fin n) ℝ) (U : Matrix (Fin m) (Fin n) ℝ)
    (A : Matrix (Fin m) (Fin m) ℝ) (L : Matrix (Fin n) (Fin q) ℝ) (Lrec : Matrix (Fin m) (Fin q) ℝ)
    (f : Fin n → ℝ) (sigma : ℝ) : Res (Recon (nq + q) m) :=
  luInv PC >>= fun I1 =>
  let T := I1 * L
  let Cq0 := Lᵀ * T
  let yq0 := Tᵀ.mulVec f
  luInv Cq0 >>= fun Cq1 =>
  let yq := Cq1.mulVec yq0
  let y := f - L.mulVec yq
  luInv PC >>= fun I2 =>
  let fall := U.mulVec (I2.mulVec y)
  luInv PC >>= fun I3 =>
  let PE2 := I3 * Uᵀ
  let PE1 := U * PE2
  let PE3 := PE2ᵀ * L - Lrec
  luInv Cq0 >>= fun Cq =>
  let PE4 := (PE3 * Cq) * PE3ᵀ
  .ok ⟨vCoef nq yq, fall + Lrec.mulVec yq, fun i =>
    (cSqrt (if (i : ℕ) < nv then A i i - PE1 i i else A i i - PE1 i i + PE4 i i)).map fun s => sigma * s⟩

/-- `reconstruct_line_from_varmodel_vmap`, src/mc_vmap.c:1376-1540; `memP`, `memU`, `memA` are the previous
contents of `PCmat`, `USmat`, `ASmat`. -/
noncomputable def vmapRec (K : Kernels) (nq : ℕ) (ls : List LC) (R : DSet) (pm : ℕ → ℝ) (idxc : ℕ) (idxl : ℕ → ℕ)
    (f : Fin (totalN ls) → ℝ) (memP memU memA : ℕ → ℝ) : Res (Recon (nq + nq * ls.length) R.nall) :=
  vRec nq R.con.n (vPCseq K pm idxc idxl ls memP) (vUS K ls R memU) (vAS K (Real.exp (pm (idxc + 2))) R memA)
    (vTrend nq ls) (vTrendRec nq (nq * ls.length) R) f (vSigma pm idxc)

/-! ## Nodes and output -/

/-- First and last time over the lines, given as `(t[0], t[n-1])`, src/mc_vmap.c:792-801: the loop starts from
`DBL_MAX` and 0. -/
noncomputable def vBegEnd (lines : List (ℝ × ℝ)) : ℝ × ℝ :=
  lines.foldl (fun a l => (min a.1 l.1, max a.2 l.2)) (DBL_MAX, 0)

/-- Number of nodes, src/mc_vmap.c:742-763: of all light curves, from the numbers of points of the lines. -/
def vNumNodes (ns : List ℕ) (ndRec : ℕ) : ℕ := ns.foldl (fun a n => max a (min (n * 3) ndRec)) 0

/-- `mean` of `light_curve_normalize`, src/mc_vmap.c:1776-1781. -/
noncomputable def lcMean (y : List ℝ) : ℝ := y.sum / y.length

/-- `std` of `light_curve_normalize`, src/mc_vmap.c:1784-1790. -/
noncomputable def lcStd (y : List ℝ) (std : ℝ) : ℝ :=
  Real.sqrt ((y.map fun v => (v - lcMean y) * (v - lcMean y)).sum / y.length) / std

/-- `light_curve_normalize` on the fluxes, src/mc_vmap.c:1771-1799; `none` is NaN: 0/0. -/
noncomputable def lcNormalize (y : List ℝ) (std : ℝ) : List (Option ℝ) :=
  y.map fun v => if lcStd y std = 0 then none else some ((v - lcMean y) / lcStd y std)

/-- The final arithmetic for a node of the virtual continuum, src/mc_vmap.c:933-944: the largest error is left
out. -/
noncomputable def accOutVirtual (n : ℕ) (a : RecAcc) : ℝ × ℝ :=
  (a.best / n, Real.sqrt (a.sq / n - a.best / n * (a.best / n)))

/-- Mean and uncertainty of one node of the virtual continuum as written to the file, for `T` tasks,
src/mc_vmap.c:856-949. -/
noncomputable def reconstructVirtual (g : List ℝ → ℝ × ℝ) (all : List ℝ) (n T np : ℕ) : Res (ℝ × ℝ) :=
  reduceTasks g all n T np (T - 1) >>= fun r => .ok (accOutVirtual n r)

end Mica
