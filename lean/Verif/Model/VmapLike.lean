import Verif.Model.Line

/-!
# The likelihood of the virtual-continuum mode (src/mc_vmap.c:326-601)

In this mode the number of continuum points must be zero (src/read.c:615-623), so a data set is the list of
its lines; `alldata` is their concatenation.  A negative number of continuum points is not modelled.
-/

namespace Mica

open Matrix

/-- `sigma` in this mode: without the factor `sqrt(tau)` of the other modes, src/mc_vmap.c:355, 459, 558. -/
noncomputable def vSigma (pm : ℕ → ℝ) (idxc : ℕ) : ℝ := Real.exp (pm (idxc + 1))

/-- All writes to `PCmat` of `set_covar_Pmat_data_line_array_vmap`, src/mc_vmap.c:543-604. -/
noncomputable def vWrites (K : Kernels) (pm : ℕ → ℝ) (idxc : ℕ) (idxl : ℕ → ℕ) (ls : List LC) : List (ℕ × ℝ) :=
  llWritesArr K (vSigma pm idxc) pm idxl (totalN ls) ls 0 0

/-- `PCmat` after `set_covar_Pmat_data_line_array_vmap`. -/
noncomputable def vPC (K : Kernels) (pm : ℕ → ℝ) (idxc : ℕ) (idxl : ℕ → ℕ) (ls : List LC) (mem : ℕ → ℝ) :
    Matrix (Fin (totalN ls)) (Fin (totalN ls)) ℝ :=
  matOf (runWrites (vWrites K pm idxc idxl ls) mem) (totalN ls) (totalN ls)

/-- `Larr`, src/mc_vmap.c:362-376, 466-480: the columns of line `j` are `j*nq ... j*nq+nq-1`. -/
noncomputable def vTrend (nq : ℕ) (ls : List LC) : Matrix (Fin (totalN ls)) (Fin (nq * ls.length)) ℝ :=
  fun p c => trendRow nq ls 0 p c

/-- `alldata[k].f`, src/read.c:918-926, without continuum. -/
noncomputable def vFall (ls : List LC) : Fin (totalN ls) → ℝ := fun i => concat LC.f ls i

open Classical in
/-- `prob_line_variability4_vmap` for one data set, src/mc_vmap.c:456-532.  `line[0]` is read first; without
lines that is a read outside of the array. -/
noncomputable def vTerm4 (nq : ℕ) (ls : List LC) (sigma : ℝ)
    (PC : Matrix (Fin (totalN ls)) (Fin (totalN ls)) ℝ) : Res (Option ℝ) :=
  match (ls.map LC.n : List ℕ) with
  | [] => .ub
  | n0 :: narr =>
    let L := vTrend nq ls
    let f := vFall ls
    let r := partIter (arrayOf PC) n0 narr
    let IPC := block r.2.1 0 (totalN ls) 0 (totalN ls)
    let lndet := r.2.2 + 2 * (totalN ls) * Real.log sigma
    let ybuf := IPC * L
    let Cq := Lᵀ * ybuf
    let yq := ybufᵀ.mulVec f
    if (upperSym Cq).det = 0 ∨ signSymat Cq = -1 then .ok none else
    let lndetICq := lndetSymat Cq + -2 * (nq * ls.length : ℕ) * Real.log sigma
    let q := (inverseSymat Cq).mulVec yq
    let y : Fin (totalN ls) → ℝ := (-1 : ℝ) • L.mulVec q + (1 : ℝ) • f
    let prob1 := -(1 / 2) * (y ⬝ᵥ IPC.mulVec y) / (sigma * sigma)
    if 0 < prob1 then .ok none else
    .ok (some (prob1 - 1 / 2 * lndet - 1 / 2 * lndetICq))

/-- The loop over data sets, src/mc_vmap.c:350-424, 454-535. -/
noncomputable def vLoop (term : ℕ → List LC → Res (Option ℝ)) : List (List LC) → ℕ → ℝ → Res ℝ
  | [], _, prob => .ok prob
  | d :: ds, k, prob =>
    term k d >>= fun r =>
    match r with
    | none => .ok (-DBL_MAX)
    | some v => vLoop term ds (k + 1) (prob + v)

/-- `prob_line_variability3_vmap`, src/mc_vmap.c:329-425: the computation for a data set is that of
`prob_line_variability3` (src/mc_line.c:2081-2186), with the matrices above. -/
noncomputable def probVmap3 (e : LineEnv) (ds : List (List LC)) : Res ℝ :=
  vLoop (fun k ls => lineTerm3 (vPC (e.K k) e.pm (e.idxc k) (e.idxl k) ls e.mem) (vTrend e.nq ls) (vFall ls)
    (vSigma e.pm (e.idxc k))) ds 0 0

/-- `prob_line_variability4_vmap`, src/mc_vmap.c:430-536, the one used for sampling (src/dnest_vmap.c:384-398). -/
noncomputable def probVmap4 (e : LineEnv) (ds : List (List LC)) : Res ℝ :=
  vLoop (fun k ls => vTerm4 e.nq ls (vSigma e.pm (e.idxc k))
    (vPC (e.K k) e.pm (e.idxc k) (e.idxl k) ls e.mem)) ds 0 0

end Mica
