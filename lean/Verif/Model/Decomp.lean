import Verif.Model.Kernel
import Verif.Model.Recon

/-!
# Decomposition of the lines into the contributions of single components (src/line_decomp.c,
src/line_decomp_mmap.c)

Doubles are real numbers, as in `Verif.Model.Kernel`; the LU solver is `luInv`, as in `Verif.Model.Recon`.
-/

namespace Mica

open Matrix

/-! ## Covariances of a single component

The Gaussian and top-hat functions of src/line_decomp.c (1039-1490 and 1497-2085) have the same bodies as
those of src/mc_line.c; the gamma and exponential ones are an older text, written out here. -/

open Classical in
/-- Body of `Slc_single_gamma` (src/line_decomp.c:2091-2134) and `Slc_single_gamma_linear` (2136-2179). -/
noncomputable def slcGamS (taud : ℝ) (a : Comp) (Dt : ℝ) : ℝ :=
  let tau1 := a.w
  let tau0 := a.c - 2 * tau1
  let fg := a.f / (tau1 * tau1)
  let p1 := (taud + tau1) / taud / tau1
  let p2 := (taud - tau1) / taud / tau1
  let DT := Dt - tau0
  let St := if DT ≤ 0 then Real.exp (DT / taud) / p1 / p1
    else if |p2| < kEPS then Real.exp (-DT / taud) * (DT * DT / 2 + (p1 * DT + 1) / p1 / p1)
    else Real.exp (-DT / taud) / p2 / p2 +
      Real.exp (-DT / tau1) * (-(p2 * DT + 1) / p2 / p2 + (p1 * DT + 1) / p1 / p1)
  St * fg

open Classical in
/-- Body of `Slc_single_exp` (src/line_decomp.c:2609-2652) and `Slc_single_exp_linear` (2654-2697). -/
noncomputable def slcExpS (taud : ℝ) (a : Comp) (Dt : ℝ) : ℝ :=
  let tau1 := a.w
  let tau0 := a.c - tau1
  let fg := a.f / tau1
  let p1 := (taud + tau1) / taud / tau1
  let p2 := (taud - tau1) / taud / tau1
  let DT := Dt - tau0
  let St := if DT ≤ 0 then Real.exp (DT / taud) / p1
    else if |p2| < kEPS then Real.exp (-DT / taud) * (DT + 1 / p1)
    else Real.exp (-DT / taud) / p2 + Real.exp (-DT / tau1) * (-1 / p2 + 1 / p1)
  St * fg

open Classical in
/-- Body of the loops of `Sll2_single_gamma` (src/line_decomp.c:2188-2253), `Sll_single_gamma` (2329-2393),
`Sll_single2_gamma` (2468-2532) and their `_linear` variants (2255-2320, 2395-2459, 2534-2598). -/
noncomputable def sllGamS (taud : ℝ) (a b : Comp) (Dt : ℝ) : ℝ :=
  let tau1 := a.w
  let tau01 := a.c - 2 * tau1
  let p1 := (taud - tau1) / taud / tau1
  let p2 := (taud + tau1) / taud / tau1
  let tau2 := b.w
  let tau02 := b.c - 2 * tau2
  let fg12 := a.f / tau1 / tau1 * b.f / tau2 / tau2
  let p3 := (taud + tau2) / taud / tau2
  let p4 := (taud - tau2) / taud / tau2
  let p5 := p1 + p3
  let DT := Dt - (tau01 - tau02)
  let St :=
    if DT ≤ 0 then
      if |p4| < kEPS then
        let tmp := p2 * DT
        Real.exp (DT / taud) * (1 / (p2 * p2 * p2 * p2) * (3 - 2 * tmp + tmp * tmp / 2) +
          (1 - p3 * DT + 2 * p3 / p5) / (p3 * p3 * p5 * p5))
      else
        Real.exp (DT / taud) / (p2 * p2 * p4 * p4) +
          Real.exp (DT / tau2) / (p4 * p4 * p5 * p5) *
            (-(1 - p4 * DT + 2 * p4 / p5) + (1 - p3 * DT + 2 * p3 / p5) * (p4 * p4) / (p3 * p3))
    else
      if |p1| < kEPS then
        let tmp := p3 * DT
        Real.exp (-DT / taud) * (1 / (p3 * p3 * p3 * p3) * (3 + 2 * tmp + tmp * tmp / 2) +
          (1 + p2 * DT + 2 * p2 / p5) / (p2 * p2 * p5 * p5))
      else
        Real.exp (-DT / taud) / (p1 * p1 * p3 * p3) +
          Real.exp (-DT / tau1) / (p1 * p1 * p5 * p5) *
            (-(1 + p1 * DT + 2 * p1 / p5) + (1 + p2 * DT + 2 * p2 / p5) * (p1 * p1) / (p2 * p2))
  St * fg12

open Classical in
/-- Body of the loops of `Sll2_single_exp` (src/line_decomp.c:2706-2765), `Sll_single_exp` (2835-2893),
`Sll_single2_exp` (2962-3020) and their `_linear` variants (2767-2826, 2895-2953, 3022-3080). -/
noncomputable def sllExpS (taud : ℝ) (a b : Comp) (Dt : ℝ) : ℝ :=
  let tau1 := a.w
  let tau01 := a.c - tau1
  let p1 := (taud - tau1) / taud / tau1
  let p2 := (taud + tau1) / taud / tau1
  let tau2 := b.w
  let tau02 := b.c - tau2
  let fg12 := a.f / tau1 * b.f / tau2
  let p3 := (taud + tau2) / taud / tau2
  let p4 := (taud - tau2) / taud / tau2
  let p5 := p1 + p3
  let DT := Dt - (tau01 - tau02)
  let St :=
    if DT ≤ 0 then
      if |p4| < kEPS then Real.exp (DT / taud) * (-DT / p2 + 1 / (p2 * p2) + 1 / (p3 * p5))
      else Real.exp (DT / taud) / (p2 * p4) + Real.exp (DT / tau2) / (p4 * p5) * (-1 + p4 / p3)
    else
      if |p1| < kEPS then Real.exp (-DT / taud) * (DT / p3 + 1 / (p3 * p3) + 1 / (p2 * p5))
      else Real.exp (-DT / taud) / (p1 * p3) + Real.exp (-DT / tau1) / (p1 * p5) * (-1 + p1 / p2)
  St * fg12

/-- The choice of `Slc_single`, src/init.c:136-273. -/
noncomputable def fpSlcS : TF → ℝ → Comp → ℝ → ℝ
  | .gauss => slcGau
  | .tophat => slcTop
  | .gamma => slcGamS
  | .exp => slcExpS

/-- The choice of `Sll_single`, `Sll2_single` and `Sll_single2`, src/init.c:136-273. -/
noncomputable def fpSllS : TF → ℝ → Comp → Comp → ℝ → ℝ
  | .gauss => sllGauGau
  | .tophat => sllTopTop
  | .gamma => sllGamS
  | .exp => sllExpS

/-- The functions the decomposition calls for one component: those of the rows of the lines, and
`Sll_single2(t, t)`. -/
structure SKernels where
  K : Kernels
  auto : ℝ → ℕ → ℝ

/-- Component `k` when all components are of type `tf = parset.type_tf`: `Slc_single`, `Sll_single`,
`Sll2_single` (the loops over `k2` remain) and `Sll_single2`, src/line_decomp.c:1039-3080. -/
noncomputable def KEnv.single (e : KEnv) (tf : TF) (k : ℕ) : SKernels where
  K := {
    Slc := fun tcon tline j => 0 + fpSlcS tf e.taud (e.comp j k) (tline - tcon)
    Sll := fun t1 t2 j => (List.range e.ng).foldl
      (fun s k2 => s + fpSllS tf e.taud (e.comp j k) (e.comp j k2) (t1 - t2)) 0
    Sll2 := fun t1 t2 j l => (List.range e.ng).foldl
      (fun s k2 => s + fpSllS tf e.taud (e.comp j k) (e.comp l k2) (t1 - t2)) 0 }
  auto := fun t j => 0 + fpSllS tf e.taud (e.comp j k) (e.comp j k) (t - t)

/-- Component `k` of a mixture: `Slc_single_mmap`, `Sll_single_mmap`, `Sll2_single_mmap`,
src/line_decomp_mmap.c:743-798.  On the diagonal `Sll_single2` is called (line 724), which is the function for
`tf = parset.type_tf`, not that of the component. -/
noncomputable def KEnv.singleMix (e : KEnv) (tf : TF) (k : ℕ) : SKernels where
  K := {
    Slc := fun tcon tline j => 0 + fpSlc (e.typ k) e.taud (e.comp j k) (tline - tcon)
    Sll := fun t1 t2 j => (List.range e.ng).foldl
      (fun s k2 => s + fpSll (e.typ k) (e.typ k2) e.taud (e.comp j k) (e.comp j k2) (t1 - t2)) 0
    Sll2 := fun t1 t2 j l => (List.range e.ng).foldl
      (fun s k2 => s + fpSll (e.typ k) (e.typ k2) e.taud (e.comp j k) (e.comp l k2) (t1 - t2)) 0 }
  auto := fun t j => 0 + fpSllS tf e.taud (e.comp j k) (e.comp j k) (t - t)

/-! ## Matrices -/

/-- `set_covar_Umat_line_single`, src/line_decomp.c:863-952 and src/line_decomp_mmap.c:576-665: the rows of
the continuum use the whole lines, the rows of the lines the component. -/
noncomputable def uWritesS (K K1 : Kernels) (tau : ℝ) (d R : DSet) : List (ℕ × ℝ) :=
  ((List.range R.con.n).flatMap fun i =>
    ((List.range d.con.n).map fun j => (i * d.nall + j, Real.exp (-|R.con.t i - d.con.t j| / tau))) ++
    uRow (fun k t2 => K.Slc (R.con.t i) t2 k) d.nall i d.line 0 d.con.n) ++
  uLines K1 d.nall d R.line 0 R.con.n

/-- The line part of `set_covar_Amat_line_single`, src/line_decomp.c:994-1023. -/
noncomputable def aLinesS (S : SKernels) (nt : ℕ) : List LC → ℕ → ℕ → List (ℕ × ℝ)
  | [], _, _ => []
  | a :: l, k, np =>
    ((List.range a.n).flatMap fun j =>
      ((List.range j).flatMap fun i => both nt (np + j) (np + i) (S.K.Sll (a.t j) (a.t i) k)) ++
      [((np + j) * nt + (np + j), S.auto (a.t j) k)] ++
      llRow S.K.Sll2 nt (np + j) (a.t j) k l (k + 1) (np + a.n)) ++
    aLinesS S nt l (k + 1) (np + a.n)

/-- `set_covar_Amat_line_single`, src/line_decomp.c:958-1025 and src/line_decomp_mmap.c:671-741. -/
noncomputable def aWritesS (K : Kernels) (S : SKernels) (tau : ℝ) (R : DSet) : List (ℕ × ℝ) :=
  ((List.range R.con.n).flatMap fun i =>
    ((List.range i).flatMap fun j => both R.nall i j (Real.exp (-|R.con.t i - R.con.t j| / tau))) ++
    [(i * R.nall + i, 1)] ++
    lcRow K.Slc R.nall i (R.con.t i) R.line 0 R.con.n) ++
  aLinesS S R.nall R.line 0 R.con.n

/-- `fq_all[j]`, src/line_decomp.c:702-714: the sum of `exp(pm[idx+1+3k])`. -/
noncomputable def fqAll (pm : ℕ → ℝ) (idx ng : ℕ) : ℝ :=
  (List.range ng).foldl (fun s k => s + Real.exp (pm (idx + 1 + k * 3))) 0

/-- Weight of the trend of a line in component `kg`, src/line_decomp.c:789-820: `fq_weight`, or 0 if
`parset.flag_negative_resp` (`neg`) is set. -/
noncomputable def trendWeight (neg : Bool) (pm : ℕ → ℝ) (idx ng kg : ℕ) : ℝ :=
  if neg then 0 else Real.exp (pm (idx + 1 + 3 * kg)) / fqAll pm idx ng

/-- A row of `Larr_rec`, src/line_decomp.c:773-822: as `trendRow`, the rows of line `k` multiplied by the
weight `wt k`. -/
noncomputable def trendRowS (nq : ℕ) (wt : ℕ → ℝ) : List LC → ℕ → ℕ → ℕ → ℝ
  | [], _, _, _ => 0
  | a :: l, s0, p, c =>
    if p < a.n then
      if s0 * nq ≤ c ∧ c < s0 * nq + nq then
        (if c - s0 * nq = 0 then 1 else a.t p ^ (c - s0 * nq)) * (if s0 = 0 then 1 else wt (s0 - 1))
      else 0
    else trendRowS nq wt l (s0 + 1) (p - a.n) c

/-- `decompose_single_component` after the matrices have been set up, src/line_decomp.c:752-857 and
src/line_decomp_mmap.c:463-570. -/
noncomputable def decompose {n q m : ℕ} (PC : Matrix (Fin n) (Fin n) ℝ) (U : Matrix (Fin m) (Fin n) ℝ)
    (A : Matrix (Fin m) (Fin m) ℝ) (L : Matrix (Fin n) (Fin q) ℝ) (Lrec : Matrix (Fin m) (Fin q) ℝ)
    (f : Fin n → ℝ) (sigma : ℝ) : Res (Recon q m) :=
  luInv PC >>= fun I1 =>
  let T := I1 * L
  let Cq := Lᵀ * T
  let yq0 := Tᵀ.mulVec f
  luInv Cq >>= fun Cq1 =>
  let yq := Cq1.mulVec yq0
  let y := f - L.mulVec yq
  luInv PC >>= fun I2 =>
  let fall := U.mulVec (I2.mulVec y)
  luInv PC >>= fun I3 =>
  let PE1 := U * (I3 * Uᵀ)
  .ok ⟨yq, fall + Lrec.mulVec yq, fun i => (cSqrt (A i i - PE1 i i)).map fun s => sigma * s⟩

/-- `decompose_single_component(model, nds, nall, tall, fall, feall, yq, kg)`, src/line_decomp.c:667-857
and its counterpart in src/line_decomp_mmap.c:380-570, which differ only in the functions called: `K` are the
functions `Slc` … of the whole model, `S` those of component `kg`; `memP`, `memU`, `memA` the previous
contents of `PCmat`, `USmat`, `ASmat`. -/
noncomputable def decompWith (K : Kernels) (S : SKernels) (neg : Bool) (ng kg nq : ℕ) (d R : DSet) (pm : ℕ → ℝ) (idxc : ℕ)
    (idxl : ℕ → ℕ) (f : Fin d.nall → ℝ) (PC : Matrix (Fin d.nall) (Fin d.nall) ℝ) (memU memA : ℕ → ℝ) :
    Res (Recon (nq * (1 + d.line.length)) R.nall) :=
  decompose PC
    (matOf (runWrites (uWritesS K S.K (pmTau pm idxc) d R) memU) R.nall d.nall)
    (matOf (runWrites (aWritesS K S (pmTau pm idxc) R) memA) R.nall R.nall)
    (d.trend nq) (fun p c => trendRowS nq (fun j => trendWeight neg pm (idxl j) ng kg) R.series 0 p c) f (pmSigma pm idxc)

/-- The decomposition with one type of component; the linear functions are used, and the trend of the lines
omitted, if and only if negative responses are allowed. -/
noncomputable def decompLine (e : KEnv) (tf : TF) (kg nq : ℕ) (d R : DSet) (f : Fin d.nall → ℝ)
    (memP memU memA : ℕ → ℝ) : Res (Recon (nq * (1 + d.line.length)) R.nall) :=
  decompWith e.kernels (e.single tf kg) e.lin e.ng kg nq d R e.pm e.idxc e.idxl f
    (d.PCseq e.kernels e.pm e.idxc e.idxl memP) memU memA

/-- The decomposition of a mixture, whose `PCmat` is set row by row. -/
noncomputable def decompMix (e : KEnv) (tf : TF) (kg nq : ℕ) (d R : DSet) (f : Fin d.nall → ℝ)
    (memP memU memA : ℕ → ℝ) : Res (Recon (nq * (1 + d.line.length)) R.nall) :=
  decompWith e.kernels (e.singleMix tf kg) e.lin e.ng kg nq d R e.pm e.idxc e.idxl f
    (d.PCarr e.kernels e.pm e.idxc e.idxl memP) memU memA

end Mica
