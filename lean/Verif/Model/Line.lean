import Verif.Model.Like

/-!
# Joint covariance of continuum and lines, and the line likelihoods
(src/mc_line.c:1862-2321, 2431-2629; src/read.c:906-929)

The covariance functions `Slc`, `Sll`, `Sll2` are function pointers in the code (chosen in
`mc_line_init`), hence parameters here; the line indices are passed on.
-/

namespace Mica

open Matrix

/-- The light curves of a data set in the order of `alldata`, src/read.c:906-929. -/
def DSet.series (d : DSet) : List LC := d.con :: d.line

/-- Number of points of a list of light curves, src/read.c:909-911. -/
def totalN : List LC → ℕ
  | [] => 0
  | a :: l => a.n + totalN l

/-- `alldata[k].n`. -/
def DSet.nall (d : DSet) : ℕ := totalN d.series

/-- The concatenation of arrays by `memcpy`, src/read.c:917-928: entry `p` of the concatenated array of
the component `g` of the light curves. -/
def concat (g : LC → ℕ → ℝ) : List LC → ℕ → ℝ
  | [], _ => 0
  | a :: l, p => if p < a.n then g a p else concat g l (p - a.n)

/-- `alldata[k].f`, src/read.c:918-926. -/
def DSet.fall (d : DSet) : ℕ → ℝ := concat LC.f d.series

/-- The covariance functions chosen in `mc_line_init`, src/mc_line.c:2345-2404. -/
structure Kernels where
  /-- `Slc(tcon, tline, model, k, j)` -/
  Slc : ℝ → ℝ → ℕ → ℝ
  /-- `Sll(t1, t2, model, k, j)` -/
  Sll : ℝ → ℝ → ℕ → ℝ
  /-- `Sll2(t1, t2, model, k, j, l)` -/
  Sll2 : ℝ → ℝ → ℕ → ℕ → ℝ

/-- Two symmetric entries `PCmat[r*nall+c] = PCmat[c*nall+r] = v`. -/
def both (nall r c : ℕ) (v : ℝ) : List (ℕ × ℝ) := [(c * nall + r, v), (r * nall + c, v)]

/-- Continuum with itself, src/mc_line.c:2449-2463 and 2547-2561. -/
noncomputable def ccWrites (sigma tau syserr : ℝ) (nall : ℕ) (d : LC) : List (ℕ × ℝ) :=
  (List.range d.n).flatMap fun i =>
    ((List.range i).flatMap fun j => both nall i j (Real.exp (-|d.t i - d.t j| / tau))) ++
    [(i * nall + i, 1 + (d.fe i * d.fe i + syserr * syserr) / sigma / sigma)]

/-- The inner two loops of the continuum-line part for continuum point `i`: lines from number `j`,
whose first point has index `np`, src/mc_line.c:2470-2479. -/
def lcRow (S : ℝ → ℝ → ℕ → ℝ) (nall i : ℕ) (t1 : ℝ) : List LC → ℕ → ℕ → List (ℕ × ℝ)
  | [], _, _ => []
  | a :: l, j, np =>
    ((List.range a.n).flatMap fun m => both nall i (np + m) (S t1 (a.t m) j)) ++
      lcRow S nall i t1 l (j + 1) (np + a.n)

/-- Continuum with lines, src/mc_line.c:2466-2480. -/
def lcWrites (S : ℝ → ℝ → ℕ → ℝ) (nall : ℕ) (d : DSet) : List (ℕ × ℝ) :=
  (List.range d.con.n).flatMap fun i => lcRow S nall i (d.con.t i) d.line 0 d.con.n

/-- Line `j` (point `i` at time `t1`, row `r`) with the later lines, src/mc_line.c:2505-2518. -/
def llRow (S2 : ℝ → ℝ → ℕ → ℕ → ℝ) (nall r : ℕ) (t1 : ℝ) (j : ℕ) : List LC → ℕ → ℕ → List (ℕ × ℝ)
  | [], _, _ => []
  | b :: l, k, npline =>
    ((List.range b.n).flatMap fun m => both nall r (npline + m) (S2 t1 (b.t m) j k)) ++
      llRow S2 nall r t1 j l (k + 1) (npline + b.n)

/-- Lines with lines, src/mc_line.c:2482-2521.  `idx` is `idx_line_pm[k]`. -/
noncomputable def llWrites (K : Kernels) (sigma : ℝ) (pm : ℕ → ℝ) (idx : ℕ → ℕ) (nall : ℕ) :
    List LC → ℕ → ℕ → List (ℕ × ℝ)
  | [], _, _ => []
  | a :: l, j, np =>
    ((List.range a.n).flatMap fun i =>
      ((List.range i).flatMap fun m => both nall (np + i) (np + m) (K.Sll (a.t i) (a.t m) j)) ++
      [((np + i) * nall + (np + i), K.Sll (a.t i) (a.t i) j +
        (a.fe i * a.fe i + pmSyserr pm (idx j) a.em * pmSyserr pm (idx j) a.em) / sigma / sigma)] ++
      llRow K.Sll2 nall (np + i) (a.t i) j l (j + 1) (np + a.n)) ++
    llWrites K sigma pm idx nall l (j + 1) (np + a.n)

/-- All writes to `PCmat` of `set_covar_Pmat_data_line`, src/mc_line.c:2431-2523. -/
noncomputable def lineWrites (K : Kernels) (d : DSet) (pm : ℕ → ℝ) (idxc : ℕ) (idxl : ℕ → ℕ) :
    List (ℕ × ℝ) :=
  let tau := pmTau pm idxc
  let sigma := pmSigma pm idxc
  ccWrites sigma tau (pmSyserr pm idxc d.con.em) d.nall d.con ++
  lcWrites K.Slc d.nall d ++
  llWrites K sigma pm idxl d.nall d.line 0 d.con.n

/-- Continuum with lines as done by `set_covar_Pmat_data_line_array`, src/mc_line.c:2563-2580: `Smat_lc`
holds the covariances of the continuum with line `j`, row-major with `nline` columns. -/
def lcWritesArr (S : ℝ → ℝ → ℕ → ℝ) (nall : ℕ) (con : LC) : List LC → ℕ → ℕ → List (ℕ × ℝ)
  | [], _, _ => []
  | a :: l, j, np =>
    let Smat : ℕ → ℝ := fun x => S (con.t (x / a.n)) (a.t (x % a.n)) j
    ((List.range con.n).flatMap fun i => (List.range a.n).flatMap fun m =>
      both nall i (np + m) (Smat (i * a.n + m))) ++
      lcWritesArr S nall con l (j + 1) (np + a.n)

/-- Line `j` with the later lines as done by `set_covar_Pmat_data_line_array`, src/mc_line.c:2608-2624. -/
def llRowArr (S2 : ℝ → ℝ → ℕ → ℕ → ℝ) (nall np : ℕ) (a : LC) (j : ℕ) : List LC → ℕ → ℕ → List (ℕ × ℝ)
  | [], _, _ => []
  | b :: l, k, npline =>
    let Smat : ℕ → ℝ := fun x => S2 (a.t (x / b.n)) (b.t (x % b.n)) j k
    ((List.range a.n).flatMap fun i => (List.range b.n).flatMap fun m =>
      both nall (np + i) (npline + m) (Smat (i * b.n + m))) ++
      llRowArr S2 nall np a j l (k + 1) (npline + b.n)

/-- Lines with lines as done by `set_covar_Pmat_data_line_array`, src/mc_line.c:2582-2627. -/
noncomputable def llWritesArr (K : Kernels) (sigma : ℝ) (pm : ℕ → ℝ) (idx : ℕ → ℕ) (nall : ℕ) :
    List LC → ℕ → ℕ → List (ℕ × ℝ)
  | [], _, _ => []
  | a :: l, j, np =>
    let Smat : ℕ → ℝ := fun x => K.Sll (a.t (x / a.n)) (a.t (x % a.n)) j
    ((List.range a.n).flatMap fun i =>
      ((List.range i).flatMap fun m => both nall (np + i) (np + m) (Smat (i * a.n + m))) ++
      [((np + i) * nall + (np + i), Smat (i * a.n + i) +
        (a.fe i * a.fe i + pmSyserr pm (idx j) a.em * pmSyserr pm (idx j) a.em) / sigma / sigma)]) ++
    llRowArr K.Sll2 nall np a j l (j + 1) (np + a.n) ++
    llWritesArr K sigma pm idx nall l (j + 1) (np + a.n)

/-- All writes to `PCmat` of `set_covar_Pmat_data_line_array`, src/mc_line.c:2530-2629.  The array
versions of the covariance functions fill their result with the values of the scalar ones
(symmetrically for `Sll_array`; only `m <= i` is read here). -/
noncomputable def lineWritesArr (K : Kernels) (d : DSet) (pm : ℕ → ℝ) (idxc : ℕ) (idxl : ℕ → ℕ) :
    List (ℕ × ℝ) :=
  let tau := pmTau pm idxc
  let sigma := pmSigma pm idxc
  ccWrites sigma tau (pmSyserr pm idxc d.con.em) d.nall d.con ++
  lcWritesArr K.Slc d.nall d.con d.line 0 d.con.n ++
  llWritesArr K sigma pm idxl d.nall d.line 0 d.con.n

/-- The trend matrix of all light curves, src/mc_line.c:2237-2262: row `p` belongs to a point of light
curve `s`, whose columns are `s*nq ... s*nq+nq-1`.  `s0` is the number of the first light curve of the
list.  (The code writes zeros first and then the `nq` entries; the final content is given here.) -/
noncomputable def trendRow (nq : ℕ) : List LC → ℕ → ℕ → ℕ → ℝ
  | [], _, _, _ => 0
  | a :: l, s0, p, c =>
    if p < a.n then
      if s0 * nq ≤ c ∧ c < s0 * nq + nq then (if c - s0 * nq = 0 then 1 else a.t p ^ (c - s0 * nq)) else 0
    else trendRow nq l (s0 + 1) (p - a.n) c

/-- `Larr`, src/mc_line.c:2237-2262. -/
noncomputable def DSet.trend (d : DSet) (nq : ℕ) : Matrix (Fin d.nall) (Fin (nq * (1 + d.line.length))) ℝ :=
  fun p c => trendRow nq d.series 0 p c

/-- `PCmat` after `set_covar_Pmat_data_line_array`. -/
noncomputable def DSet.PCarr (K : Kernels) (d : DSet) (pm : ℕ → ℝ) (idxc : ℕ) (idxl : ℕ → ℕ)
    (mem : ℕ → ℝ) : Matrix (Fin d.nall) (Fin d.nall) ℝ :=
  matOf (runWrites (lineWritesArr K d pm idxc idxl) mem) d.nall d.nall

/-- The part common to `prob_line_variability2` (src/mc_line.c:2031-2064) after the inverse `IPC` has
been computed: residual of the trend fit and quadratic form over `sigma^2`. -/
noncomputable def quadOf {n q : ℕ} (IPC : Matrix (Fin n) (Fin n) ℝ) (Cqi : Matrix (Fin q) (Fin q) ℝ)
    (L : Matrix (Fin n) (Fin q) ℝ) (yq : Fin q → ℝ) (f : Fin n → ℝ) (sigma : ℝ) : ℝ :=
  let y := f - L.mulVec (Cqi.mulVec yq)
  let prob1 := -(1 / 2) * (y ⬝ᵥ IPC.mulVec y) / (sigma * sigma)
  prob1

open Classical in
/-- `prob_line_variability` for one data set, src/mc_line.c:1862-1961: linear systems are solved by LU
decomposition (`multiply_mat_MN_inverseA`: `B := A^-1 B`). -/
noncomputable def lineTerm1 {n q : ℕ} (PC : Matrix (Fin n) (Fin n) ℝ) (L : Matrix (Fin n) (Fin q) ℝ)
    (f : Fin n → ℝ) (sigma : ℝ) : Res (Option ℝ) :=
  luInv PC >>= fun IPC1 =>
  let T := IPC1 * L
  let ICq := Lᵀ * T
  let yq0 := Tᵀ.mulVec f
  luInv ICq >>= fun Cqi =>
  let yq := Cqi.mulVec yq0
  let y := f - L.mulVec yq
  luInv PC >>= fun IPC2 =>
  let prob1 := -(1 / 2) * (y ⬝ᵥ IPC2.mulVec y) / (sigma * sigma)
  if 0 < prob1 then .ok none else
  lndet3 PC >>= fun r1 =>
  let lndet := r1.1 + 2 * n * Real.log sigma
  if r1.2 = -1 then .ok none else
  lndet3 ICq >>= fun r2 =>
  let lndetICq := r2.1 - 2 * q * Real.log sigma
  if r2.2 = -1 then .ok none else
  .ok (some (prob1 - 1 / 2 * lndet - 1 / 2 * lndetICq))

open Classical in
/-- `prob_line_variability2` for one data set, src/mc_line.c:1969-2075: explicit inverses. -/
noncomputable def lineTerm2 {n q : ℕ} (PC : Matrix (Fin n) (Fin n) ℝ) (L : Matrix (Fin n) (Fin q) ℝ)
    (f : Fin n → ℝ) (sigma : ℝ) : Res (Option ℝ) :=
  luInv PC >>= fun IPC =>
  let Cq := Lᵀ * (IPC * L)
  let yq := Lᵀ.mulVec (IPC.mulVec f)
  luInv Cq >>= fun Cqi =>
  let prob1 := quadOf IPC Cqi L yq f sigma
  if 0 < prob1 then .ok none else
  lndet3 PC >>= fun r1 =>
  let lndet := r1.1 + 2 * n * Real.log sigma
  if r1.2 = -1 then .ok none else
  lndet3 Cq >>= fun r2 =>
  let lndetICq := r2.1 - 2 * q * Real.log sigma
  if r2.2 = -1 then .ok none else
  .ok (some (prob1 - 1 / 2 * lndet - 1 / 2 * lndetICq))

open Classical in
/-- `prob_line_variability3` for one data set, src/mc_line.c:2081-2186: symmetric inverses with the
log-determinant from the pivots.  A singular matrix makes `dsytri` return a nonzero code. -/
noncomputable def lineTerm3 {n q : ℕ} (PC : Matrix (Fin n) (Fin n) ℝ) (L : Matrix (Fin n) (Fin q) ℝ)
    (f : Fin n → ℝ) (sigma : ℝ) : Res (Option ℝ) :=
  if (upperSym PC).det = 0 ∨ signSymat PC = -1 then .ok none else
  let lndet := lndetSymat PC + 2 * n * Real.log sigma
  let IPC := inverseSymat PC
  let Cq := Lᵀ * (IPC * L)
  let yq := Lᵀ.mulVec (IPC.mulVec f)
  if (upperSym Cq).det = 0 ∨ signSymat Cq = -1 then .ok none else
  let lndetICq := lndetSymat Cq + -2 * q * Real.log sigma
  let prob1 := quadOf IPC (inverseSymat Cq) L yq f sigma
  if 0 < prob1 then .ok none else
  .ok (some (prob1 - 1 / 2 * lndet - 1 / 2 * lndetICq))

open Classical in
/-- `prob_line_variability4` for one data set (the one used for sampling), src/mc_line.c:2192-2321, and
`prob_line_variability_mmap` (src/mc_mmap.c:977-1107), the same with the array fill for mixed types: semiseparable and block inversion.  `PC` is the matrix filled before (nothing of the array outside of
it is read). -/
noncomputable def lineTerm4 (nq : ℕ) (d : DSet) (pm : ℕ → ℝ) (idxc : ℕ)
    (PC : Matrix (Fin d.nall) (Fin d.nall) ℝ) : Res (Option ℝ) :=
  let tau := pmTau pm idxc
  let sigma := pmSigma pm idxc
  let syserr := pmSyserr pm idxc d.con.em / sigma
  let L := d.trend nq
  let f : Fin d.nall → ℝ := fun i => d.fall i
  let r := semiIter d.con.t 1 (1 / tau) (fun i => d.con.fe i / sigma) syserr (arrayOf PC) d.con.n
    (d.line.map LC.n)
  let IPC := block r.2.1 0 d.nall 0 d.nall
  let lndet := r.2.2 + 2 * d.nall * Real.log sigma
  let ybuf := IPC * L
  let Cq := Lᵀ * ybuf
  let yq := ybufᵀ.mulVec f
  if (upperSym Cq).det = 0 ∨ signSymat Cq = -1 then .ok none else
  let lndetICq := lndetSymat Cq + -2 * (nq * (1 + d.line.length) : ℕ) * Real.log sigma
  let q := (inverseSymat Cq).mulVec yq
  let y : Fin d.nall → ℝ := (-1 : ℝ) • L.mulVec q + (1 : ℝ) • f
  let prob1 := -(1 / 2) * (y ⬝ᵥ IPC.mulVec y) / (sigma * sigma)
  if 0 < prob1 then .ok none else
  .ok (some (prob1 - 1 / 2 * lndet - 1 / 2 * lndetICq))

/-- The loop over data sets common to the line likelihoods, src/mc_line.c:2222-2319: `term k d` is the
contribution of data set `k`. -/
noncomputable def probLineLoop (term : ℕ → DSet → Res (Option ℝ)) : List DSet → ℕ → ℝ → Res ℝ
  | [], _, prob => .ok prob
  | d :: ds, k, prob =>
    term k d >>= fun r =>
    match r with
    | none => .ok (-DBL_MAX)
    | some v => probLineLoop term ds (k + 1) (prob + v)

/-- Parameter indices and covariance functions of a run: `idx_con_pm`, `idx_line_pm`, and the covariance
functions of every data set (they depend on the model parameters). -/
structure LineEnv where
  nq : ℕ
  pm : ℕ → ℝ
  idxc : ℕ → ℕ
  idxl : ℕ → ℕ → ℕ
  K : ℕ → Kernels
  mem : ℕ → ℝ

/-- `PCmat` for data set `k`. -/
noncomputable def LineEnv.PC (e : LineEnv) (k : ℕ) (d : DSet) : Matrix (Fin d.nall) (Fin d.nall) ℝ :=
  d.PCarr (e.K k) e.pm (e.idxc k) (e.idxl k) e.mem

/-- `prob_line_variability`, src/mc_line.c:1862-1961. -/
noncomputable def probLine1 (e : LineEnv) (ds : List DSet) : Res ℝ :=
  probLineLoop (fun k d => lineTerm1 (e.PC k d) (d.trend e.nq) (fun i => d.fall i)
    (pmSigma e.pm (e.idxc k))) ds 0 0

/-- `prob_line_variability2`, src/mc_line.c:1969-2075. -/
noncomputable def probLine2 (e : LineEnv) (ds : List DSet) : Res ℝ :=
  probLineLoop (fun k d => lineTerm2 (e.PC k d) (d.trend e.nq) (fun i => d.fall i)
    (pmSigma e.pm (e.idxc k))) ds 0 0

/-- `prob_line_variability3`, src/mc_line.c:2081-2186. -/
noncomputable def probLine3 (e : LineEnv) (ds : List DSet) : Res ℝ :=
  probLineLoop (fun k d => lineTerm3 (e.PC k d) (d.trend e.nq) (fun i => d.fall i)
    (pmSigma e.pm (e.idxc k))) ds 0 0

/-- `prob_line_variability4`, src/mc_line.c:2192-2321. -/
noncomputable def probLine4 (e : LineEnv) (ds : List DSet) : Res ℝ :=
  probLineLoop (fun k d => lineTerm4 e.nq d e.pm (e.idxc k) (e.PC k d)) ds 0 0

end Mica
