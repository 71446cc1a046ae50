import Verif.Model.Decomp
import Verif.Model.Misc
import Verif.Model.Data

/-!
# The files of the reconstruction and of the decomposition

`output_reconstruction_parallel` (src/mc_line.c:171-596), `output_reconstruction_parallel_mmap`
(src/mc_mmap.c:235-648), `output_decompose_line_parallel` (src/line_decomp.c:22-375) and
`output_decompose_line_parallel_mmap` (src/line_decomp_mmap.c:22-375), for one data set: the loops over the
sets touch different arrays for each set and are written set by set here.  Numbers are printed exactly
(`%e` is not modelled here), the progress bar is left out.
-/

namespace Mica

/-! ## Time nodes -/

/-- `t[0]`, `t[n-1]` of a light curve; the latter is out of bounds for an empty one
(src/mc_line.c:349-355, src/line_decomp.c:170-176). -/
def lcEnds (a : LC) : Res (ℝ × ℝ) := if a.n = 0 then .ub else .ok (a.t 0, a.t (a.n - 1))

/-- The same for all lines. -/
def lcEndsAll : List LC → Res (List (ℝ × ℝ))
  | [] => .ok []
  | a :: l => lcEnds a >>= fun e => lcEndsAll l >>= fun es => .ok (e :: es)

/-- The window of the reconstruction (src/mc_line.c:349-365, src/mc_mmap.c:412-428). -/
noncomputable def recWin (lowExt uppExt : ℝ) (d : DSet) : Res (ℝ × ℝ) :=
  lcEnds d.con >>= fun c => lcEndsAll d.line >>= fun ls => .ok (recWindow lowExt uppExt (tBegEnd c ls))

/-- The window of the decomposition, without the two options (src/line_decomp.c:170-180). -/
noncomputable def decWin (d : DSet) : Res (ℝ × ℝ) :=
  lcEnds d.con >>= fun c => lcEndsAll d.line >>= fun ls =>
    let b := tBegEnd c ls
    let tspan := b.2 - b.1
    .ok (b.1 - 0.05 * tspan, b.2 + 0.05 * tspan)

/-- `n` nodes in a window (src/mc_line.c:367-369, src/line_decomp.c:182-184); only the times are used.  For a
single node there is a division by zero. -/
noncomputable def nodeCurve (w : ℝ × ℝ) (n : ℕ) : Res LC :=
  if n = 1 then .ub
  else .ok { n := n, t := fun j => (w.2 - w.1) / (n - 1) * j + w.1, f := fun _ => 0, fe := fun _ => 0, em := 0 }

/-- `nall`, `tall` of a set: the same number of nodes for the continuum and every line (src/mc_line.c:304-316,
367-380, src/line_decomp.c:130-144, 182-197). -/
noncomputable def nodeSet (w : ℝ × ℝ) (ndRec : ℕ) (d : DSet) : Res DSet :=
  nodeCurve w (numNodes d.con.n ndRec) >>= fun a => .ok { con := a, line := d.line.map fun _ => a }

/-! ## What is computed from one sample -/

/-- `transform_response_ratio_inplace` in the mode `pmap` only (src/mc_line.c:412-415, src/line_decomp.c:81-85). -/
noncomputable def prepare (pmap : Bool) (nv nl ng : ℕ) (x : List ℝ) : List ℝ :=
  if pmap then transformRatioInplace nv nl ng x else x

/-- The parameters of a sample. -/
noncomputable def withSample (e : KEnv) (x : List ℝ) : KEnv := { e with pm := fun i => x.getD i 0 }

/-- Contents of `PCmat`, `USmat`, `ASmat` found by a call. -/
abbrev WorkMem := (ℕ → ℝ) × (ℕ → ℝ) × (ℕ → ℝ)

/-- `reconstruct_line_from_varmodel3`, `reconstruct_line_from_varmodel_mmap` for one sample. -/
noncomputable def recCall (e : KEnv) (nq : ℕ) (d R : DSet) (ws : WorkMem) (x : List ℝ) :
    Res (Recon (nq * (1 + d.line.length)) R.nall) :=
  .ok (lineRecs (withSample e x).kernels nq d R (withSample e x).pm e.idxc e.idxl (fun i => d.fall i)
    ws.1 ws.2.1 ws.2.2).2.2

/-- `decompose_single_component` (src/line_decomp.c:229) or, for mixtures, `decompose_single_component_mmap`
(src/line_decomp_mmap.c:255) for one sample. -/
noncomputable def decCall (mix : Bool) (e : KEnv) (tf : TF) (k nq : ℕ) (d R : DSet) (ws : WorkMem) (x : List ℝ) :
    Res (Recon (nq * (1 + d.line.length)) R.nall) :=
  if mix then decompMix (withSample e x) tf k nq d R (fun i => d.fall i) ws.1 ws.2.1 ws.2.2
  else decompLine (withSample e x) tf k nq d R (fun i => d.fall i) ws.1 ws.2.1 ws.2.2

/-! ## Accumulating -/

/-- Accumulators of a task: `fall_best`, `fall_std`, `feall_max` for each node, `yq_best`, `yq_std` for each
coefficient (the decomposition has no accumulators for the latter). -/
structure Accs where
  node : ℕ → RecAcc
  yq : ℕ → ℝ × ℝ

/-- `fmax(a, b)` where `b` may be NaN, which is ignored. -/
noncomputable def fmaxNan (a : ℝ) (b : Option ℝ) : ℝ :=
  match b with
  | none => a
  | some b => max a b

/-- Set to zero (src/mc_line.c:381-408, src/line_decomp.c:216-236): `m` nodes, `q` coefficients. -/
noncomputable def accReset (m q : ℕ) (a : Accs) : Accs where
  node p := if p < m then ⟨0, 0, 0⟩ else a.node p
  yq c := if c < q then (0, 0) else a.yq c

/-- The additions after each call (src/mc_line.c:424-448, src/line_decomp.c:254-272). -/
noncomputable def accAdd {q m : ℕ} (a : Accs) (r : Recon q m) : Accs where
  node p := if h : p < m then
      ⟨(a.node p).best + r.val ⟨p, h⟩, (a.node p).sq + r.val ⟨p, h⟩ * r.val ⟨p, h⟩,
        fmaxNan (a.node p).emax (r.err ⟨p, h⟩)⟩
    else a.node p
  yq c := if h : c < q then ((a.yq c).1 + r.coef ⟨c, h⟩, (a.yq c).2 + r.coef ⟨c, h⟩ * r.coef ⟨c, h⟩) else a.yq c

/-- The loop over the samples of a task (src/mc_line.c:402-450, src/line_decomp.c:238-276). -/
noncomputable def sampleLoop {q m : ℕ} (call : List ℝ → Res (Recon q m)) : List (List ℝ) → Accs → Res Accs
  | [], a => .ok a
  | x :: l, a => call x >>= fun r => sampleLoop call l (accAdd a r)

/-- Task `i` of `T`: its part of the `n` samples in `all`, accumulators set to zero, loop.  `mem` is what the
accumulators hold before. -/
noncomputable def taskRun {q m : ℕ} (call : List ℝ → Res (Recon q m)) (all : List ℝ) (n T np : ℕ) (i : ℕ) (mem : Accs) :
    Res Accs :=
  taskBuffer all n T np i >>= fun b => sampleLoop call (taskSamples b (taskPs n T i) np) (accReset m q mem)

/-- The tasks `0 … i-1`. -/
noncomputable def tasksRun {q m : ℕ} (call : List ℝ → Res (Recon q m)) (all : List ℝ) (n T np : ℕ) (mem : ℕ → Accs) :
    ℕ → Res (List Accs)
  | 0 => .ok []
  | i + 1 => tasksRun call all n T np mem i >>= fun l => taskRun call all n T np i (mem i) >>= fun a => .ok (l ++ [a])

/-- `MPI_Reduce` of two tasks (src/mc_line.c:452-460, src/line_decomp.c:279-284). -/
noncomputable def accsMerge (a b : Accs) : Accs where
  node p := accMerge (a.node p) (b.node p)
  yq c := ((a.yq c).1 + (b.yq c).1, (a.yq c).2 + (b.yq c).2)

/-- `MPI_Reduce` of all tasks. -/
noncomputable def accsReduce : List Accs → Res Accs
  | [] => .ub
  | a :: l => .ok (l.foldl accsMerge a)

/-- Mean and standard deviation of a coefficient (src/mc_line.c:508-513). -/
noncomputable def yqOut (n : ℕ) (a : ℝ × ℝ) : ℝ × ℝ :=
  (a.1 / n, Real.sqrt (a.2 / n - a.1 / n * (a.1 / n)))

/-! ## The files -/

/-- The rows of the light curves of a set, from light curve `s` with first node `np` on
(src/mc_line.c:484-504, src/line_decomp.c:310-331); `scale 0` is `con.scale`, `scale (j+1)` is
`line[j].scale`. -/
noncomputable def fileRows (scale : ℕ → ℝ) (out : ℕ → ℝ × ℝ) : List LC → ℕ → ℕ → List (List Row)
  | [], _, _ => []
  | a :: l, s, np =>
    ((List.range a.n).map fun k => (a.t k, (out (np + k)).1 * scale s, (out (np + k)).2 * scale s)) ::
      fileRows scale out l (s + 1) (np + a.n)

/-- The rows of `trend.txt` of a set (src/mc_line.c:514-519). -/
noncomputable def trendRows (scale : ℕ → ℝ) (out : ℕ → ℝ × ℝ) (nq nl : ℕ) : List (ℝ × ℝ) :=
  ((List.range nq).map fun j => ((out j).1 * scale 0, (out j).2 * scale 0)) ++
    (List.range nl).flatMap fun j => (List.range nq).map fun k =>
      ((out ((1 + j) * nq + k)).1 * scale (1 + j), (out ((1 + j) * nq + k)).2 * scale (1 + j))

/-- Everything the drivers know besides the sample. -/
structure FileEnv where
  /-- `parset.model == pmap`, and the numbers used by `transform_response_ratio_inplace` -/
  pmap : Bool
  nv : ℕ
  nl : ℕ
  /-- `parset.model == mmap` -/
  mix : Bool
  /-- `TypeTF` -/
  tf : TF
  /-- components, type of the responses, numbers of the parameters; `pm` is not used -/
  e : KEnv
  nq : ℕ
  /-- the data set and its factors -/
  d : DSet
  scale : ℕ → ℝ
  /-- `NumPointRec`, `TimeRecLowExt`, `TimeRecUppExt` -/
  ndRec : ℕ
  lowExt : ℝ
  uppExt : ℝ
  /-- number of parameters and of tasks -/
  np : ℕ
  T : ℕ

/-- Part of `pall.txt` and of `trend.txt` of a data set.  The samples are transformed on the tasks.  `ws` are the
contents of the workspace met by the calls, `mem` those of the accumulators of the tasks. -/
noncomputable def recFile (v : FileEnv) (ws : List ℝ → WorkMem) (mem : ℕ → Accs) (all : List ℝ) (n : ℕ) :
    Res (List (List Row) × List (ℝ × ℝ)) :=
  recWin v.lowExt v.uppExt v.d >>= fun w => nodeSet w v.ndRec v.d >>= fun R =>
    tasksRun (fun x => recCall v.e v.nq v.d R (ws x) (prepare v.pmap v.nv v.nl v.e.ng x)) all n v.T v.np mem v.T >>= fun l =>
      accsReduce l >>= fun a =>
        .ok (fileRows v.scale (fun p => accOut n (a.node p)) R.series 0 0,
          trendRows v.scale (fun c => yqOut n (a.yq c)) v.nq v.d.line.length)

/-- The root transforms the samples while it reads them (src/line_decomp.c:68-88). -/
noncomputable def prepareAll (v : FileEnv) (all : List ℝ) (n : ℕ) : List ℝ :=
  ((taskSamples all n v.np).map (prepare v.pmap v.nv v.nl v.e.ng)).flatten

/-- The loop over the components: every file uses the same accumulators (src/line_decomp.c:199-335). -/
noncomputable def compLoop (v : FileEnv) (ws : ℕ → List ℝ → WorkMem) (R : DSet) (all : List ℝ) (n : ℕ) :
    List ℕ → (ℕ → Accs) → Res (List (List (List Row)))
  | [], _ => .ok []
  | k :: ks, mem =>
    tasksRun (fun x => decCall v.mix v.e v.tf k v.nq v.d R (ws k x) x) all n v.T v.np mem v.T >>= fun l =>
      accsReduce l >>= fun a =>
        compLoop v ws R all n ks (fun i => l.getD i (mem i)) >>= fun fs =>
          .ok (fileRows v.scale (fun p => accOut n (a.node p)) R.series 0 0 :: fs)

/-- Parts of `pline.txt_…_comp0`, `…_comp1`, … of a data set. -/
noncomputable def decFiles (v : FileEnv) (ws : ℕ → List ℝ → WorkMem) (mem : ℕ → Accs) (all : List ℝ) (n : ℕ) :
    Res (List (List (List Row))) :=
  decWin v.d >>= fun w => nodeSet w v.ndRec v.d >>= fun R =>
    compLoop v ws R (prepareAll v all n) n (List.range v.e.ng) mem

end Mica
