import Verif.Proof.ArrayKernel
import Verif.Proof.Line
import Verif.Proof.Workspace
import Verif.Model.VmapLike
/-
C81: the fast path.  The likelihood does not call the covariance functions point by point: it fills scratch
arrays by separate "array" functions, written out a second time for every shape and every pair of shapes, and
copies those arrays into the covariance matrix.  The theorems say that the result is the matrix that the
point-by-point functions define, for every input, every previous content of the scratch arrays, and without
touching anything outside of them.
-/

namespace Mica

/-- Numbers of points of a data set. -/
def DSet.sizes (d : DSet) : DSize := ⟨d.con.n, d.line.map LC.n⟩

/-- The allocated sizes, src/mc_line.c:2371-2372, src/mc_mmap.c:842-846, src/mc_vmap.c:271-272. -/
def scratchOf (ds : List DSet) : ScratchSize :=
  ⟨(maxima (ds.map DSet.sizes)).ncon * (maxima (ds.map DSet.sizes)).nline,
    (maxima (ds.map DSet.sizes)).nline * (maxima (ds.map DSet.sizes)).nline⟩

private theorem scratch_fits {ds : List DSet} {d : DSet} (h : d ∈ ds) :
    (∀ a ∈ d.line, d.con.n * a.n ≤ (scratchOf ds).lc) ∧
    ∀ a ∈ d.line, ∀ b ∈ d.line, a.n * b.n ≤ (scratchOf ds).ll := by
  obtain ⟨h1, h2, -⟩ := maxima_fits (List.mem_map_of_mem (f := DSet.sizes) h)
  have h3 : ∀ a ∈ d.line, a.n ≤ (maxima (ds.map DSet.sizes)).nline :=
    fun a ha => h2 a.n (List.mem_map_of_mem (f := LC.n) ha)
  exact ⟨fun a ha => Nat.mul_le_mul h1 (h3 a ha), fun a ha b hb => Nat.mul_le_mul (h3 a ha) (h3 b hb)⟩

/-- C81, the array of covariances of the continuum with a line: every element is the value of the
point-by-point function, for one type and for mixed types, whatever the arrays held before. -/
theorem C81_line_continuum (e : KEnv) (sz : ScratchSize) (mix : Bool) (tc : ℕ → ℝ) (nc : ℕ) (tl : ℕ → ℝ)
    (nl j : ℕ) (w : Scratch) (hs : nc * nl ≤ sz.lc) :
    ∃ w', anySlc e sz mix tc nc tl nl j w = .ok w' ∧
      ∀ i < nc, ∀ m < nl, w'.lc (i * nl + m) = e.slc (tc i) (tl m) j := by
  obtain ⟨w', h1, -, h2⟩ := anySlc_ok e sz mix tc nc tl nl j w hs
  exact ⟨w', h1, h2⟩

/-- C81, the array of covariances of a line with itself: the elements with `m <= i`. -/
theorem C81_line_self (e : KEnv) (sz : ScratchSize) (mix : Bool) (tl : ℕ → ℝ) (nl j : ℕ) (w : Scratch)
    (hs : nl * nl ≤ sz.ll) :
    ∃ w', anySll e sz mix tl nl j w = .ok w' ∧
      ∀ i < nl, ∀ m ≤ i, w'.ll (i * nl + m) = e.sll (tl i) (tl m) j := by
  obtain ⟨w', h1, -, h2⟩ := anySll_ok e sz mix tl nl j w hs
  exact ⟨w', h1, h2⟩

/-- C81, the array of covariances of two lines. -/
theorem C81_line_pair (e : KEnv) (sz : ScratchSize) (mix : Bool) (t1 : ℕ → ℝ) (n1 : ℕ) (t2 : ℕ → ℝ)
    (n2 j l : ℕ) (w : Scratch) (hs : n1 * n2 ≤ sz.ll) :
    ∃ w', anySll2 e sz mix t1 n1 t2 n2 j l w = .ok w' ∧
      ∀ i < n1, ∀ m < n2, w'.ll (i * n2 + m) = e.sll2 (t1 i) (t2 m) j l := by
  obtain ⟨w', h1, -, h2⟩ := anySll2_ok e sz mix t1 n1 t2 n2 j l w hs
  exact ⟨w', h1, h2⟩

/-- C81, the matrix of the likelihood: for every collection of data sets and each of them, with the scratch
arrays as allocated for the collection and holding anything, the array fill finishes without leaving them, and
the matrix is the one that the point-by-point fill writes (from any start). -/
theorem C81_matrix (e : KEnv) (ds : List DSet) (d : DSet) (hd : d ∈ ds) (mix : Bool) (w : Scratch)
    (mem : ℕ → ℝ) :
    ∃ w', fillArray e (scratchOf ds) mix d w = .ok w' ∧
      matOf w'.pc d.nall d.nall =
        matOf (runWrites (lineWrites e.kernels d e.pm e.idxc e.idxl) mem) d.nall d.nall := by
  obtain ⟨hs1, hs2⟩ := scratch_fits hd
  obtain ⟨w1, h1, h2⟩ := fillLc_ok e (scratchOf ds) mix d.nall d.con d.line 0 d.con.n (w.write
    (ccWrites (pmSigma e.pm e.idxc) (pmTau e.pm e.idxc) (pmSyserr e.pm e.idxc d.con.em) d.nall d.con)) hs1
  obtain ⟨w2, h3, h4⟩ := fillLl_ok e (scratchOf ds) mix (pmSigma e.pm e.idxc) d.nall d.line 0 d.con.n w1 hs2
  refine ⟨w2, by rw [fillArray, h1, Res.ok_bind, h3], ?_⟩
  have hpc : w2.pc = runWrites (lineWritesArr e.kernels d e.pm e.idxc e.idxl) w.pc := by
    rw [h4, h2, lineWritesArr, runWrites_append, runWrites_append]; rfl
  ext p q
  simp only [matOf, hpc]
  rw [runWrites_lineArr e.kernels d e.pm e.idxc e.idxl w.pc p.2 q.2,
    runWrites_line e.kernels d e.pm e.idxc e.idxl mem p.2 q.2]

/-- C81 in the mode without continuum data: the array fill leaves exactly the memory of the point-by-point
values, `vPC`. -/
theorem C81_matrix_vmap (e : KEnv) (ds : List DSet) (d : DSet) (hd : d ∈ ds) (w : Scratch) :
    ∃ w', fillArrayV e (scratchOf ds) d.line w = .ok w' ∧
      matOf w'.pc (totalN d.line) (totalN d.line) = vPC e.kernels e.pm e.idxc e.idxl d.line w.pc := by
  obtain ⟨w2, h3, h4⟩ := fillLl_ok e (scratchOf ds) false (Real.exp (e.pm (e.idxc + 1))) (totalN d.line) d.line 0 0 w
    (scratch_fits hd).2
  exact ⟨w2, h3, by rw [h4]; rfl⟩

/-- C81: the result does not depend on what a previous call left in any of the arrays. -/
theorem C81_no_memory (e : KEnv) (ds : List DSet) (d : DSet) (hd : d ∈ ds) (mix : Bool) (w v : Scratch) :
    ∃ w' v', fillArray e (scratchOf ds) mix d w = .ok w' ∧ fillArray e (scratchOf ds) mix d v = .ok v' ∧
      matOf w'.pc d.nall d.nall = matOf v'.pc d.nall d.nall := by
  obtain ⟨w', h1, h2⟩ := C81_matrix e ds d hd mix w (fun _ => 0)
  obtain ⟨v', h3, h4⟩ := C81_matrix e ds d hd mix v (fun _ => 0)
  exact ⟨w', v', h1, h3, h2.trans h4.symm⟩

/-- A run with three types and two data sets, the first with two lines of different lengths. -/
noncomputable def arrayEnv : KEnv where
  ng := 3
  lin := false
  typ := fun k => if k = 0 then .tophat else if k = 1 then .exp else .gamma
  pm := fun i => (i : ℝ) / 10
  idxc := 0
  idxl := fun j => 3 + 10 * j

def arraySet : DSet := ⟨⟨3, fun i => i, fun _ => 1, fun _ => 1, 1⟩,
  [⟨2, fun i => i, fun _ => 1, fun _ => 1, 1⟩, ⟨4, fun i => 2 * i, fun _ => 1, fun _ => 1, 1⟩]⟩

example (w : Scratch) : ∃ w', fillArray arrayEnv (scratchOf [arraySet, ⟨arraySet.con, []⟩]) true arraySet w = .ok w' ∧
    w'.pc (7 * 9 + 4) = arrayEnv.sll2 1 4 0 1 := by
  obtain ⟨w', h1, h2⟩ := C81_matrix arrayEnv [arraySet, ⟨arraySet.con, []⟩] arraySet (by simp) true w (fun _ => 0)
  refine ⟨w', h1, ?_⟩
  have h3 := congrFun (congrFun h2 (⟨7, by decide⟩ : Fin arraySet.nall)) (⟨4, by decide⟩ : Fin arraySet.nall)
  have h4 := runWrites_line arrayEnv.kernels arraySet arrayEnv.pm arrayEnv.idxc arrayEnv.idxl (fun _ => 0)
    (p := 7) (q := 4) (by decide) (by decide)
  have hn : arraySet.nall = 9 := rfl
  simp only [matOf, hn] at h3 h4
  rw [h3, h4]
  simp [covEntry, sigCov, DSet.ser, locate, DSet.series, arraySet, KEnv.kernels]
  norm_num

theorem sweepRow_within {size row : ℕ} {g : ℕ → ℝ → ℝ} : ∀ {c : ℕ} {mem out : ℕ → ℝ},
    sweepRow size row g c mem = .ok out → ∀ j < c, row + j < size
  | 0, _, _, _, j, hj => absurd hj (Nat.not_lt_zero j)
  | c + 1, mem, out, h, j, hj => by
    rw [sweepRow] at h
    obtain ⟨m, h1, h2⟩ := Res.bind_eq_ok.1 h
    rcases Nat.lt_succ_iff_lt_or_eq.1 hj with hj | rfl
    · exact sweepRow_within h1 j hj
    · rw [touch] at h2
      split at h2
      · assumption
      · simp at h2

/-- **C81 (size of the scratch arrays).**  The loops over the scratch arrays are free of undefined behaviour only if every
element they visit exists: one element less than the last one visited is too small. -/
theorem C81_scratch {size stride : ℕ} {cols : ℕ → ℕ} {g : ℕ → ℕ → ℝ → ℝ} : ∀ {n : ℕ} {mem out : ℕ → ℝ},
    sweep size stride cols g n mem = .ok out → ∀ i < n, ∀ j < cols i, i * stride + j < size
  | 0, _, _, _, i, hi, _, _ => absurd hi (Nat.not_lt_zero i)
  | n + 1, mem, out, h, i, hi, j, hj => by
    rw [sweep] at h
    obtain ⟨m, h1, h2⟩ := Res.bind_eq_ok.1 h
    rcases Nat.lt_succ_iff_lt_or_eq.1 hi with hi | rfl
    · exact C81_scratch h1 i hi j hj
    · exact sweepRow_within h2 j hj

/-- Three rows of three columns in an array of nine elements, and not in one of eight. -/
example (mem : ℕ → ℝ) : (∃ out, sweep 9 3 (fun _ => 3) (fun _ _ x => x) 3 mem = .ok out) ∧
    ¬∃ out, sweep 8 3 (fun _ => 3) (fun _ _ x => x) 3 mem = .ok out := by
  constructor
  · simp [sweep, sweepRow, touch]
  · rintro ⟨out, h⟩
    have := C81_scratch h 2 (by omega) 2 (by omega)
    omega

end Mica
