import Verif.Model.Kernel
import Mathlib.Analysis.SpecialFunctions.Trigonometric.Basic
import Mathlib.Analysis.SpecialFunctions.Complex.Circle

/-!
# Mock light curves (genmockdata.py)

Arrays are functions on indices together with their length.  Simplifications: a Python float is ℝ;
plotting, printing and the text files are not modelled here (`format_mica`: Model/PyData.lean); the
numbers `np.random.randn()` are inputs.
-/

namespace Mica

open Complex (I)

/-! ## Transfer functions -/

/-- `gauss`, `tophat`, `gamma`, `exponential`, genmockdata.py:263-282, at one time `t`. -/
noncomputable def mockTf : TF → ℝ → ℝ → ℝ → ℝ → ℝ
  | .gauss, t, f, tau, wid =>
    f / Real.sqrt (2 * Real.pi * wid ^ 2) * Real.exp (-0.5 * (t - tau) ^ 2 / wid ^ 2)
  | .tophat, t, f, tau, wid => if tau - wid / 2 < t ∧ t < tau + wid / 2 then f / wid else 0
  | .gamma, t, f, tau, wid =>
    let t0 := tau - 2 * wid
    if t0 ≤ t then f * (t - t0) / wid ^ 2 * Real.exp (-(t - t0) / wid) else 0
  | .exp, t, f, tau, wid =>
    let t0 := tau - 1 * wid
    if t0 ≤ t then f / wid * Real.exp (-(t - t0) / wid) else 0

/-- One entry of the dictionary `tfs`: type, amplitude, centre, width (genmockdata.py:285, 307-310). -/
structure MockComp where
  typ : TF
  f : ℝ
  tau : ℝ
  wid : ℝ

/-- `ntau`, genmockdata.py:301.  Simplification: for `l1 - l0 ≤ -dt` Python raises an exception when the
array is made, here it is empty. -/
noncomputable def mockNtau (l0 l1 dt : ℝ) : ℕ := ⌊(l1 - l0) / dt⌋₊

/-- `tau`, genmockdata.py:303. -/
noncomputable def mockTau (l0 dt : ℝ) (i : ℕ) : ℝ := i * dt + l0

/-- `resp` before it is normalised, genmockdata.py:302, 307-310. -/
noncomputable def mockRaw (tfs : List MockComp) (l0 dt : ℝ) (i : ℕ) : ℝ :=
  tfs.foldl (fun r k => r + mockTf k.typ (mockTau l0 dt i) k.f k.tau k.wid) 0

/-- `norm`, genmockdata.py:312. -/
noncomputable def mockNorm (tfs : List MockComp) (l0 l1 dt : ℝ) : ℝ :=
  (∑ i ∈ Finset.range (mockNtau l0 l1 dt), |mockRaw tfs l0 dt i|) * dt

/-- `resp`, genmockdata.py:313.  Simplification: with a zero norm Python has NaN, here it is 0. -/
noncomputable def mockResp (tfs : List MockComp) (l0 l1 dt : ℝ) (i : ℕ) : ℝ :=
  mockRaw tfs l0 dt i / mockNorm tfs l0 l1 dt

/-! ## Fourier transforms -/

/-- `exp(2πi j/n)`. -/
noncomputable def rootPow (n : ℕ) (j : ℤ) : ℂ := Complex.exp (2 * Real.pi * I * j / n)

/-- `np.fft.rfft` of a real array of length `n`, element `k` (defined for `k ≤ n/2`). -/
noncomputable def npRfft (n : ℕ) (a : ℕ → ℝ) (k : ℕ) : ℂ :=
  ∑ m ∈ Finset.range n, (a m : ℂ) * rootPow n (-((k : ℤ) * m))

/-- `np.fft.irfft(x, n)`, element `m`: the elements above `n/2` are taken as complex conjugates, and the
imaginary parts of elements 0 and, for even `n`, `n/2` are not used. -/
noncomputable def npIrfft (n : ℕ) (x : ℕ → ℂ) (m : ℕ) : ℝ :=
  ((x 0).re + 2 * ∑ k ∈ Finset.Ioc 0 ((n - 1) / 2), (x k * rootPow n ((k : ℤ) * m)).re +
    if n % 2 = 0 then ((x (n / 2)).re : ℝ) * (-1) ^ m else 0) / n

/-- `convolve_fft`, genmockdata.py:153-163, for arrays of lengths `n ≥ 1` and `nr`: the assignment to
`resp_pad[:nr]` raises an exception if `nr > n`. -/
noncomputable def convolveFft (n : ℕ) (con : ℕ → ℝ) (nr : ℕ) (resp : ℕ → ℝ) : Option (ℕ → ℝ) :=
  if nr ≤ n then
    let pad := fun i => if i < nr then resp i else 0
    some (npIrfft n fun k => npRfft n con k * npRfft n pad k)
  else none

/-! ## Interpolation -/

/-- `np.interp(x, xp, fp)` for increasing `xp` of length `n ≥ 1`. -/
noncomputable def npInterp (n : ℕ) (xp fp : ℕ → ℝ) (x : ℝ) : ℝ :=
  if x < xp 0 then fp 0
  else if xp (n - 1) ≤ x then fp (n - 1)
  else
    let j := Nat.findGreatest (fun j => xp j ≤ x) (n - 1)
    (fp (j + 1) - fp j) / (xp (j + 1) - xp j) * (x - xp j) + fp j

/-! ## simlc -/

/-- `ts[::W]`, genmockdata.py:129, 132: `nd_sim = W*V*nd` points with step `DT/W`, every `W`-th kept. -/
noncomputable def mockTs (W V nd : ℕ) (DT : ℝ) (i : ℕ) : ℝ :=
  DT / W * ((i * W : ℕ) - ((W * V * nd : ℕ) : ℝ) / 2)

/-- `conv`, genmockdata.py:298-299, 314-316: `ts`, `con` have length `n`. -/
noncomputable def mockConv (n : ℕ) (ts con : ℕ → ℝ) (tfs : List MockComp) (l0 l1 : ℝ) :
    Option (ℕ → ℝ) := do
  let dt := ts 1 - ts 0
  let c ← convolveFft n (fun i => con i - 1) (mockNtau l0 l1 dt) (mockResp tfs l0 l1 dt)
  let org := fun i => c i * dt + 1
  some fun i => npInterp n (fun k => ts k + mockTau l0 dt 0) org (ts i)

/-- `line[i, 0]`, genmockdata.py:328-333 with `DT = dt`: `np.linspace(0, tspan, nline)`. -/
noncomputable def mockLineTime (tspan dt : ℝ) (i : ℕ) : ℝ :=
  i * (tspan / ((⌊tspan / dt + 0.5⌋₊ + 1 - 1 : ℕ) : ℝ))

/-- `line[i, 1]` before the errors are added, genmockdata.py:334. -/
noncomputable def mockLine (n : ℕ) (ts con : ℕ → ℝ) (tfs : List MockComp) (l0 l1 tspan dt : ℝ) :
    Option (ℕ → ℝ) := do
  let conv ← mockConv n ts con tfs l0 l1
  some fun i => npInterp n ts conv (mockLineTime tspan dt i)

/-! ## The continuum -/

/-- `psd_drw`, genmockdata.py:20-28, at one frequency. -/
noncomputable def psdDrw (sigma tau cnoise f : ℝ) : ℝ :=
  let nud := 1 / (2 * Real.pi * tau)
  2 * sigma ^ 2 * tau / (1 + (f / nud) ^ 2) + cnoise

/-- The random numbers of `genlc_psd_drw`, `genlc_psd_pow`: for element 0, for real and imaginary
parts of elements `1 .. nd_sim/2-1`, for element `nd_sim/2`. -/
structure MockDraw where
  g0 : ℝ
  re : ℕ → ℝ
  im : ℕ → ℝ
  gN : ℝ

/-- `fft_work`, genmockdata.py:116-123 (`amp` is `2.0**0.5`), 87-94 (`amp` is 1), for `N = nd_sim`,
which is even; `s` is the square root of the power spectrum as a function of frequency. -/
noncomputable def mockWork (N : ℕ) (amp W DT : ℝ) (s : ℝ → ℝ) (g : MockDraw) (k : ℕ) : ℂ :=
  let freq := 1 / (N * DT / W) * k
  if k = 0 then g.g0
  else if k < N / 2 then (amp * s freq / Real.sqrt 2 : ℝ) * (g.re k + I * g.im k)
  else (amp * s freq * g.gN : ℝ)

/-- `fs` before every `W`-th element is taken, genmockdata.py:125-130, 96-101. -/
noncomputable def mockFs (N : ℕ) (amp W DT : ℝ) (s : ℝ → ℝ) (g : MockDraw) (m : ℕ) : ℝ :=
  npIrfft N (mockWork N amp W DT s g) m * N * (1 / Real.sqrt N * Real.sqrt (N / (2 * N * DT)))

/-- `drw(tot, model)`, genmockdata.py:136-142 (with 111-132: `W = V = 10`, `DT = 0.01`): element `i`. -/
noncomputable def mockDrw (tot sigma tau cnoise : ℝ) (g : MockDraw) (i : ℕ) : ℝ :=
  mockFs (10 * 10 * ⌊tot / 0.01⌋₊) (Real.sqrt 2) 10 0.01 (fun f => Real.sqrt (psdDrw sigma tau cnoise f)) g
    (i * 10) + 1

end Mica
