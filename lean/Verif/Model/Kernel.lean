import Mathlib.MeasureTheory.Integral.Bochner.Set
import Mathlib.MeasureTheory.Measure.Lebesgue.Basic
import Mathlib.Analysis.SpecialFunctions.Log.Basic
import Mathlib.Analysis.SpecialFunctions.Trigonometric.Basic
import Verif.Model.Line

/-!
# Covariance functions of the transfer functions (src/mc_line.c, src/mc_mmap.c)

`double` is idealised to `ℝ`; `gsl_sf_log_erfc` and `erfc` are taken by their mathematical meaning.
In every function `Dt` is the difference of the two times.
-/

namespace Mica

open MeasureTheory Set

/-- `EPS`, src/allvars.h:30. -/
noncomputable def kEPS : ℝ := 1 / 100000

/-- The complementary error function (C library `erfc`). -/
noncomputable def erfc (x : ℝ) : ℝ := 2 / Real.sqrt Real.pi * ∫ u in Ioi x, Real.exp (-u ^ 2)

/-- `gsl_sf_log_erfc`. -/
noncomputable def logErfc (x : ℝ) : ℝ := Real.log (erfc x)

/-- The three parameters of one component as the functions read them: amplitude `fg`, centre and width. -/
structure Comp where
  f : ℝ
  c : ℝ
  w : ℝ

/-- Reading of component `k` of the line whose parameters start at `idx`: `idxk = idx + 1 + 3*k`,
`exp(pm[idxk])` (`pm[idxk]` in the `_linear` variants), `pm[idxk+1]`, `exp(pm[idxk+2])`; e.g.
src/mc_line.c:2829-2832 and, linear, 2888-2891. -/
noncomputable def compAt (lin : Bool) (pm : ℕ → ℝ) (idx k : ℕ) : Comp :=
  ⟨if lin then pm (idx + 1 + 3 * k) else Real.exp (pm (idx + 1 + 3 * k)),
    pm (idx + 1 + 3 * k + 1), Real.exp (pm (idx + 1 + 3 * k + 2))⟩

/-! ## Continuum with line, one component -/

/-- Body of `Slc_gauss` (src/mc_line.c:3301-3348), `Slc_gauss_linear` (3350-3398), `Slc_gauss_mmap`
(src/mc_mmap.c:1406-1454). -/
noncomputable def slcGau (taud : ℝ) (a : Comp) (Dt : ℝ) : ℝ :=
  let DT := Dt - a.c
  let St := Real.exp (-DT / taud + logErfc (-(DT / a.w - a.w / taud) / Real.sqrt 2) + a.w * a.w / 2 / taud / taud) +
    Real.exp (DT / taud + logErfc ((DT / a.w + a.w / taud) / Real.sqrt 2) + a.w * a.w / 2 / taud / taud)
  St * (1 / 2 * a.f)

open Classical in
/-- Body of `Slc_tophat` (src/mc_line.c:3515-3557), `Slc_tophat_linear` (3559-3601), `Slc_tophat_mmap`
(src/mc_mmap.c:1546-1590). -/
noncomputable def slcTop (taud : ℝ) (a : Comp) (Dt : ℝ) : ℝ :=
  let fg := a.f * (taud / 2 / a.w)
  let DT := Dt - a.c
  let St := if DT < -a.w then Real.exp ((DT + a.w) / taud) - Real.exp ((DT - a.w) / taud)
    else if DT < a.w then 2 - Real.exp (-(DT + a.w) / taud) - Real.exp ((DT - a.w) / taud)
    else Real.exp (-(DT - a.w) / taud) - Real.exp (-(DT + a.w) / taud)
  St * fg

open Classical in
/-- Body of `Slc_gamma` (src/mc_line.c:4450-4492), `Slc_gamma_linear` (4498-4540), `Slc_gamma_mmap`
(src/mc_mmap.c:1456-1499). -/
noncomputable def slcGam (taud : ℝ) (a : Comp) (Dt : ℝ) : ℝ :=
  let tau1 := a.w
  let tau0 := a.c - 2 * tau1
  let p1 := (taud + tau1) / taud
  let p2 := (taud - tau1) / taud
  let DT := Dt - tau0
  let St := if DT ≤ 0 then Real.exp (DT / taud) / p1 / p1
    else if |p2| < kEPS then
      Real.exp (-DT / taud) * ((DT / taud) * (DT / taud) / 2 + (p1 * DT / taud + 1) / p1 / p1)
    else Real.exp (-DT / taud) / p2 / p2 +
      Real.exp (-DT / tau1) * (-(p2 * DT / tau1 + 1) / p2 / p2 + (p1 * DT / tau1 + 1) / p1 / p1)
  St * a.f

open Classical in
/-- Body of `Slc_exp` (src/mc_line.c:5359-5401), `Slc_exp_linear` (5407-5449), `Slc_exp_mmap`
(src/mc_mmap.c:1501-1544). -/
noncomputable def slcExp (taud : ℝ) (a : Comp) (Dt : ℝ) : ℝ :=
  let tau1 := a.w
  let tau0 := a.c - tau1
  let p1 := (taud + tau1) / taud
  let p2 := (taud - tau1) / taud
  let DT := Dt - tau0
  let St := if DT ≤ 0 then Real.exp (DT / taud) / p1
    else if |p2| < kEPS then Real.exp (-DT / taud) * (DT / taud + 1 / p1)
    else Real.exp (-DT / taud) / p2 + Real.exp (-DT / tau1) * (-1 / p2 + 1 / p1)
  St * a.f

/-! ## Line with line, one pair of components -/

/-- Body of `Sll_gauss` (src/mc_line.c:2811-2868), `Sll2_gauss` (3070-3114), their `_linear` variants
(2870-2927, 3116-3160) and `Sll_gau_gau` (src/mc_mmap.c:1621-1680). -/
noncomputable def sllGauGau (taud : ℝ) (a b : Comp) (Dt : ℝ) : ℝ :=
  let DT := Dt - (a.c - b.c)
  let A := Real.sqrt (a.w * a.w + b.w * b.w)
  let St := Real.exp (-DT / taud + logErfc (-(DT / A - A / taud) / Real.sqrt 2) + A * A / 2 / taud / taud) +
    Real.exp (DT / taud + logErfc ((DT / A + A / taud) / Real.sqrt 2) + A * A / 2 / taud / taud)
  St * (1 / 2 * a.f * b.f)

open Classical in
/-- Body of `Sll_tophat` (src/mc_line.c:3730-3807), `Sll2_tophat` (4086-4164), their `_linear` variants
(3809-3886, 4166-4244) and `Sll_tophat_tophat` (src/mc_mmap.c:2206-2285). -/
noncomputable def sllTopTop (taud : ℝ) (a b : Comp) (Dt : ℝ) : ℝ :=
  let fg12 := a.f / a.w * b.f / b.w / 4 * taud * taud
  let wh := if a.w ≥ b.w then a.w else b.w
  let wl := if a.w ≥ b.w then b.w else a.w
  let DT := Dt - (a.c - b.c)
  let St :=
    if DT < -wh - wl then
      Real.exp ((DT + wh + wl) / taud) + Real.exp ((DT - wh - wl) / taud) -
        Real.exp ((DT + wh - wl) / taud) - Real.exp ((DT - wh + wl) / taud)
    else if DT < -wh + wl then
      Real.exp ((DT - wh - wl) / taud) + Real.exp (-(DT + wh + wl) / taud) -
        Real.exp ((DT + wh - wl) / taud) - Real.exp ((DT - wh + wl) / taud) + 2 * (DT + wh + wl) / taud
    else if DT < wh - wl then
      Real.exp ((DT - wh - wl) / taud) + Real.exp (-(DT + wh + wl) / taud) -
        Real.exp ((DT - wh + wl) / taud) - Real.exp (-(DT + wh - wl) / taud) + 4 * wl / taud
    else if DT < wh + wl then
      Real.exp (-(DT + wh + wl) / taud) + Real.exp ((DT - wh - wl) / taud) -
        Real.exp (-(DT - wh + wl) / taud) - Real.exp (-(DT + wh - wl) / taud) - 2 * (DT - wh - wl) / taud
    else
      Real.exp (-(DT - wh - wl) / taud) + Real.exp (-(DT + wh + wl) / taud) -
        Real.exp (-(DT - wh + wl) / taud) - Real.exp (-(DT + wh - wl) / taud)
  St * fg12

open Classical in
/-- Body of `Sll_gamma` (src/mc_line.c:4675-4744), `Sll2_gamma` (5013-5083), their `_linear` variants
(4753-4822, 5092-5162) and `Sll_gam_gam` (src/mc_mmap.c:1807-1878). -/
noncomputable def sllGamGam (taud : ℝ) (a b : Comp) (Dt : ℝ) : ℝ :=
  let tau1 := a.w
  let tau01 := a.c - 2 * tau1
  let p1 := (taud - tau1) / taud
  let p2 := (taud + tau1) / taud
  let tau2 := b.w
  let tau02 := b.c - 2 * tau2
  let fg12 := a.f * b.f
  let p3 := (taud + tau2) / taud
  let p4 := (taud - tau2) / taud
  let p51 := (tau1 + tau2) / tau1
  let p52 := (tau1 + tau2) / tau2
  let DT := Dt - (tau01 - tau02)
  let St :=
    if DT ≤ 0 then
      if |p4| < kEPS then
        let tmp := p2 * DT / tau1
        Real.exp (DT / taud) * ((tau1 / tau2) * (tau1 / tau2) / (p2 * p2 * p2 * p2) * (3 - 2 * tmp + tmp * tmp / 2) +
          (1 - p3 * DT / tau2 + 2 * p3 / p51) / (p3 * p3 * p52 * p52))
      else
        Real.exp (DT / taud) / (p2 * p2 * p4 * p4) +
          Real.exp (DT / tau2) / (p4 * p4 * p52 * p52) *
            (-(1 - p4 * DT / tau2 + 2 * p4 / p51) + (1 - p3 * DT / tau2 + 2 * p3 / p51) * (p4 * p4) / (p3 * p3))
    else
      if |p1| < kEPS then
        let tmp := p3 * DT / tau2
        Real.exp (-DT / taud) * ((tau2 / tau1) * (tau2 / tau1) / (p3 * p3 * p3 * p3) * (3 + 2 * tmp + tmp * tmp / 2) +
          (1 + p2 * DT / tau1 + 2 * p2 / p52) / (p2 * p2 * p51 * p51))
      else
        Real.exp (-DT / taud) / (p1 * p1 * p3 * p3) +
          Real.exp (-DT / tau1) / (p1 * p1 * p51 * p51) *
            (-(1 + p1 * DT / tau1 + 2 * p1 / p52) + (1 + p2 * DT / tau1 + 2 * p2 / p52) * (p1 * p1) / (p2 * p2))
  St * fg12

open Classical in
/-- Body of `Sll_exp` (src/mc_line.c:5584-5646), `Sll2_exp` (5890-5952), their `_linear` variants
(5654-5716, 5961-6023) and `Sll_exp_exp` (src/mc_mmap.c:2015-2078). -/
noncomputable def sllExpExp (taud : ℝ) (a b : Comp) (Dt : ℝ) : ℝ :=
  let tau1 := a.w
  let tau01 := a.c - tau1
  let p1 := (taud - tau1) / taud
  let p2 := (taud + tau1) / taud
  let tau2 := b.w
  let tau02 := b.c - tau2
  let fg12 := a.f * b.f
  let p3 := (taud + tau2) / taud
  let p4 := (taud - tau2) / taud
  let p51 := (tau1 + tau2) / tau1
  let p52 := (tau1 + tau2) / tau2
  let DT := Dt - (tau01 - tau02)
  let St :=
    if DT ≤ 0 then
      if |p4| < kEPS then
        Real.exp (DT / taud) * (-DT / tau2 / p2 + tau1 / tau2 * 1 / p2 / p2 + 1 / (p3 * p52))
      else
        Real.exp (DT / taud) / (p2 * p4) + Real.exp (DT / tau2) / (p4 * p52) * (-1 + p4 / p3)
    else
      if |p1| < kEPS then
        Real.exp (-DT / taud) * (DT / tau1 / p3 + tau2 / tau1 * 1 / p3 / p3 + 1 / (p2 * p51))
      else
        Real.exp (-DT / taud) / (p1 * p3) + Real.exp (-DT / tau1) / (p1 * p51) * (-1 + p1 / p2)
  St * fg12

open Classical in
/-- `Sll_gau_exp`, src/mc_mmap.c:1682-1740: the first component Gaussian, the second exponential. -/
noncomputable def sllGauExp (taud : ℝ) (a b : Comp) (Dt : ℝ) : ℝ :=
  let wid1 := a.w
  let wid2 := b.w
  let tau2 := b.c - wid2
  let fg12 := a.f * b.f / 2
  let DT := Dt - (a.c - tau2)
  let C1 := taud / (taud + wid2)
  let St :=
    if |taud - wid2| > kEPS then
      let C2 := taud / (taud - wid2)
      C1 * Real.exp (-DT / taud + wid1 * wid1 / (taud * taud) / 2 +
          logErfc (-1 / Real.sqrt 2 * (DT / wid1 - wid1 / taud))) +
        C2 * Real.exp (DT / taud + wid1 * wid1 / (taud * taud) / 2 +
          logErfc (1 / Real.sqrt 2 * (DT / wid1 + wid1 / taud))) +
        (C1 - C2) * Real.exp (DT / wid2 + wid1 * wid1 / (wid2 * wid2) / 2 +
          logErfc (1 / Real.sqrt 2 * (DT / wid1 + wid1 / wid2)))
    else
      let fac := DT / wid1 + wid1 / taud
      C1 * Real.exp (-DT / taud + wid1 * wid1 / (taud * taud) / 2 +
          logErfc (-1 / Real.sqrt 2 * (DT / wid1 - wid1 / taud))) +
        C1 * Real.exp (DT / taud + wid1 * wid1 / (taud * taud) / 2 + logErfc (1 / Real.sqrt 2 * fac)) +
        wid1 / wid2 * (Real.exp (-DT * DT / (wid1 * wid1) / 2) / Real.sqrt (Real.pi / 2) -
          fac * Real.exp (DT / taud + wid1 * wid1 / (taud * taud) / 2 + logErfc (1 / Real.sqrt 2 * fac)))
  St * fg12

open Classical in
/-- `Sll_gau_gam`, src/mc_mmap.c:1742-1805. -/
noncomputable def sllGauGam (taud : ℝ) (a b : Comp) (Dt : ℝ) : ℝ :=
  let wid1 := a.w
  let wid2 := b.w
  let tau2 := b.c - 2 * wid2
  let fg12 := a.f * b.f / 2
  let DT := Dt - (a.c - tau2)
  let C1 := taud / (taud + wid2)
  let St :=
    if |taud - wid2| > kEPS then
      let C2 := taud / (taud - wid2)
      let fac := DT / wid1 + wid1 / wid2
      C1 * C1 * Real.exp (-DT / taud + wid1 * wid1 / (taud * taud) / 2 +
          logErfc (-1 / Real.sqrt 2 * (DT / wid1 - wid1 / taud))) +
        C2 * C2 * Real.exp (DT / taud + wid1 * wid1 / (taud * taud) / 2 +
          logErfc (1 / Real.sqrt 2 * (DT / wid1 + wid1 / taud))) +
        (C1 * C1 - C2 * C2) * Real.exp (DT / wid2 + wid1 * wid1 / (wid2 * wid2) / 2 +
          logErfc (1 / Real.sqrt 2 * (DT / wid1 + wid1 / wid2))) +
        (C1 - C2) * wid1 / wid2 * (Real.exp (-DT * DT / (wid1 * wid1) / 2) / Real.sqrt (Real.pi / 2) -
          fac * Real.exp (DT / wid2 + wid1 * wid1 / (wid2 * wid2) / 2 + logErfc (fac / Real.sqrt 2)))
    else
      let fac := DT / wid1 + wid1 / taud
      C1 * C1 * Real.exp (-DT / taud + wid1 * wid1 / (taud * taud) / 2 +
          logErfc (-1 / Real.sqrt 2 * (DT / wid1 - wid1 / taud))) +
        C1 * C1 * Real.exp (DT / taud + wid1 * wid1 / (taud * taud) / 2 + logErfc (fac / Real.sqrt 2)) +
        C1 * wid1 / wid2 * (Real.exp (-DT * DT / (wid1 * wid1) / 2) / Real.sqrt (Real.pi / 2) -
          fac * Real.exp (DT / wid2 + wid1 * wid1 / (wid2 * wid2) / 2 + logErfc (fac / Real.sqrt 2))) +
        wid1 * wid1 / (wid2 * wid2) / 2 *
          ((1 + fac * fac) * Real.exp (DT / taud + wid1 * wid1 / (taud * taud) / 2 + logErfc (fac / Real.sqrt 2)) -
            fac * Real.exp (-DT * DT / (wid1 * wid1) / 2) / Real.sqrt (Real.pi / 2))
  St * fg12

/-- `Sll_gau_tophat`, src/mc_mmap.c:2287-2325. -/
noncomputable def sllGauTop (taud : ℝ) (a b : Comp) (Dt : ℝ) : ℝ :=
  let wg1 := a.w
  let wg2 := b.w
  let fg12 := a.f * b.f * taud / wg2 / 4
  let DT := Dt - (a.c - b.c)
  let St := 2 * (erfc ((-wg2 + DT) / wg1 / Real.sqrt 2) - erfc ((wg2 + DT) / wg1 / Real.sqrt 2)) +
    Real.exp (wg2 / taud - DT / taud + wg1 * wg1 / taud / taud / 2 +
      logErfc (((wg2 - DT) / wg1 + wg1 / taud) / Real.sqrt 2)) +
    Real.exp (wg2 / taud + DT / taud + wg1 * wg1 / taud / taud / 2 +
      logErfc (((wg2 + DT) / wg1 + wg1 / taud) / Real.sqrt 2)) -
    Real.exp (-wg2 / taud + DT / taud + wg1 * wg1 / taud / taud / 2 +
      logErfc (((-wg2 + DT) / wg1 + wg1 / taud) / Real.sqrt 2)) -
    Real.exp (-wg2 / taud - DT / taud + wg1 * wg1 / taud / taud / 2 +
      logErfc (((-wg2 - DT) / wg1 + wg1 / taud) / Real.sqrt 2))
  St * fg12

open Classical in
/-- `Sll_exp_gam`, src/mc_mmap.c:2139-2204. -/
noncomputable def sllExpGam (taud : ℝ) (a b : Comp) (Dt : ℝ) : ℝ :=
  let wid1 := a.w
  let tau1 := a.c - wid1
  let wid2 := b.w
  let tau2 := b.c - 2 * wid2
  let fg12 := a.f * b.f / (wid1 * wid2 * wid2)
  let p1 := (taud - wid1) / taud / wid1
  let p2 := (taud + wid1) / taud / wid1
  let p3 := (taud + wid2) / taud / wid2
  let p4 := (taud - wid2) / taud / wid2
  let p5 := (wid1 + wid2) / wid1 / wid2
  let DT := Dt - (tau1 - tau2)
  let St :=
    if DT ≥ 0 then
      if |taud - wid1| > kEPS then
        1 / (p1 * p3 * p3) * Real.exp (-DT / taud) + (1 / p2 - 1 / p1) / (p5 * p5) * Real.exp (-DT / wid1)
      else
        1 / (p3 * p3 * p3) * (2 + DT * p3) * Real.exp (-DT / taud) + 1 / (p2 * p5 * p5) * Real.exp (-DT / wid1)
    else
      if |taud - wid2| > kEPS then
        1 / (p2 * p4 * p4) * Real.exp (DT / taud) +
          ((1 / p3 - 1 / p4) * (1 / p5 / p5 - DT / p5) + (1 / p3 / p3 - 1 / p4 / p4) / p5) * Real.exp (DT / wid2)
      else
        (1 / (p2 * p2 * p2) - DT / (p2 * p2) + DT * DT / (2 * p2)) * Real.exp (DT / taud) +
          (1 / (p5 * p3 * p3) + (1 / p5 / p5 - DT / p5) / p3) * Real.exp (DT / wid2)
  St * fg12

open Classical in
/-- `Sll_exp_tophat`, src/mc_mmap.c:2367-2437. -/
noncomputable def sllExpTop (taud : ℝ) (a b : Comp) (Dt : ℝ) : ℝ :=
  let wg1 := a.w
  let tau1 := a.c - wg1
  let wg2 := b.w
  let fg12 := a.f * b.f / wg1 / wg2 / 2
  let DT := Dt - (tau1 - b.c)
  let p1 := (taud + wg1) / taud / wg1
  let p2 := (taud - wg1) / taud / wg1
  let St :=
    if DT ≤ -wg2 then 1 / p1 * taud * Real.exp (DT / taud) * (Real.exp (wg2 / taud) - Real.exp (-wg2 / taud))
    else if DT ≤ wg2 then
      if |taud - wg1| > kEPS then
        2 * taud * wg1 * (1 - Real.exp (-(wg2 + DT) / wg1)) + (1 / p1 + 1 / p2) * taud * Real.exp (-(wg2 + DT) / wg1) -
          1 / p1 * taud * Real.exp (DT / taud - wg2 / taud) - 1 / p2 * taud * Real.exp (-DT / taud - wg2 / taud)
      else
        2 * taud * wg1 * (1 - Real.exp (-(wg2 + DT) / wg1)) + 1 / p1 * taud * Real.exp (-(wg2 + DT) / wg1) -
          1 / p1 * taud * Real.exp (DT / taud - wg2 / taud) - taud * (wg2 + DT) * Real.exp (-(wg2 + DT) / taud)
    else
      if |taud - wg1| > kEPS then
        1 / p2 * taud * (Real.exp (-(-wg2 + DT) / taud) - Real.exp (-(wg2 + DT) / taud)) +
          (1 / p1 - 1 / p2) * wg1 * (Real.exp (-(-wg2 + DT) / wg1) - Real.exp (-(wg2 + DT) / wg1))
      else
        1 / p1 * wg1 * (Real.exp (-(-wg2 + DT) / wg1) - Real.exp (-(wg2 + DT) / wg1)) +
          taud * Real.exp (-(-wg2 + DT) / taud) * (taud - wg2 + DT) -
          taud * Real.exp (-(wg2 + DT) / taud) * (taud + wg2 + DT)
  St * fg12

open Classical in
/-- `Sll_gam_tophat`, src/mc_mmap.c:2594-2675. -/
noncomputable def sllGamTop (taud : ℝ) (a b : Comp) (Dt : ℝ) : ℝ :=
  let wg1 := a.w
  let tau1 := a.c - 2 * wg1
  let wg2 := b.w
  let fg12 := a.f * b.f / (wg1 * wg1) / wg2 / 2
  let DT := Dt - (tau1 - b.c)
  let p1 := (taud + wg1) / taud / wg1
  let p2 := (taud - wg1) / taud / wg1
  let St :=
    if DT ≤ -wg2 then 1 / (p1 * p1) * taud * Real.exp (DT / taud) * (Real.exp (wg2 / taud) - Real.exp (-wg2 / taud))
    else if DT ≤ wg2 then
      if |taud - wg1| > kEPS then
        2 * taud * wg1 * wg1 * (1 - Real.exp (-(wg2 + DT) / wg1) * ((wg2 + DT) / wg1 + 1)) +
          1 / (p1 * p1) * taud * Real.exp (-(wg2 + DT) / wg1) * (p1 * (wg2 + DT) + 1) +
          1 / (p2 * p2) * taud * Real.exp (-(wg2 + DT) / wg1) * (p2 * (wg2 + DT) + 1) -
          1 / (p1 * p1) * taud * Real.exp (-(wg2 - DT) / taud) - 1 / (p2 * p2) * taud * Real.exp (-(wg2 + DT) / taud)
      else
        2 * taud * wg1 * wg1 * (1 - Real.exp (-(wg2 + DT) / wg1) * ((wg2 + DT) / wg1 + 1)) +
          1 / (p1 * p1) * taud * Real.exp (-(wg2 + DT) / wg1) * (p1 * (wg2 + DT) + 1) -
          1 / (p1 * p1) * taud * Real.exp (-(wg2 - DT) / taud) -
          1 / 2 * taud * (wg2 + DT) * (wg2 + DT) * Real.exp (-(wg2 + DT) / taud)
    else
      let p3 := (-wg2 + DT) / wg1
      let p4 := (wg2 + DT) / wg1
      if |taud - wg1| > kEPS then
        1 / (p2 * p2) * taud * (Real.exp (-(-wg2 + DT) / taud) - Real.exp (-(wg2 + DT) / taud)) +
          (1 / (p1 * p1) - 1 / (p2 * p2)) * wg1 * (Real.exp (-p3) - Real.exp (-p4)) +
          (1 / p1 - 1 / p2) * wg1 * wg1 * (Real.exp (-p3) * (p3 + 1) - Real.exp (-p4) * (p4 + 1))
      else
        let p5 := (-wg2 + DT) / taud
        let p6 := (wg2 + DT) / taud
        1 / (p1 * p1) * wg1 * (Real.exp (-p3) - Real.exp (-p4)) +
          1 / p1 * wg1 * wg1 * (Real.exp (-p3) * (p3 + 1) - Real.exp (-p4) * (p4 + 1)) +
          1 / 2 * (taud * taud * taud) * (Real.exp (-p5) * (p5 * p5 + 2 * p5 + 2) - Real.exp (-p6) * (p6 * p6 + 2 * p6 + 2))
  St * fg12

/-! The six functions for the opposite order of the types repeat the text with the components exchanged
and `Dt = t2 - t1` ("note here t2-t1"). -/

/-- `Sll_gam_gau`, src/mc_mmap.c:1880-1943. -/
noncomputable def sllGamGau (taud : ℝ) (a b : Comp) (Dt : ℝ) : ℝ := sllGauGam taud b a (-Dt)

/-- `Sll_gam_exp`, src/mc_mmap.c:1948-2013. -/
noncomputable def sllGamExp (taud : ℝ) (a b : Comp) (Dt : ℝ) : ℝ := sllExpGam taud b a (-Dt)

/-- `Sll_exp_gau`, src/mc_mmap.c:2079-2137. -/
noncomputable def sllExpGau (taud : ℝ) (a b : Comp) (Dt : ℝ) : ℝ := sllGauExp taud b a (-Dt)

/-- `Sll_tophat_gau`, src/mc_mmap.c:2327-2365. -/
noncomputable def sllTopGau (taud : ℝ) (a b : Comp) (Dt : ℝ) : ℝ := sllGauTop taud b a (-Dt)

/-- `Sll_tophat_exp`, src/mc_mmap.c:2439-2509. -/
noncomputable def sllTopExp (taud : ℝ) (a b : Comp) (Dt : ℝ) : ℝ := sllExpTop taud b a (-Dt)

/-- `Sll_tophat_gam`, src/mc_mmap.c:2511-2592. -/
noncomputable def sllTopGam (taud : ℝ) (a b : Comp) (Dt : ℝ) : ℝ := sllGamTop taud b a (-Dt)

/-! ## Function tables and sums over components -/

/-- Types of transfer functions, numbered 0 to 3 in `parset.type_tf` and `parset.str_type_tf_mix`. -/
inductive TF
  | gauss
  | tophat
  | gamma
  | exp
  deriving DecidableEq, Repr

/-- `FP_Slc[type]`, src/mc_mmap.c:878-881; for a single type also the choice of `Slc` in
src/mc_line.c:2345-2404. -/
noncomputable def fpSlc : TF → ℝ → Comp → ℝ → ℝ
  | .gauss => slcGau
  | .tophat => slcTop
  | .gamma => slcGam
  | .exp => slcExp

/-- `FP_Sll[type1*4 + type2]`, src/mc_mmap.c:883-901. -/
noncomputable def fpSll : TF → TF → ℝ → Comp → Comp → ℝ → ℝ
  | .gauss, .gauss => sllGauGau
  | .gauss, .tophat => sllGauTop
  | .gauss, .gamma => sllGauGam
  | .gauss, .exp => sllGauExp
  | .tophat, .gauss => sllTopGau
  | .tophat, .tophat => sllTopTop
  | .tophat, .gamma => sllTopGam
  | .tophat, .exp => sllTopExp
  | .gamma, .gauss => sllGamGau
  | .gamma, .tophat => sllGamTop
  | .gamma, .gamma => sllGamGam
  | .gamma, .exp => sllGamExp
  | .exp, .gauss => sllExpGau
  | .exp, .tophat => sllExpTop
  | .exp, .gamma => sllExpGam
  | .exp, .exp => sllExpExp

/-- What the covariance functions read besides the times: number of components, linear amplitudes or not,
type of each component, parameters and their indices. -/
structure KEnv where
  ng : ℕ
  lin : Bool
  typ : ℕ → TF
  pm : ℕ → ℝ
  idxc : ℕ
  idxl : ℕ → ℕ

/-- `taud = exp(pm[idx_con_pm[nds]+2])`. -/
noncomputable def KEnv.taud (e : KEnv) : ℝ := Real.exp (e.pm (e.idxc + 2))

/-- Component `k` of line `j`. -/
noncomputable def KEnv.comp (e : KEnv) (j k : ℕ) : Comp := compAt e.lin e.pm (e.idxl j) k

/-- `Slc(tcon, tline, model, nds, nls)`: the sum over components, src/mc_mmap.c:1391-1404 and the loops over
`k` of src/mc_line.c (e.g. 3315-3345). -/
noncomputable def KEnv.slc (e : KEnv) (tcon tline : ℝ) (j : ℕ) : ℝ :=
  (List.range e.ng).foldl (fun s k => s + fpSlc (e.typ k) e.taud (e.comp j k) (tline - tcon)) 0

/-- `Sll2(t1, t2, model, nds, nls1, nls2)`: the double sum over components, src/mc_mmap.c:2685-2702 and the
loops over `k1`, `k2` of src/mc_line.c (e.g. 3084-3110). -/
noncomputable def KEnv.sll2 (e : KEnv) (t1 t2 : ℝ) (j l : ℕ) : ℝ :=
  (List.range e.ng).foldl (fun s k1 => (List.range e.ng).foldl
    (fun s k2 => s + fpSll (e.typ k1) (e.typ k2) e.taud (e.comp j k1) (e.comp l k2) (t1 - t2)) s) 0

/-- `Sll(t1, t2, model, nds, nls)`, src/mc_mmap.c:1600-1619 and the loops of src/mc_line.c (e.g. 2826-2865):
the same double sum with both indices on one line. -/
noncomputable def KEnv.sll (e : KEnv) (t1 t2 : ℝ) (j : ℕ) : ℝ :=
  (List.range e.ng).foldl (fun s k1 => (List.range e.ng).foldl
    (fun s k2 => s + fpSll (e.typ k1) (e.typ k2) e.taud (e.comp j k1) (e.comp j k2) (t1 - t2)) s) 0

/-- The covariance functions as the assembly of the matrix calls them. -/
noncomputable def KEnv.kernels (e : KEnv) : Kernels := ⟨e.slc, e.sll, e.sll2⟩

end Mica
