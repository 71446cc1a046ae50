import Verif.Model.Kernel
import Verif.Model.Res
/-
The array versions of the covariance functions (src/mc_line.c and src/mc_mmap.c) and the assembly of the
covariance matrix that calls them, with their scratch arrays as explicit memory of a given size.

Simplification common to all: a double is a real number, and `gsl_sf_log_erfc`, `erfc` are their
mathematical meaning.  Writing or reading outside a scratch array is undefined behaviour (`Res.ub`).
-/

namespace Mica

/-! ## One component, one pair of times, with the constants taken out of the loops

`a` and `b` are the components of the first and of the second line index of the call. -/

/-- `Slc_array_gauss` (src/mc_line.c:3405-3453), its `_linear` variant (3455-3503) and
`Slc_array_gauss_mmap` (src/mc_mmap.c:2748-2789). -/
noncomputable def aslcGau (taud : ℝ) (a : Comp) (Dt : ℝ) : ℝ :=
  let wt := a.w / taud
  let wt2 := wt * wt / 2
  let DT := Dt - a.c
  let St := Real.exp (-DT / taud + logErfc (-(DT / a.w - wt) / Real.sqrt 2) + wt2) +
    Real.exp (DT / taud + logErfc ((DT / a.w + wt) / Real.sqrt 2) + wt2)
  St * (1 / 2 * a.f)

open Classical in
/-- `Slc_array_tophat` (src/mc_line.c:3609-3664), `_linear` (3666-3721) and `Slc_array_tophat_mmap`
(src/mc_mmap.c:2891-2939). -/
noncomputable def aslcTop (taud : ℝ) (a : Comp) (Dt : ℝ) : ℝ :=
  let fg := a.f * (taud / 2 / a.w)
  let DT := Dt - a.c
  let St := if DT < -a.w then Real.exp ((DT + a.w) / taud) - Real.exp ((DT - a.w) / taud)
    else if DT < a.w then 2 - Real.exp (-(DT + a.w) / taud) - Real.exp ((DT - a.w) / taud)
    else Real.exp (-(DT - a.w) / taud) - Real.exp (-(DT + a.w) / taud)
  St * fg

open Classical in
/-- `Slc_array_gamma` (src/mc_line.c:4548-4603), `_linear` (4611-4666) and `Slc_array_gamma_mmap`
(src/mc_mmap.c:2791-2839). -/
noncomputable def aslcGam (taud : ℝ) (a : Comp) (Dt : ℝ) : ℝ :=
  let tau1 := a.w
  let tau0 := a.c - 2 * tau1
  let p1 := (taud + tau1) / taud
  let p2 := (taud - tau1) / taud
  let DT := Dt - tau0
  let St := if DT ≤ 0 then Real.exp (DT / taud) / p1 / p1
    else if |p2| < kEPS then
      Real.exp (-DT / taud) * ((DT / taud) * (DT / taud) / 2 + (p1 * DT / taud + 1) / p1 / p1)
    else Real.exp (-DT / taud) / p2 / p2 +
      Real.exp (-DT / tau1) * (-(p2 * DT / tau1 + 1) / p2 / p2 + (p1 * DT / tau1 + 1) / p1 / p1)
  St * a.f

open Classical in
/-- `Slc_array_exp` (src/mc_line.c:5457-5512), `_linear` (5520-5575) and `Slc_array_exp_mmap`
(src/mc_mmap.c:2841-2889). -/
noncomputable def aslcExp (taud : ℝ) (a : Comp) (Dt : ℝ) : ℝ :=
  let tau1 := a.w
  let tau0 := a.c - tau1
  let p1 := (taud + tau1) / taud
  let p2 := (taud - tau1) / taud
  let DT := Dt - tau0
  let St := if DT ≤ 0 then Real.exp (DT / taud) / p1
    else if |p2| < kEPS then Real.exp (-DT / taud) * (DT / taud + 1 / p1)
    else Real.exp (-DT / taud) / p2 + Real.exp (-DT / tau1) * (-1 / p2 + 1 / p1)
  St * a.f

/-- `Sll_array_gauss` (src/mc_line.c:2939-2998), `_linear` (3000-3059), `Sll2_array_gauss` (3171-3231),
`_linear` (3233-3293), `Sll_array_gau_gau` (src/mc_mmap.c:2992-3044), `Sll2_array_gau_gau` (4173-4226). -/
noncomputable def asllGauGau (taud : ℝ) (a b : Comp) (Dt : ℝ) : ℝ :=
  let A := Real.sqrt (a.w * a.w + b.w * b.w)
  let At := A / taud
  let At2 := At * At / 2
  let fg12 := a.f * b.f / 2
  let DT := Dt - (a.c - b.c)
  let St := Real.exp (-DT / taud + logErfc (-(DT / A - At) / Real.sqrt 2) + At2) +
    Real.exp (DT / taud + logErfc ((DT / A + At) / Real.sqrt 2) + At2)
  St * fg12

open Classical in
/-- `Sll_array_tophat` (src/mc_line.c:3895-3985), `_linear` (3987-4077), `Sll2_array_tophat` (4253-4344),
`_linear` (4346-4437), `Sll_array_tophat_tophat` (src/mc_mmap.c:3633-3716) and `Sll2_array_tophat_tophat`
(4817-4901). -/
noncomputable def asllTopTop (taud : ℝ) (a b : Comp) (Dt : ℝ) : ℝ :=
  let fg12 := a.f / a.w * b.f / b.w / 4 * taud * taud
  let wh := if a.w ≥ b.w then a.w else b.w
  let wl := if a.w ≥ b.w then b.w else a.w
  let DT := Dt - (a.c - b.c)
  let St :=
    if DT < -wh - wl then
      Real.exp ((DT + wh + wl) / taud) + Real.exp ((DT - wh - wl) / taud) -
        Real.exp ((DT + wh - wl) / taud) - Real.exp ((DT - wh + wl) / taud)
    else if DT < -wh + wl then
      Real.exp ((DT - wh - wl) / taud) + Real.exp (-(DT + wh + wl) / taud) -
        Real.exp ((DT + wh - wl) / taud) - Real.exp ((DT - wh + wl) / taud) + 2 * (DT + wh + wl) / taud
    else if DT < wh - wl then
      Real.exp ((DT - wh - wl) / taud) + Real.exp (-(DT + wh + wl) / taud) -
        Real.exp ((DT - wh + wl) / taud) - Real.exp (-(DT + wh - wl) / taud) + 4 * wl / taud
    else if DT < wh + wl then
      Real.exp (-(DT + wh + wl) / taud) + Real.exp ((DT - wh - wl) / taud) -
        Real.exp (-(DT - wh + wl) / taud) - Real.exp (-(DT + wh - wl) / taud) - 2 * (DT - wh - wl) / taud
    else
      Real.exp (-(DT - wh - wl) / taud) + Real.exp (-(DT + wh + wl) / taud) -
        Real.exp (-(DT - wh + wl) / taud) - Real.exp (-(DT + wh - wl) / taud)
  St * fg12

open Classical in
/-- `Sll_array_gamma` (src/mc_line.c:4831-4913), `_linear` (4922-5004), `Sll2_array_gamma` (5171-5254),
`_linear` (5263-5346), `Sll_array_gam_gam` (src/mc_mmap.c:3046-3121) and `Sll2_array_gam_gam` (4376-4452). -/
noncomputable def asllGamGam (taud : ℝ) (a b : Comp) (Dt : ℝ) : ℝ :=
  let tau1 := a.w
  let tau01 := a.c - 2 * tau1
  let p1 := (taud - tau1) / taud
  let p2 := (taud + tau1) / taud
  let tau2 := b.w
  let tau02 := b.c - 2 * tau2
  let fg12 := a.f * b.f
  let p3 := (taud + tau2) / taud
  let p4 := (taud - tau2) / taud
  let p51 := (tau1 + tau2) / tau1
  let p52 := (tau1 + tau2) / tau2
  let DT := Dt - (tau01 - tau02)
  let St :=
    if DT ≤ 0 then
      if |p4| < kEPS then
        let tmp := p2 * DT / tau1
        Real.exp (DT / taud) * ((tau1 / tau2) * (tau1 / tau2) / (p2 * p2 * p2 * p2) * (3 - 2 * tmp + tmp * tmp / 2) +
          (1 - p3 * DT / tau2 + 2 * p3 / p51) / (p3 * p3 * p52 * p52))
      else
        Real.exp (DT / taud) / (p2 * p2 * p4 * p4) +
          Real.exp (DT / tau2) / (p4 * p4 * p52 * p52) *
            (-(1 - p4 * DT / tau2 + 2 * p4 / p51) + (1 - p3 * DT / tau2 + 2 * p3 / p51) * (p4 * p4) / (p3 * p3))
    else
      if |p1| < kEPS then
        let tmp := p3 * DT / tau2
        Real.exp (-DT / taud) * ((tau2 / tau1) * (tau2 / tau1) / (p3 * p3 * p3 * p3) * (3 + 2 * tmp + tmp * tmp / 2) +
          (1 + p2 * DT / tau1 + 2 * p2 / p52) / (p2 * p2 * p51 * p51))
      else
        Real.exp (-DT / taud) / (p1 * p1 * p3 * p3) +
          Real.exp (-DT / tau1) / (p1 * p1 * p51 * p51) *
            (-(1 + p1 * DT / tau1 + 2 * p1 / p52) + (1 + p2 * DT / tau1 + 2 * p2 / p52) * (p1 * p1) / (p2 * p2))
  St * fg12

open Classical in
/-- `Sll_array_exp` (src/mc_line.c:5724-5798), `_linear` (5807-5881), `Sll2_array_exp` (6032-6107),
`_linear` (6116-6191), `Sll_array_exp_exp` (src/mc_mmap.c:3123-3190) and `Sll2_array_exp_exp` (4604-4672). -/
noncomputable def asllExpExp (taud : ℝ) (a b : Comp) (Dt : ℝ) : ℝ :=
  let tau1 := a.w
  let tau01 := a.c - tau1
  let p1 := (taud - tau1) / taud
  let p2 := (taud + tau1) / taud
  let tau2 := b.w
  let tau02 := b.c - tau2
  let fg12 := a.f * b.f
  let p3 := (taud + tau2) / taud
  let p4 := (taud - tau2) / taud
  let p51 := (tau1 + tau2) / tau1
  let p52 := (tau1 + tau2) / tau2
  let DT := Dt - (tau01 - tau02)
  let St :=
    if DT ≤ 0 then
      if |p4| < kEPS then
        Real.exp (DT / taud) * (-DT / tau2 / p2 + tau1 / tau2 * 1 / p2 / p2 + 1 / (p3 * p52))
      else
        Real.exp (DT / taud) / (p2 * p4) + Real.exp (DT / tau2) / (p4 * p52) * (-1 + p4 / p3)
    else
      if |p1| < kEPS then
        Real.exp (-DT / taud) * (DT / tau1 / p3 + tau2 / tau1 * 1 / p3 / p3 + 1 / (p2 * p51))
      else
        Real.exp (-DT / taud) / (p1 * p3) + Real.exp (-DT / tau1) / (p1 * p51) * (-1 + p1 / p2)
  St * fg12

open Classical in
/-- `Sll_array_gau_exp` (src/mc_mmap.c:3192-3260) and `Sll2_array_gau_exp` (4305-4374): here the test on `taud-wid2` is
outside the loops. -/
noncomputable def asllGauExp (taud : ℝ) (a b : Comp) : ℝ → ℝ :=
  let wid1 := a.w
  let wid2 := b.w
  let tau2 := b.c - wid2
  let fg12 := a.f * b.f / 2
  if |taud - wid2| > kEPS then
    let C1 := taud / (taud + wid2)
    let C2 := taud / (taud - wid2)
    fun Dt =>
      let DT := Dt - (a.c - tau2)
      let St := C1 * Real.exp (-DT / taud + wid1 * wid1 / (taud * taud) / 2 +
          logErfc (-1 / Real.sqrt 2 * (DT / wid1 - wid1 / taud))) +
        C2 * Real.exp (DT / taud + wid1 * wid1 / (taud * taud) / 2 +
          logErfc (1 / Real.sqrt 2 * (DT / wid1 + wid1 / taud))) +
        (C1 - C2) * Real.exp (DT / wid2 + wid1 * wid1 / (wid2 * wid2) / 2 +
          logErfc (1 / Real.sqrt 2 * (DT / wid1 + wid1 / wid2)))
      St * fg12
  else
    let C1 := taud / (taud + wid2)
    fun Dt =>
      let DT := Dt - (a.c - tau2)
      let fac := DT / wid1 + wid1 / taud
      let St := C1 * Real.exp (-DT / taud + wid1 * wid1 / (taud * taud) / 2 +
          logErfc (-1 / Real.sqrt 2 * (DT / wid1 - wid1 / taud))) +
        C1 * Real.exp (DT / taud + wid1 * wid1 / (taud * taud) / 2 + logErfc (1 / Real.sqrt 2 * fac)) +
        wid1 / wid2 * (Real.exp (-DT * DT / (wid1 * wid1) / 2) / Real.sqrt (Real.pi / 2) -
          fac * Real.exp (DT / taud + wid1 * wid1 / (taud * taud) / 2 + logErfc (1 / Real.sqrt 2 * fac)))
      St * fg12

open Classical in
/-- `Sll_array_gau_gam` (src/mc_mmap.c:3339-3413) and `Sll2_array_gau_gam` (4228-4303). -/
noncomputable def asllGauGam (taud : ℝ) (a b : Comp) : ℝ → ℝ :=
  let wid1 := a.w
  let wid2 := b.w
  let tau2 := b.c - 2 * wid2
  let fg12 := a.f * b.f / 2
  if |taud - wid2| > kEPS then
    let C1 := taud / (taud + wid2)
    let C2 := taud / (taud - wid2)
    fun Dt =>
      let DT := Dt - (a.c - tau2)
      let fac := DT / wid1 + wid1 / wid2
      let St := C1 * C1 * Real.exp (-DT / taud + wid1 * wid1 / (taud * taud) / 2 +
          logErfc (-1 / Real.sqrt 2 * (DT / wid1 - wid1 / taud))) +
        C2 * C2 * Real.exp (DT / taud + wid1 * wid1 / (taud * taud) / 2 +
          logErfc (1 / Real.sqrt 2 * (DT / wid1 + wid1 / taud))) +
        (C1 * C1 - C2 * C2) * Real.exp (DT / wid2 + wid1 * wid1 / (wid2 * wid2) / 2 +
          logErfc (1 / Real.sqrt 2 * (DT / wid1 + wid1 / wid2))) +
        (C1 - C2) * wid1 / wid2 * (Real.exp (-DT * DT / (wid1 * wid1) / 2) / Real.sqrt (Real.pi / 2) -
          fac * Real.exp (DT / wid2 + wid1 * wid1 / (wid2 * wid2) / 2 + logErfc (fac / Real.sqrt 2)))
      St * fg12
  else
    let C1 := taud / (taud + wid2)
    fun Dt =>
      let DT := Dt - (a.c - tau2)
      let fac := DT / wid1 + wid1 / taud
      let St := C1 * C1 * Real.exp (-DT / taud + wid1 * wid1 / (taud * taud) / 2 +
          logErfc (-1 / Real.sqrt 2 * (DT / wid1 - wid1 / taud))) +
        C1 * C1 * Real.exp (DT / taud + wid1 * wid1 / (taud * taud) / 2 + logErfc (fac / Real.sqrt 2)) +
        C1 * wid1 / wid2 * (Real.exp (-DT * DT / (wid1 * wid1) / 2) / Real.sqrt (Real.pi / 2) -
          fac * Real.exp (DT / wid2 + wid1 * wid1 / (wid2 * wid2) / 2 + logErfc (fac / Real.sqrt 2))) +
        wid1 * wid1 / (wid2 * wid2) / 2 *
          ((1 + fac * fac) * Real.exp (DT / taud + wid1 * wid1 / (taud * taud) / 2 + logErfc (fac / Real.sqrt 2)) -
            fac * Real.exp (-DT * DT / (wid1 * wid1) / 2) / Real.sqrt (Real.pi / 2))
      St * fg12

/-- `Sll_array_gau_tophat` (src/mc_mmap.c:3718-3761) and `Sll2_array_gau_tophat` (4903-4947). -/
noncomputable def asllGauTop (taud : ℝ) (a b : Comp) (Dt : ℝ) : ℝ :=
  let wg1 := a.w
  let wg2 := b.w
  let fg12 := a.f * b.f * taud / wg2 / 4
  let DT := Dt - (a.c - b.c)
  let St := 2 * (erfc ((-wg2 + DT) / wg1 / Real.sqrt 2) - erfc ((wg2 + DT) / wg1 / Real.sqrt 2)) +
    Real.exp (wg2 / taud - DT / taud + wg1 * wg1 / taud / taud / 2 +
      logErfc (((wg2 - DT) / wg1 + wg1 / taud) / Real.sqrt 2)) +
    Real.exp (wg2 / taud + DT / taud + wg1 * wg1 / taud / taud / 2 +
      logErfc (((wg2 + DT) / wg1 + wg1 / taud) / Real.sqrt 2)) -
    Real.exp (-wg2 / taud + DT / taud + wg1 * wg1 / taud / taud / 2 +
      logErfc (((-wg2 + DT) / wg1 + wg1 / taud) / Real.sqrt 2)) -
    Real.exp (-wg2 / taud - DT / taud + wg1 * wg1 / taud / taud / 2 +
      logErfc (((-wg2 - DT) / wg1 + wg1 / taud) / Real.sqrt 2))
  St * fg12

open Classical in
/-- `Sll_array_exp_gam` (src/mc_mmap.c:3491-3560, `two = false`) and `Sll2_array_exp_gam` (4745-4815, `two = true`): the
branch for equal times is written differently in the two. -/
noncomputable def asllExpGam (two : Bool) (taud : ℝ) (a b : Comp) (Dt : ℝ) : ℝ :=
  let wid1 := a.w
  let tau1 := a.c - wid1
  let wid2 := b.w
  let tau2 := b.c - 2 * wid2
  let fg12 := a.f * b.f / (wid1 * wid2 * wid2)
  let p1 := (taud - wid1) / taud / wid1
  let p2 := (taud + wid1) / taud / wid1
  let p3 := (taud + wid2) / taud / wid2
  let p4 := (taud - wid2) / taud / wid2
  let p5 := (wid1 + wid2) / wid1 / wid2
  let DT := Dt - (tau1 - tau2)
  let St :=
    if DT ≥ 0 then
      if |taud - wid1| > kEPS then
        1 / (p1 * p3 * p3) * Real.exp (-DT / taud) + (1 / p2 - 1 / p1) / (p5 * p5) * Real.exp (-DT / wid1)
      else if two then
        1 / (p3 * p3 * p3) * (2 + DT * p3) * Real.exp (-DT / taud) + 1 / (p2 * p5 * p5) * Real.exp (-DT / wid1)
      else
        (2 / (p3 * p3 * p3) + DT / (p3 * p3)) * Real.exp (-DT / taud) + 1 / (p2 * p5 * p5) * Real.exp (-DT / wid1)
    else
      if |taud - wid2| > kEPS then
        1 / (p2 * p4 * p4) * Real.exp (DT / taud) +
          ((1 / p3 - 1 / p4) * (1 / p5 / p5 - DT / p5) + (1 / p3 / p3 - 1 / p4 / p4) / p5) * Real.exp (DT / wid2)
      else
        (1 / (p2 * p2 * p2) - DT / (p2 * p2) + DT * DT / (2 * p2)) * Real.exp (DT / taud) +
          (1 / (p5 * p3 * p3) + (1 / p5 / p5 - DT / p5) / p3) * Real.exp (DT / wid2)
  St * fg12

open Classical in
/-- `Sll_array_exp_tophat` (src/mc_mmap.c:3882-3955) and `Sll2_array_exp_tophat` (4995-5068). -/
noncomputable def asllExpTop (taud : ℝ) (a b : Comp) (Dt : ℝ) : ℝ :=
  let wg1 := a.w
  let tau1 := a.c - wg1
  let wg2 := b.w
  let fg12 := a.f * b.f / wg1 / wg2 / 2
  let p1 := (taud + wg1) / taud / wg1
  let p2 := (taud - wg1) / taud / wg1
  let diff := taud - wg1
  let DT := Dt - (tau1 - b.c)
  let St :=
    if DT ≤ -wg2 then 1 / p1 * taud * Real.exp (DT / taud) * (Real.exp (wg2 / taud) - Real.exp (-wg2 / taud))
    else if DT ≤ wg2 then
      if |diff| > kEPS then
        2 * taud * wg1 * (1 - Real.exp (-(wg2 + DT) / wg1)) + (1 / p1 + 1 / p2) * taud * Real.exp (-(wg2 + DT) / wg1) -
          1 / p1 * taud * Real.exp (DT / taud - wg2 / taud) - 1 / p2 * taud * Real.exp (-DT / taud - wg2 / taud)
      else
        2 * taud * wg1 * (1 - Real.exp (-(wg2 + DT) / wg1)) + 1 / p1 * taud * Real.exp (-(wg2 + DT) / wg1) -
          1 / p1 * taud * Real.exp (DT / taud - wg2 / taud) - taud * (wg2 + DT) * Real.exp (-(wg2 + DT) / taud)
    else
      if |diff| > kEPS then
        1 / p2 * taud * (Real.exp (-(-wg2 + DT) / taud) - Real.exp (-(wg2 + DT) / taud)) +
          (1 / p1 - 1 / p2) * wg1 * (Real.exp (-(-wg2 + DT) / wg1) - Real.exp (-(wg2 + DT) / wg1))
      else
        1 / p1 * wg1 * (Real.exp (-(-wg2 + DT) / wg1) - Real.exp (-(wg2 + DT) / wg1)) +
          taud * Real.exp (-(-wg2 + DT) / taud) * (taud - wg2 + DT) -
          taud * Real.exp (-(wg2 + DT) / taud) * (taud + wg2 + DT)
  St * fg12

open Classical in
/-- `Sll_array_gam_tophat` (src/mc_mmap.c:4043-4127) and `Sll2_array_gam_tophat` (5232-5317). -/
noncomputable def asllGamTop (taud : ℝ) (a b : Comp) (Dt : ℝ) : ℝ :=
  let wg1 := a.w
  let tau1 := a.c - 2 * wg1
  let wg2 := b.w
  let fg12 := a.f * b.f / (wg1 * wg1) / wg2 / 2
  let p1 := (taud + wg1) / taud / wg1
  let p2 := (taud - wg1) / taud / wg1
  let diff := taud - wg1
  let DT := Dt - (tau1 - b.c)
  let St :=
    if DT ≤ -wg2 then 1 / (p1 * p1) * taud * Real.exp (DT / taud) * (Real.exp (wg2 / taud) - Real.exp (-wg2 / taud))
    else if DT ≤ wg2 then
      if |diff| > kEPS then
        2 * taud * wg1 * wg1 * (1 - Real.exp (-(wg2 + DT) / wg1) * ((wg2 + DT) / wg1 + 1)) +
          1 / (p1 * p1) * taud * Real.exp (-(wg2 + DT) / wg1) * (p1 * (wg2 + DT) + 1) +
          1 / (p2 * p2) * taud * Real.exp (-(wg2 + DT) / wg1) * (p2 * (wg2 + DT) + 1) -
          1 / (p1 * p1) * taud * Real.exp (-(wg2 - DT) / taud) - 1 / (p2 * p2) * taud * Real.exp (-(wg2 + DT) / taud)
      else
        2 * taud * wg1 * wg1 * (1 - Real.exp (-(wg2 + DT) / wg1) * ((wg2 + DT) / wg1 + 1)) +
          1 / (p1 * p1) * taud * Real.exp (-(wg2 + DT) / wg1) * (p1 * (wg2 + DT) + 1) -
          1 / (p1 * p1) * taud * Real.exp (-(wg2 - DT) / taud) -
          1 / 2 * taud * (wg2 + DT) * (wg2 + DT) * Real.exp (-(wg2 + DT) / taud)
    else
      let p3 := (-wg2 + DT) / wg1
      let p4 := (wg2 + DT) / wg1
      if |diff| > kEPS then
        1 / (p2 * p2) * taud * (Real.exp (-(-wg2 + DT) / taud) - Real.exp (-(wg2 + DT) / taud)) +
          (1 / (p1 * p1) - 1 / (p2 * p2)) * wg1 * (Real.exp (-p3) - Real.exp (-p4)) +
          (1 / p1 - 1 / p2) * wg1 * wg1 * (Real.exp (-p3) * (p3 + 1) - Real.exp (-p4) * (p4 + 1))
      else
        let p5 := (-wg2 + DT) / taud
        let p6 := (wg2 + DT) / taud
        1 / (p1 * p1) * wg1 * (Real.exp (-p3) - Real.exp (-p4)) +
          1 / p1 * wg1 * wg1 * (Real.exp (-p3) * (p3 + 1) - Real.exp (-p4) * (p4 + 1)) +
          1 / 2 * (taud * taud * taud) * (Real.exp (-p5) * (p5 * p5 + 2 * p5 + 2) - Real.exp (-p6) * (p6 * p6 + 2 * p6 + 2))
  St * fg12

/-- `FP_Slc_array[type]`, src/mc_mmap.c:904-907, and the choice of `Slc_array` in src/init.c:136-273. -/
noncomputable def fpSlcArray : TF → ℝ → Comp → ℝ → ℝ
  | .gauss => aslcGau
  | .tophat => aslcTop
  | .gamma => aslcGam
  | .exp => aslcExp

/-- The tables `FP_Sll_array` (src/mc_mmap.c:910-928, `two = false`) and `FP_Sll2_array` (931-949,
`two = true`): value for the times `t1`, `t2`.  For the six orders "Gaussian second", "exponential before
gamma exchanged" and so on the code reads the components exchanged and takes `Dt = tline[j] - tline[i]`
(e.g. src/mc_mmap.c:3262-3330, 3415-3489, 3562-3631, 3763-3806, 3808-3880, 3957-4041; for the second table 4454-4529,
4532-4602, 4674-4743, 4949-4993, 5070-5143, 5145-5230) or
`-(tline1[i] - tline2[j])`, the same number.  The choice of `Sll_array`, `Sll2_array` of a single type
(src/init.c:136-273) is the diagonal. -/
noncomputable def fpSllArray (two : Bool) (taud : ℝ) (a b : Comp) (t1 t2 : ℝ) : TF → TF → ℝ
  | .gauss, .gauss => asllGauGau taud a b (t1 - t2)
  | .gauss, .tophat => asllGauTop taud a b (t1 - t2)
  | .gauss, .gamma => asllGauGam taud a b (t1 - t2)
  | .gauss, .exp => asllGauExp taud a b (t1 - t2)
  | .tophat, .gauss => asllGauTop taud b a (t2 - t1)
  | .tophat, .tophat => asllTopTop taud a b (t1 - t2)
  | .tophat, .gamma => asllGamTop taud b a (t2 - t1)
  | .tophat, .exp => asllExpTop taud b a (t2 - t1)
  | .gamma, .gauss => asllGauGam taud b a (t2 - t1)
  | .gamma, .tophat => asllGamTop taud a b (t1 - t2)
  | .gamma, .gamma => asllGamGam taud a b (t1 - t2)
  | .gamma, .exp => asllExpGam two taud b a (t2 - t1)
  | .exp, .gauss => asllGauExp taud b a (t2 - t1)
  | .exp, .tophat => asllExpTop taud a b (t1 - t2)
  | .exp, .gamma => asllExpGam two taud a b (t1 - t2)
  | .exp, .exp => asllExpExp taud a b (t1 - t2)

/-! ## The loops over the arrays -/

/-- `mem[x] = g(mem[x])` in an array of `size` elements. -/
noncomputable def touch (size x : ℕ) (g : ℝ → ℝ) (mem : ℕ → ℝ) : Res (ℕ → ℝ) :=
  if x < size then .ok (Function.update mem x (g (mem x))) else .ub

/-- `for(j=0; j<c; j++) mem[row + j] = g j mem[row + j]`. -/
noncomputable def sweepRow (size row : ℕ) (g : ℕ → ℝ → ℝ) : ℕ → (ℕ → ℝ) → Res (ℕ → ℝ)
  | 0, mem => .ok mem
  | c + 1, mem => sweepRow size row g c mem >>= touch size (row + c) (g c)

/-- `for(i=0; i<n; i++) for(j=0; j<cols(i); j++) mem[i*stride + j] = g i j mem[i*stride + j]`. -/
noncomputable def sweep (size stride : ℕ) (cols : ℕ → ℕ) (g : ℕ → ℕ → ℝ → ℝ) : ℕ → (ℕ → ℝ) → Res (ℕ → ℝ)
  | 0, mem => .ok mem
  | n + 1, mem => sweep size stride cols g n mem >>= sweepRow size (n * stride) (g n) (cols n)

/-- Columns `j <= i`, the loops of the `Sll_array` functions. -/
def upTo (i : ℕ) : ℕ := i + 1

/-- Sizes of the scratch arrays. -/
structure ScratchSize where
  lc : ℕ
  ll : ℕ

/-- The scratch arrays `Smat_lc`, `Smat_ll`, `Smat_lc_buf`, `Smat_ll_buf` (src/mc_line.c:2371-2372,
src/mc_mmap.c:842-846), and the matrix that is being assembled. -/
structure Scratch where
  lc : ℕ → ℝ
  ll : ℕ → ℝ
  lcBuf : ℕ → ℝ
  llBuf : ℕ → ℝ
  pc : ℕ → ℝ

variable (e : KEnv) (sz : ScratchSize)

/-- The loop over the components `k` of `Slc_array_<type>`: each adds to the array, e.g.
src/mc_line.c:3425-3449. -/
noncomputable def slcComps (tc : ℕ → ℝ) (nc : ℕ) (tl : ℕ → ℝ) (nl j : ℕ) : ℕ → (ℕ → ℝ) → Res (ℕ → ℝ)
  | 0, mem => .ok mem
  | k + 1, mem => slcComps tc nc tl nl j k mem >>=
      sweep sz.lc nl (fun _ => nl)
        (fun i m old => old + fpSlcArray (e.typ k) e.taud (e.comp j k) (tl m - tc i)) nc

/-- `Slc_array(tcon, ncon, tline, nline, model, nds, nls, Smat_lc)` of a run with one type: zero fill, then
the components, e.g. src/mc_line.c:3405-3453. -/
noncomputable def slcArray (tc : ℕ → ℝ) (nc : ℕ) (tl : ℕ → ℝ) (nl j : ℕ) (w : Scratch) : Res Scratch :=
  sweep sz.lc nl (fun _ => nl) (fun _ _ _ => 0) nc w.lc >>= fun m0 =>
  slcComps e sz tc nc tl nl j e.ng m0 >>= fun m => .ok { w with lc := m }

/-- The loops over `k1`, `k2` of `Sll_array_<type>`: `k2` inner, e.g. src/mc_line.c:2962-2994. -/
noncomputable def sllComps2 (two : Bool) (n : ℕ) (stride : ℕ) (cols : ℕ → ℕ) (t1 t2 : ℕ → ℝ) (j l k1 : ℕ) :
    ℕ → (ℕ → ℝ) → Res (ℕ → ℝ)
  | 0, mem => .ok mem
  | k2 + 1, mem => sllComps2 two n stride cols t1 t2 j l k1 k2 mem >>=
      sweep sz.ll stride cols
        (fun i m old => old +
          fpSllArray two e.taud (e.comp j k1) (e.comp l k2) (t1 i) (t2 m) (e.typ k1) (e.typ k2)) n

/-- The outer loop over `k1`. -/
noncomputable def sllComps (two : Bool) (n : ℕ) (stride : ℕ) (cols : ℕ → ℕ) (t1 t2 : ℕ → ℝ) (j l : ℕ) :
    ℕ → (ℕ → ℝ) → Res (ℕ → ℝ)
  | 0, mem => .ok mem
  | k1 + 1, mem => sllComps two n stride cols t1 t2 j l k1 mem >>=
      sllComps2 e sz two n stride cols t1 t2 j l k1 e.ng

/-- `Sll_array(tline, nline, model, nds, nls, Smat_ll)` of a run with one type: only `j <= i` is filled,
e.g. src/mc_line.c:2939-2998. -/
noncomputable def sllArray (tl : ℕ → ℝ) (nl j : ℕ) (w : Scratch) : Res Scratch :=
  sweep sz.ll nl upTo (fun _ _ _ => 0) nl w.ll >>= fun m0 =>
  sllComps e sz false nl nl upTo tl tl j j e.ng m0 >>= fun m => .ok { w with ll := m }

/-- `Sll2_array(tline1, nline1, tline2, nline2, model, nds, nls1, nls2, Smat_ll)` of a run with one type, e.g.
src/mc_line.c:3171-3231. -/
noncomputable def sll2Array (t1 : ℕ → ℝ) (n1 : ℕ) (t2 : ℕ → ℝ) (n2 j l : ℕ) (w : Scratch) : Res Scratch :=
  sweep sz.ll n2 (fun _ => n2) (fun _ _ _ => 0) n1 w.ll >>= fun m0 =>
  sllComps e sz true n1 n2 (fun _ => n2) t1 t2 j l e.ng m0 >>= fun m => .ok { w with ll := m }

/-- The same three for mixed types go through a second array, `Smat_lc_buf` or `Smat_ll_buf`: the function of
the table assigns, the caller adds.  Here the loop over `k` of `Slc_array_mmap`, src/mc_mmap.c:2726-2735; the
addition runs over `i < ncon*nline` in one loop. -/
noncomputable def slcMixComps (tc : ℕ → ℝ) (nc : ℕ) (tl : ℕ → ℝ) (nl j : ℕ) : ℕ → Scratch → Res Scratch
  | 0, w => .ok w
  | k + 1, w => slcMixComps tc nc tl nl j k w >>= fun w =>
      sweep sz.lc nl (fun _ => nl)
        (fun i m _ => fpSlcArray (e.typ k) e.taud (e.comp j k) (tl m - tc i)) nc w.lcBuf >>= fun b =>
      sweep sz.lc 1 (fun _ => 1) (fun i _ old => old + b i) (nc * nl) w.lc >>= fun m =>
      .ok { w with lc := m, lcBuf := b }

/-- `Slc_array_mmap`, src/mc_mmap.c:2712-2738. -/
noncomputable def slcArrayMix (tc : ℕ → ℝ) (nc : ℕ) (tl : ℕ → ℝ) (nl j : ℕ) (w : Scratch) : Res Scratch :=
  sweep sz.lc nl (fun _ => nl) (fun _ _ _ => 0) nc w.lc >>= fun m0 =>
  slcMixComps e sz tc nc tl nl j e.ng { w with lc := m0 }

/-- The loop over `k2` of `Sll_array_mmap` and `Sll2_array_mmap`, src/mc_mmap.c:2966-2980 and 4154-4169. -/
noncomputable def sllMixComps2 (two : Bool) (n stride : ℕ) (cols : ℕ → ℕ) (t1 t2 : ℕ → ℝ) (j l k1 : ℕ) :
    ℕ → Scratch → Res Scratch
  | 0, w => .ok w
  | k2 + 1, w => sllMixComps2 two n stride cols t1 t2 j l k1 k2 w >>= fun w =>
      sweep sz.ll stride cols
        (fun i m _ => fpSllArray two e.taud (e.comp j k1) (e.comp l k2) (t1 i) (t2 m) (e.typ k1) (e.typ k2))
        n w.llBuf >>= fun b =>
      sweep sz.ll stride cols (fun i m old => old + b (i * stride + m)) n w.ll >>= fun m =>
      .ok { w with ll := m, llBuf := b }

/-- The loop over `k1`, src/mc_mmap.c:2962-2981 and 4150-4170. -/
noncomputable def sllMixComps (two : Bool) (n stride : ℕ) (cols : ℕ → ℕ) (t1 t2 : ℕ → ℝ) (j l : ℕ) :
    ℕ → Scratch → Res Scratch
  | 0, w => .ok w
  | k1 + 1, w => sllMixComps two n stride cols t1 t2 j l k1 w >>=
      sllMixComps2 e sz two n stride cols t1 t2 j l k1 e.ng

/-- `Sll_array_mmap`, src/mc_mmap.c:2949-2983. -/
noncomputable def sllArrayMix (tl : ℕ → ℝ) (nl j : ℕ) (w : Scratch) : Res Scratch :=
  sweep sz.ll nl upTo (fun _ _ _ => 0) nl w.ll >>= fun m0 =>
  sllMixComps e sz false nl nl upTo tl tl j j e.ng { w with ll := m0 }

/-- `Sll2_array_mmap`, src/mc_mmap.c:4137-4171. -/
noncomputable def sll2ArrayMix (t1 : ℕ → ℝ) (n1 : ℕ) (t2 : ℕ → ℝ) (n2 j l : ℕ) (w : Scratch) : Res Scratch :=
  sweep sz.ll n2 (fun _ => n2) (fun _ _ _ => 0) n1 w.ll >>= fun m0 =>
  sllMixComps e sz true n1 n2 (fun _ => n2) t1 t2 j l e.ng { w with ll := m0 }

/-! ## Assembly of the matrix -/

/-- Writes to `PCmat`. -/
def Scratch.write (w : Scratch) (ws : List (ℕ × ℝ)) : Scratch := { w with pc := runWrites ws w.pc }

/-- Which set of array functions is used: `mix` in a run with mixed types. -/
noncomputable def anySlc (mix : Bool) (tc : ℕ → ℝ) (nc : ℕ) (tl : ℕ → ℝ) (nl j : ℕ) (w : Scratch) :
    Res Scratch := if mix then slcArrayMix e sz tc nc tl nl j w else slcArray e sz tc nc tl nl j w

/-- As `anySlc`. -/
noncomputable def anySll (mix : Bool) (tl : ℕ → ℝ) (nl j : ℕ) (w : Scratch) : Res Scratch :=
  if mix then sllArrayMix e sz tl nl j w else sllArray e sz tl nl j w

/-- As `anySlc`. -/
noncomputable def anySll2 (mix : Bool) (t1 : ℕ → ℝ) (n1 : ℕ) (t2 : ℕ → ℝ) (n2 j l : ℕ) (w : Scratch) :
    Res Scratch := if mix then sll2ArrayMix e sz t1 n1 t2 n2 j l w else sll2Array e sz t1 n1 t2 n2 j l w

/-- Continuum with lines, src/mc_line.c:2563-2580 and src/mc_mmap.c:1146-1165. -/
noncomputable def fillLc (mix : Bool) (nall : ℕ) (con : LC) : List LC → ℕ → ℕ → Scratch → Res Scratch
  | [], _, _, w => .ok w
  | a :: l, j, np, w =>
    anySlc e sz mix con.t con.n a.t a.n j w >>= fun w =>
    fillLc mix nall con l (j + 1) (np + a.n) (w.write
      ((List.range con.n).flatMap fun i => (List.range a.n).flatMap fun m =>
        both nall i (np + m) (w.lc (i * a.n + m))))

/-- Line `j` with the later lines, src/mc_line.c:2608-2624, src/mc_mmap.c:1192-1208 and
src/mc_vmap.c:584-600. -/
noncomputable def fillRow (mix : Bool) (nall np : ℕ) (a : LC) (j : ℕ) :
    List LC → ℕ → ℕ → Scratch → Res Scratch
  | [], _, _, w => .ok w
  | b :: l, k, npline, w =>
    anySll2 e sz mix a.t a.n b.t b.n j k w >>= fun w =>
    fillRow mix nall np a j l (k + 1) (npline + b.n) (w.write
      ((List.range a.n).flatMap fun i => (List.range b.n).flatMap fun m =>
        both nall (np + i) (npline + m) (w.ll (i * b.n + m))))

/-- Lines with lines, src/mc_line.c:2582-2627, src/mc_mmap.c:1167-1210 and src/mc_vmap.c:558-603. -/
noncomputable def fillLl (mix : Bool) (sigma : ℝ) (nall : ℕ) : List LC → ℕ → ℕ → Scratch → Res Scratch
  | [], _, _, w => .ok w
  | a :: l, j, np, w =>
    anySll e sz mix a.t a.n j w >>= fun w =>
    fillRow e sz mix nall np a j l (j + 1) (np + a.n) (w.write
      ((List.range a.n).flatMap fun i =>
        ((List.range i).flatMap fun m => both nall (np + i) (np + m) (w.ll (i * a.n + m))) ++
        [((np + i) * nall + (np + i), w.ll (i * a.n + i) +
          (a.fe i * a.fe i + pmSyserr e.pm (e.idxl j) a.em * pmSyserr e.pm (e.idxl j) a.em) / sigma / sigma)])) >>= fun w =>
    fillLl mix sigma nall l (j + 1) (np + a.n) w

/-- `set_covar_Pmat_data_line_array` (src/mc_line.c:2530-2629, `mix = false`) and
`set_covar_Pmat_data_line_array_mmap` (src/mc_mmap.c:1115-1213, `mix = true`).  Writes to `PSmat`, which repeat
those to `PCmat` without the errors and are not read anywhere else, are left out. -/
noncomputable def fillArray (mix : Bool) (d : DSet) (w : Scratch) : Res Scratch :=
  fillLc e sz mix d.nall d.con d.line 0 d.con.n (w.write
    (ccWrites (pmSigma e.pm e.idxc) (pmTau e.pm e.idxc) (pmSyserr e.pm e.idxc d.con.em) d.nall d.con)) >>=
  fillLl e sz mix (pmSigma e.pm e.idxc) d.nall d.line 0 d.con.n

/-- `set_covar_Pmat_data_line_array_vmap`, src/mc_vmap.c:544-605: no continuum points, and `sigma` without the
factor `sqrt(tau)`. -/
noncomputable def fillArrayV (ls : List LC) (w : Scratch) : Res Scratch :=
  fillLl e sz false (Real.exp (e.pm (e.idxc + 1))) (totalN ls) ls 0 0 w

end Mica
