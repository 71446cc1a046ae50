import Verif.Model.Res
import Verif.Model.Kernel
import Verif.Model.PlotFig
import Verif.Model.PySetup

/-!
# The choice of the transfer function (src/init.c, src/mc_mmap.c, pymica.pyx)
-/

namespace Mica

/-- The choice by `parset.type_tf`, src/init.c:138-272: the last branch is a plain `else`. -/
def tfOfNumber (z : ℤ) : TF := if z = 0 then .gauss else if z = 1 then .tophat else if z = 2 then .gamma else .exp

/-- Entry `n` of the tables `FP_Slc[4]`, `FP_Sll[4*4]` and their likes, src/mc_mmap.c:876-960: beyond the table the behaviour is
undefined. -/
def tfOfEntry (n : ℤ) : Res TF :=
  if n = 0 then .ok .gauss else if n = 1 then .ok .tophat else if n = 2 then .ok .gamma else if n = 3 then .ok .exp else .ub

/-- Transfer function of component `k` in the likelihood: by `type_tf`, or in mixture mode (model 3) by `str_type_tf_mix[k] - '0'`
(src/mc_mmap.c:1399, 1608-1612).  The text ends with a zero, further behind it is undefined. -/
def tfUsed (model typeTf : ℤ) (mix : List Char) (k : ℕ) : Res TF :=
  if model = 3 then
    if k < mix.length then tfOfEntry ((mix.getD k '\x00').toNat - 48) else .ub
  else .ok (tfOfNumber typeTf)

/-- `typetf` given to the plotting functions for `i` components: `str(type_tf) * i`, or the text of the mixture (pymica.pyx:224-229,
244-249; plotfig.py:1017-1040, plotdecomp.py:436-469). -/
def plotTfText (model typeTf : ℤ) (mix : List Char) (i : ℕ) : List Char :=
  if model ≠ 3 then (List.replicate i (fmtInt typeTf)).flatten else mix

/-- `int(typetf[k])` and the branches on it (plotfig.py:145-146, 172, 199, 229); not a digit: an exception. -/
def plotTfAt (s : List Char) (k : ℕ) : Option TF :=
  (s[k]?).bind fun c => if c.isDigit then some (plotType (c.toNat - 48)) else none

end Mica
