import Verif.Model.LineParams

/-! # Ranges and fixed values of the continuum stage (src/dnest_con.c) -/

namespace Mica

/-- `set_par_range_con`, src/dnest_con.c:83-105, with the ranges of src/init.c:42-49, and the fixed systematic
errors, src/dnest_con.c:52-64 (`log(1.0)` is 0). -/
noncomputable def LineCfg.conCfg (c : LineCfg) : ConCfg c.numVar where
  lo i := (c.varRange (i % 3)).1
  hi i := (c.varRange (i % 3)).2
  fix i := if c.conSys = false ∧ (i : ℕ) % 3 = 0 then some (Real.log 1) else none

end Mica
