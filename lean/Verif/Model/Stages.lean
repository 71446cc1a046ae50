import Verif.Model.Misc
import Verif.Model.Vmap

/-! # From the continuum stage to the line stage -/

namespace Mica

namespace LineCfg
variable (c : LineCfg)

/-- `memcpy(var_param, best_model_con, …)`, `memcpy(var_param_std, best_model_std_con, …)` and the two broadcasts,
src/mc_con.c:466-471, for the means and standard deviations `out` of the continuum sample; the arrays of `num_params_var`
numbers are not read beyond their end. -/
noncomputable def afterCon (out : List (ℝ × ℝ)) : LineCfg :=
  { c with
    varPar := fun j => (out.getD j (0, 0)).1
    varStd := fun j => (out.getD j (0, 0)).2 }

/-- `logH` of a moved parameter of the continuum, src/dnest_line.c:601-604, 679-682, src/dnest_mmap.c:338-341, 416-419,
src/dnest_pmap.c:394-397, in double arithmetic without rounding; the term is the same text as in `vVarTerm`. -/
noncomputable def varLogHFl (pm q : ℕ → ℝ) (which : ℕ) : Fl :=
  Fl.add (Fl.sub (.fin 0) (c.vVarTerm which (pm which))) (c.vVarTerm which (q which))

end LineCfg
end Mica
