import Verif.Model.Priors
import Verif.Model.SciText
import Verif.Model.ParNames
import Verif.Model.Getopt

/-!
# Priors as the Python interface hands them to the C code (python/pymica/pymica.pyx)

`setup` writes the numbers with `"%f"` into a text, which is copied with `strcpy` (`copyStr 256`) into an array of 256 characters
(src/allvars.h:28, 114-116, 131); the C code reads it back (`Model/Priors.lean`).  An exception is `none`.
-/

namespace Mica

/-- `"%f:%f"%(p[0], p[1])`. -/
noncomputable def pairText (p : ℝ × ℝ) : List Char := fmt6 p.1 ++ ':' :: fmt6 p.2

/-- `"[%f:%f"`, then `":%f:%f"` for `i = 1, …, n - 1`, then `"]"`; an `IndexError` if there are fewer than `n` pairs, or
none.  `lag_prior` (pymica.pyx:619-628, 787-793, 1041-1050, 1278-1287) and `width_prior` (633-642, 820-829, 1055-1064,
1292-1301) with `n` the largest number of components, `ratio_prior` (796-808) with the number of pairs. -/
noncomputable def pyPairs (n : ℕ) (pairs : List (ℝ × ℝ)) : Option (List Char) :=
  match pairs with
  | [] => none
  | p :: ps =>
    if ps.length + 1 < n then none
    else some ('[' :: (pairText p ++ ((((ps.take (n - 1)).map fun q => ':' :: pairText q).flatten) ++ [']'])))

/-- The text of `gap_prior` (pymica.pyx:646-655, 833-842, 1068-1077, 1305-1314): there is no `':'` between the pairs. -/
noncomputable def pyGap (pairs : List (ℝ × ℝ)) : Option (List Char) :=
  match pairs with
  | [] => none
  | p :: ps => some ('[' :: (pairText p ++ ((ps.map pairText).flatten ++ [']'])))

/-- `type_lag_prior` and `str_lag_prior` of `gmodel`, `vmap`, `mmap` when `lag_prior` is given (pymica.pyx:617-630): with one
component at most it is not used. -/
noncomputable def pyLag (upp : ℕ) (pairs : List (ℝ × ℝ)) : Option (ℕ × List Char) :=
  if 1 < upp then (pyPairs upp pairs).map fun s => (4, s) else some (0, [])

end Mica
