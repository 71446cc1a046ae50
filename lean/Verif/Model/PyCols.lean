import Verif.Model.Text

/-!
# Column names of the posterior sample (postprocess.py `get_posterior_sample`)
-/

namespace Mica

/-- Lines of a text, `cur` being what was seen of the current line. -/
def textRows (cur : List Char) : List Char → List (List Char)
  | [] => if cur = [] then [] else [cur]
  | c :: s => if c = '\n' then cur :: textRows [] s else textRows (cur ++ [c]) s

/-- `np.loadtxt(fname, dtype=str, usecols=1)` on the file of parameter names (postprocess.py:305, 311): the second words of the
lines that are not empty. -/
def nameCol (file : List Char) : List (List Char) :=
  ((textRows [] file).filter fun l => l ≠ []).map fun l => (nextWord (nextWord l).2).1

/-- `np.where(names == s)[0]`, the first name having number `n`. -/
def whereEq (s : List Char) : ℕ → List (List Char) → List ℕ
  | _, [] => []
  | n, a :: l => if a = s then n :: whereEq s (n + 1) l else whereEq s (n + 1) l

/-- The loop over the lines (postprocess.py:322-331). -/
def lineCols (names : List (List Char)) : ℕ → ℕ → List ℕ → List (List Char)
  | _, _, [] => []
  | i, j1, j2 :: idx =>
    ("line_err_".toList ++ Nat.toDigits 10 i) ::
      ((List.range' (j1 + 1) (j2 - j1)).map fun (j : ℕ) => names.getD j [] ++ '_' :: Nat.toDigits 10 i) ++
      lineCols names (i + 1) (j2 + 1) idx

/-- `colnames` of `get_posterior_sample(num_comp)` (postprocess.py:315-331); `num_comp` is at least one. -/
def colNames (ng : ℕ) (file : List Char) : List (List Char) :=
  let names := nameCol file
  let nd := (whereEq "taud".toList 0 names).length
  ((List.range nd).flatMap fun (i : ℕ) => ["con_err_".toList ++ Nat.toDigits 10 i, "sigmad_".toList ++ Nat.toDigits 10 i,
    "taud_".toList ++ Nat.toDigits 10 i]) ++
  lineCols names 0 (nd * 3) (whereEq (Nat.toDigits 10 (ng - 1) ++ "-th_component_sigma".toList) 0 names)

end Mica
