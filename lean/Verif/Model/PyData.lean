import Verif.Model.SciText
import Verif.Model.ParNames

/-!
# Data files that Python writes (python/pymica/pymica.pyx `create_data_file`, genmockdata.py `format_mica`)

An array is the list of its rows, a row the list of its columns; numpy guarantees that all rows of an array have the same
length, which is not needed here.  `None` is `none`.  Numbers are real numbers, as in the rest of the model.
-/

namespace Mica

/-- A two-dimensional array. -/
abbrev PyArr := List (List ℝ)

/-- One row of `np.savetxt`: the numbers in the given format, separated by blanks. -/
def savetxtRow (num : ℝ → List Char) : List ℝ → List Char
  | [] => ['\n']
  | [x] => num x ++ ['\n']
  | x :: y :: r => num x ++ (' ' :: savetxtRow num (y :: r))

/-- `np.savetxt(fp, a, fmt=…)`. -/
def savetxt (num : ℝ → List Char) (a : PyArr) : List Char := (a.map (savetxtRow num)).flatten

/-- `"# %d"` and `":%d"` for every further number, without the end of the line. -/
def pyHead : List ℕ → List Char
  | [] => []
  | n :: ns => '#' :: ' ' :: (Nat.toDigits 10 n ++ (ns.map fun m => ':' :: Nat.toDigits 10 m).flatten)

/-- Number of points of a light curve, 0 for `None`. -/
def pyLen (a : Option PyArr) : ℕ := (a.getD []).length

/-- `create_data_file(data)` (pymica.pyx:108-150): all headers, then the light curves with points, each followed by an empty
line.  The dictionary is the list of its values; `none` is the `ValueError` for data sets with less than two entries. -/
noncomputable def pyDataText (data : List (List (Option PyArr))) : Option (List Char) :=
  if data.any fun d => d.length < 2 then none
  else some ('#' :: ' ' :: (Nat.toDigits 10 data.length ++ ('\n' ::
    ((data.map fun d => pyHead (d.map pyLen) ++ ['\n']).flatten ++
      (data.map fun d => (d.map fun a => if 0 < pyLen a then savetxt (sciText 6) (a.getD []) ++ ['\n'] else []).flatten).flatten))))

/-- Light curves with an empty line between each two. -/
def savetxtSep (num : ℝ → List Char) : List PyArr → List Char
  | [] => []
  | a :: l => savetxt num a ++ (l.map fun b => '\n' :: savetxt num b).flatten

/-- `format_mica(fname, data1, data2)` with lists (genmockdata.py:232-261), or, with one data set, a single driving light curve
(genmockdata.py:208-231): one driving light curve and the responding light curves for each data set. -/
noncomputable def micaText (data : List (PyArr × List PyArr)) : List Char :=
  '#' :: ' ' :: (Nat.toDigits 10 data.length ++ ('\n' ::
    ((data.map fun d => pyHead (d.1.length :: d.2.map List.length) ++ ['\n']).flatten ++
      savetxtSep fmt6 (data.map fun d => d.1 :: d.2).flatten)))

/-- `format_mica(fname, None, data2)` with a list (genmockdata.py:195-206): an empty line behind each light curve (with a
single array, 189-194, the last empty line is missing). -/
noncomputable def micaNoneText (lines : List PyArr) : List Char :=
  "# 1\n".toList ++ (pyHead (0 :: lines.map List.length) ++ ('\n' :: (lines.map fun a => savetxt fmt6 a ++ ['\n']).flatten))

end Mica
