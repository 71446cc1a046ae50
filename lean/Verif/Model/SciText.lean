import Verif.Model.Data
import Mathlib.Data.Int.Log
import Mathlib.Algebra.Order.Archimedean.Real.Basic
import Mathlib.Algebra.Order.Floor.Ring

/-!
# Output files as texts: `%.pe`, `%lf`, the files of light curves

`printf("%.pe", x)` and `scanf("%lf", &x)` are written out following the C standard, for numbers in
decimal notation (no `inf`, `nan`, hexadecimal numbers); numbers are real numbers, so there is no `-0`
and reading is exact.  Rounding is to the nearest, ties to even, as in the default rounding mode.
-/

namespace Mica

/-- Nearest whole number of `y ≥ 0`, ties to even. -/
noncomputable def rne (y : ℝ) : ℕ :=
  if y - ⌊y⌋₊ < 1 / 2 then ⌊y⌋₊
  else if 1 / 2 < y - ⌊y⌋₊ then ⌊y⌋₊ + 1
  else if ⌊y⌋₊ % 2 = 0 then ⌊y⌋₊ else ⌊y⌋₊ + 1

/-- Digits (as one whole number with `p + 1` digits) and exponent of `%.pe` for `y ≥ 0`: the exponent is
the one for which there is exactly one digit before the point, also after rounding. -/
noncomputable def sciParts (p : ℕ) (y : ℝ) : ℕ × ℤ :=
  if y = 0 then (0, 0)
  else if rne (y / (10 : ℝ) ^ (Int.log 10 y - p)) = 10 ^ (p + 1) then (10 ^ p, Int.log 10 y + 1)
  else (rne (y / (10 : ℝ) ^ (Int.log 10 y - p)), Int.log 10 y)

/-- The `k` last digits of `m`. -/
def lastDigits : ℕ → ℕ → List Char
  | 0, _ => []
  | k + 1, m => lastDigits k (m / 10) ++ [Nat.digitChar (m % 10)]

/-- An exponent: sign and at least two digits. -/
def sciExpo (e : ℤ) : List Char :=
  (if e < 0 then '-' else '+') :: ((if e.natAbs < 10 then ['0'] else []) ++ Nat.toDigits 10 e.natAbs)

/-- `printf("%.pe", x)`. -/
noncomputable def sciText (p : ℕ) (x : ℝ) : List Char :=
  (if x < 0 then ['-'] else []) ++ (lastDigits 1 ((sciParts p |x|).1 / 10 ^ p) ++
    ((if p = 0 then [] else '.' :: lastDigits p ((sciParts p |x|).1 % 10 ^ p)) ++
      'e' :: sciExpo (sciParts p |x|).2))

/-- Sign in front of a number. -/
def takeSign (s : List Char) : Bool × List Char :=
  match s with
  | '-' :: r => (true, r)
  | '+' :: r => (false, r)
  | r => (false, r)

/-- Digits behind a point. -/
def takeFrac (s : List Char) : List Char × List Char :=
  match s with
  | '.' :: r => (r.takeWhile Char.isDigit, r.dropWhile Char.isDigit)
  | r => ([], r)

/-- Exponent; nothing if the digits are missing, which is a matching failure. -/
def takeExpo (s : List Char) : Option (ℤ × List Char) :=
  match s with
  | c :: r =>
    if c = 'e' ∨ c = 'E' then
      if (takeSign r).2.takeWhile Char.isDigit = [] then none
      else some (if (takeSign r).1 then -(digitsVal ((takeSign r).2.takeWhile Char.isDigit) : ℤ)
          else (digitsVal ((takeSign r).2.takeWhile Char.isDigit) : ℤ), (takeSign r).2.dropWhile Char.isDigit)
    else some (0, c :: r)
  | [] => some (0, [])

/-- `scanf("%lf", &x)`. -/
noncomputable def scanLf (s : List Char) : Option (ℝ × List Char) :=
  let g := takeSign (skipSpace s)
  let ip := g.2.takeWhile Char.isDigit
  let f := takeFrac (g.2.dropWhile Char.isDigit)
  if ip = [] ∧ f.1 = [] then none
  else
    match takeExpo f.2 with
    | none => none
    | some e => some ((if g.1 then -1 else 1) * ((digitsVal (ip ++ f.1) : ℝ) * (10 : ℝ) ^ (e.1 - f.1.length)), e.2)

/-- The numbers that successive `%lf` deliver until one fails; at most `k`. -/
noncomputable def lfNums : ℕ → List Char → List ℝ
  | 0, _ => []
  | k + 1, s =>
    match scanLf s with
    | none => []
    | some p => p.1 :: lfNums k p.2

/-- All of them: there are not more numbers than characters. -/
noncomputable def fileNums (s : List Char) : List ℝ := lfNums s.length s

/-! ## The files (src/mc_line.c:243, 473-504, src/mc_mmap.c:306, 535-566, src/mc_vmap.c:682, 923-958,
src/mc_con.c:95-137, src/line_decomp.c:221, 304-331, src/line_decomp_mmap.c) -/

/-- One row, format `"%.{n_precision_time}e %e %e\n"`. -/
noncomputable def rowText (p : ℕ) (r : Row) : List Char :=
  sciText p r.1 ++ (' ' :: (sciText 6 r.2.1 ++ (' ' :: (sciText 6 r.2.2 ++ ['\n']))))

/-- One light curve: its rows and an empty line. -/
noncomputable def curveText (p : ℕ) (c : List Row) : List Char := (c.map (rowText p)).flatten ++ ['\n']

/-- The light curves of a data set. -/
noncomputable def setText (p : ℕ) (s : FSet) : List Char := curveText p s.con ++ (s.lines.map (curveText p)).flatten

/-- Header of a data set, `"# %d"`, `":%d"`, …. -/
def setHead (s : FSet) : List Char :=
  '#' :: ((' ' :: Nat.toDigits 10 s.con.length) ++
    (s.lines.map fun l => ':' :: Nat.toDigits 10 l.length).flatten)

/-- First line, `"# %d\n"`. -/
def fileHead (sets : List FSet) : List Char := '#' :: ' ' :: Nat.toDigits 10 sets.length

/-- `pall.txt` and `pcon.txt` (there without lines): all headers, then all data. -/
noncomputable def pallText (p : ℕ) (sets : List FSet) : List Char :=
  fileHead sets ++ ('\n' :: ((sets.map fun s => setHead s ++ ['\n']).flatten ++ (sets.map (setText p)).flatten))

/-- `pline.txt_…_comp…`: the header of each data set is directly in front of its data. -/
noncomputable def compText (p : ℕ) (sets : List FSet) : List Char :=
  fileHead sets ++ ('\n' :: (sets.map fun s => setHead s ++ ('\n' :: setText p s)).flatten)

end Mica
