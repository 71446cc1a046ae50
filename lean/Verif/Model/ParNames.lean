import Verif.Model.Priors
import Verif.Model.LineParams

/-!
# The file of parameter names

`print_para_names_line` (src/dnest_line.c:387-458), `print_para_names_pmap` (src/dnest_pmap.c:208-280) and
`print_para_names_vmap` (src/dnest_vmap.c:234-297) write one line per parameter, in the format which
`load_par_names` (src/init.c:520-583) reads.
-/

namespace Mica

/-- What a line of the file says its parameter is. -/
inductive ParKind
  | sysCon | sigmad | taud | sysLine
  | amplitude (k : ℕ)
  | ratio (k : ℕ)
  | centroid (k : ℕ)
  | width (k : ℕ)
deriving DecidableEq, Repr

/-- Which of the three functions: `dnest_line`/`dnest_mmap`, with or without negative responses, `dnest_pmap`,
`dnest_vmap`. -/
inductive NameMode
  | line (negResp : Bool)
  | pmap
  | vmap
deriving DecidableEq

/-- The amplitude's name: in photometric mode a ratio from the second component on, src/dnest_pmap.c:250-262. -/
def ampKind (m : NameMode) (k : ℕ) : ParKind :=
  match m with
  | .pmap => if k = 0 then .amplitude k else .ratio k
  | _ => .amplitude k

/-- The names in the order they are printed, for `nv` continuum parameters, `nl` line parameters and `ng` components.
The `+= 3` and `+= 1+3*num_gaussian` loops run `⌈nv/3⌉` and `⌈nl/(1+3*num_gaussian)⌉` times; `i` counts the lines. -/
def parKinds (m : NameMode) (nv nl ng : ℕ) : List ParKind :=
  ((List.range ((nv + 2) / 3)).flatMap fun _ => [.sysCon, .sigmad, .taud]) ++
  (List.range ((nl + 3 * ng) / (1 + 3 * ng))).flatMap fun _ =>
    .sysLine :: (List.range ng).flatMap fun k => [ampKind m k, .centroid k, .width k]

/-- The second column. -/
def kindName : ParKind → List Char
  | .sysCon => "sys_err_con".toList
  | .sigmad => "sigmad".toList
  | .taud => "taud".toList
  | .sysLine => "sys_err_line".toList
  | .amplitude k => Nat.toDigits 10 k ++ "-th_component_amplitude".toList
  | .ratio k => Nat.toDigits 10 k ++ "-th_component_resp_ratio".toList
  | .centroid k => Nat.toDigits 10 k ++ "-th_component_centroid".toList
  | .width k => Nat.toDigits 10 k ++ "-th_component_sigma".toList

/-- The third column, six characters. -/
def kindPrior (m : NameMode) : ParKind → List Char
  | .sysCon => "LOGUNI".toList
  | .sysLine => "LOGUNI".toList
  | .centroid _ => "UNI   ".toList
  | .amplitude _ => if m = .line true then "UNI   ".toList else "LOG   ".toList
  | _ => "LOG   ".toList

/-- Right-aligned field. -/
def padL (n : ℕ) (s : List Char) : List Char := List.replicate (n - s.length) ' ' ++ s

/-- Left-aligned field. -/
def padR (n : ℕ) (s : List Char) : List Char := s ++ List.replicate (n - s.length) ' '

/-- `%d`. -/
def fmtInt (z : ℤ) : List Char := if z < 0 then '-' :: Nat.toDigits 10 z.natAbs else Nat.toDigits 10 z.natAbs

/-- One line without its newline: `"%2d %-25s LOGUNI %10.6f %10.6f %4d %15.6e"`.  `fF`, `fE` are the conversions `%.6f`
and `%.6e`. -/
def parLine (fF fE : ℝ → List Char) (m : NameMode) (i : ℕ) (k : ParKind) (e : ParLine) : List Char :=
  padL 2 (Nat.toDigits 10 i) ++ ' ' :: (padR 25 (kindName k) ++ ' ' :: (kindPrior m k ++ ' ' :: (padL 10 (fF e.lo) ++
    ' ' :: (padL 10 (fF e.hi) ++ ' ' :: (padL 4 (fmtInt e.fix) ++ ' ' :: padL 15 (fE e.val))))))

/-- `x` in units of `10⁻⁶`, rounded to the nearest. -/
noncomputable def micro (x : ℝ) : ℕ := ⌊|x| * 10 ^ 6 + 1 / 2⌋₊

/-- `%.6f`; which way ties are rounded is immaterial.  (A negative number rounded to zero keeps its sign.) -/
noncomputable def fmt6 (x : ℝ) : List Char :=
  (if x < 0 then ['-'] else []) ++ (Nat.toDigits 10 (micro x / 10 ^ 6) ++ '.' ::
    (List.replicate (6 - (Nat.toDigits 10 (micro x % 10 ^ 6)).length) '0' ++ Nat.toDigits 10 (micro x % 10 ^ 6)))

/-- What is known about parameter `i`. -/
def ParTab.entry (t : ParTab) (i : ℕ) : ParLine :=
  ⟨i, (t.range.getD i (0, 0)).1, (t.range.getD i (0, 0)).2, t.fix.getD i 0, t.val.getD i 0⟩

/-- The lines of the file. -/
def parNameLines (fF fE : ℝ → List Char) (m : NameMode) (nv nl ng : ℕ) (t : ParTab) : List (List Char) :=
  (parKinds m nv nl ng).mapIdx fun i k => parLine fF fE m i k (t.entry i)

/-- The file. -/
def parNameFile (fF fE : ℝ → List Char) (m : NameMode) (nv nl ng : ℕ) (t : ParTab) : List Char :=
  (parNameLines fF fE m nv nl ng t).flatMap (· ++ ['\n'])

/-- The digits of `%d`: at least one; the value and the rest. -/
def scanDNum (neg : Bool) (r : List Char) : Option (ℤ × List Char) :=
  if r.takeWhile Char.isDigit = [] then none
  else some (if neg then -(digitsVal (r.takeWhile Char.isDigit) : ℤ) else digitsVal (r.takeWhile Char.isDigit),
    r.dropWhile Char.isDigit)

/-- `%d` of `sscanf`: leading white space, an optional sign, digits; the value and the rest. -/
def scanD (s : List Char) : Option (ℤ × List Char) :=
  match skipSpace s with
  | '-' :: r => scanDNum true r
  | '+' :: r => scanDNum false r
  | r => scanDNum false r

/-- Digits, and digits behind a point. -/
noncomputable def scanDecNum (r : List Char) : Option (ℝ × List Char) :=
  match r.dropWhile Char.isDigit with
  | '.' :: q => some (digitsVal (r.takeWhile Char.isDigit) +
      digitsVal (q.takeWhile Char.isDigit) / 10 ^ (q.takeWhile Char.isDigit).length, q.dropWhile Char.isDigit)
  | q => if r.takeWhile Char.isDigit = [] then none else some (digitsVal (r.takeWhile Char.isDigit), q)

/-- `%lf` for numbers in decimal notation: white space, an optional minus sign, digits, and digits behind a point; the
value and the rest. -/
noncomputable def scanDec (s : List Char) : Option (ℝ × List Char) :=
  if (skipSpace s).headD ' ' = '-' then (scanDecNum (skipSpace s).tail).map fun p => (-p.1, p.2)
  else scanDecNum (skipSpace s)

/-- `sscanf(str,"%d %s %s %lf %lf %d %lf", …)` with all seven conversions made, src/init.c:561-565.  `lf` is the conversion
`%lf`: the value at the start of the text, behind white space, and the rest. -/
def scanParLine (lf : List Char → Option (ℝ × List Char)) (s : List Char) : Option ParLine :=
  (scanD s).bind fun (i, s1) =>
  if (nextWord s1).1 = [] then none
  else if (nextWord (nextWord s1).2).1 = [] then none
  else
    (lf (nextWord (nextWord s1).2).2).bind fun (lo, s2) =>
    (lf s2).bind fun (hi, s3) =>
    (scanD s3).bind fun (fix, s4) =>
    (lf s4).bind fun (val, _) => some ⟨i, lo, hi, fix, val⟩

end Mica
