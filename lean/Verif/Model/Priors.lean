import Verif.Model.Text
import Mathlib.Analysis.SpecialFunctions.Log.Basic

/-!
# Priors given as text

Strings of the parameter file (`StrWidthPrior`, `StrLagPrior`, `StrRatioPrior`, `StrGapPrior`) and the
file of parameter ranges (option `-l`).  `lf s` is what `sscanf(s, "%lf", …)` finds at the start of
`s`: the value and the rest of the text.
-/

namespace Mica

/-- `sscanf(pstr, "%lf", &a[j])` into memory from `malloc`: without a number the cell keeps no value. -/
def lfCell (lf : List Char → Option (ℝ × List Char)) (s : List Char) : Option ℝ := (lf s).map Prod.fst

/-- The loop over values separated by `':'` (src/init.c:91-110, src/mc_line.c:2383-2402,
src/mc_mmap.c:857-876, src/mc_vmap.c:283-302): `k` values that must be followed by `':'` and a last
one. -/
def priorLoop (lf : List Char → Option (ℝ × List Char)) : ℕ → List Char → Res (List (Option ℝ))
  | 0, s => .ok [lfCell lf s]
  | k + 1, s =>
    match strchr s ':' with
    | none => .exit
    | some t =>
      match priorLoop lf k (t.drop 1) with
      | .ok r => .ok (lfCell lf s :: r)
      | .exit => .exit
      | .ub => .ub
      | .hang => .hang

/-- All cells must have got a value before they are used. -/
def allSet : List (Option ℝ) → Res (List ℝ)
  | [] => .ok []
  | none :: _ => .ub
  | some v :: l => (allSet l).bind fun r => .ok (v :: r)

/-- `lag_prior` for `TypeLagPrior == 4` (src/mc_line.c:2375-2403): the first character is skipped. -/
def lagPriorOf (lf : List Char → Option (ℝ × List Char)) (ng : ℕ) (str : List Char) : Res (List ℝ) :=
  (priorLoop lf (ng * 2 - 1) (str.drop 1)).bind allSet

/-- Check and logarithm of one width after the other (src/init.c:113-125). -/
noncomputable def widthLogs : List (Option ℝ) → Res (List ℝ)
  | [] => .ok []
  | none :: _ => .ub
  | some v :: l => if v ≤ 0 then .exit else (widthLogs l).bind fun r => .ok (Real.log v :: r)

/-- `width_prior` (src/init.c:82-134): from the string, or the default range for every component. -/
noncomputable def widthPriorOf (lf : List Char → Option (ℝ × List Char)) (ng : ℕ) (dflt : ℝ × ℝ)
    (str : List Char) : Res (List ℝ) :=
  if str = [] then .ok ((List.replicate ng [dflt.1, dflt.2]).flatten)
  else (priorLoop lf (ng * 2 - 1) (str.drop 1)).bind widthLogs

/-- Number of `':'` (src/mc_pmap.c:161-175). -/
def countColons (s : List Char) : ℕ := (s.filter (· == ':')).length

/-- The reading loop of the ratios (src/mc_pmap.c:187-204): `k` values, the pointer moves behind the next
`':'` and becomes null if there is none, although it is used for the next value.  `cap` cells are
left in the array. -/
noncomputable def ratioLoop (lf : List Char → Option (ℝ × List Char)) : ℕ → ℕ → Option (List Char) → Res (List ℝ)
  | 0, _, _ => .ok []
  | _ + 1, 0, _ => .ub
  | _ + 1, _ + 1, none => .ub
  | k + 1, cap + 1, some s =>
    match lf s with
    | none => .ub
    | some v => (ratioLoop lf k cap ((strchr s ':').map (List.drop 1))).bind fun r => .ok (Real.log v.1 :: r)

/-- `resp_ratio_prior` (src/mc_pmap.c:146-212) for `ng` components: from the string, with the pair of
index `jc - 1` repeated for the components from `jc` on, or the default. -/
noncomputable def ratioPriorOf (lf : List Char → Option (ℝ × List Char)) (ng : ℕ) (str : List Char) :
    Res (List ℝ) :=
  if str = [] then .ok ((List.replicate (ng - 1) [Real.log (1 / 1000), Real.log 1]).flatten)
  else if countColons (str.drop 1) < 1 ∨ countColons (str.drop 1) % 2 = 0 then .exit
  else
    (ratioLoop lf (countColons (str.drop 1) * 2) ((ng - 1) * 2) (some (str.drop 1))).bind fun r =>
      .ok (r ++ (List.replicate (ng - 1 - countColons (str.drop 1))
        [r.getD ((countColons (str.drop 1) - 1) * 2) 0, r.getD ((countColons (str.drop 1) - 1) * 2 + 1) 0]).flatten)

/-- `sscanf(pstr, "%lf:%lf", …)` with both values found. -/
def lfPair (lf : List Char → Option (ℝ × List Char)) (s : List Char) : Option (ℝ × ℝ) :=
  match lf s with
  | some (a, ':' :: r) => (lf r).map fun b => (a, b.1)
  | _ => none

/-- The loop over the data sets in `get_seasonal_gap_allset` (src/read.c:1443-1484): `k` sets besides the
last one; centre and half width of each.  After each pair the pointer moves behind the next `':'`,
which is the one inside the pair. -/
noncomputable def gapLoop (lf : List Char → Option (ℝ × List Char)) : ℕ → List Char → Res (List (ℝ × ℝ))
  | 0, s =>
    match lfPair lf s with
    | none => .exit
    | some p => .ok [(p.1, p.2 / 2)]
  | k + 1, s =>
    match lfPair lf s with
    | none => .exit
    | some p =>
      match strchr s ':' with
      | none => .exit
      | some t =>
        match gapLoop lf k (t.drop 1) with
        | .ok r => .ok ((p.1, p.2 / 2) :: r)
        | .exit => .exit
        | .ub => .ub
        | .hang => .hang

/-- `gap_center`, `gap_width` from `StrGapPrior` for `nset` data sets (one or more). -/
noncomputable def gapPriorOf (lf : List Char → Option (ℝ × List Char)) (nset : ℕ) (str : List Char) :
    Res (List (ℝ × ℝ)) := gapLoop lf (nset - 1) (str.drop 1)

/-! ## The file of parameter ranges: `load_par_names` (src/init.c:520-583) -/

/-- A line of the file: index, limits, fix flag, fixed value. -/
structure ParLine where
  idx : ℤ
  lo : ℝ
  hi : ℝ
  fix : ℤ
  val : ℝ

/-- Ranges, fix flags and fixed values of the parameters. -/
structure ParTab where
  range : List (ℝ × ℝ)
  fix : List ℤ
  val : List ℝ

/-- White space removed at both ends (src/init.c:549-557). -/
def trimC (s : List Char) : List Char := ((skipSpace s).reverse.dropWhile isSpaceC).reverse

/-- The assignments of one line (src/init.c:568-577). -/
def storeLine (np : ℕ) (t : ParTab) (e : ParLine) : Res ParTab :=
  if (np : ℤ) ≤ e.idx then .exit
  else if e.idx < 0 then .ub
  else .ok ⟨t.range.set e.idx.toNat (e.lo, e.hi), t.fix.set e.idx.toNat e.fix, t.val.set e.idx.toNat e.val⟩

/-- The loop over the lines delivered by `fgets(str, 256, fp)` (src/init.c:541-580).  `parse` is the
conversion of the seven columns.  `seen` tells whether `buf` holds a word already; `sscanf("%s")` leaves
it alone on a blank line.  The statement `continue` for comments and blank lines jumps back to the
test without reading another line: nothing changes any more.  A last line without newline sets the
end-of-file flag when it is read and is not looked at. -/
def loadLoop (parse : List Char → Option ParLine) (np : ℕ) :
    List (List Char) → Bool → ParTab → Res ParTab
  | [], _, t => .ok t
  | l :: ls, seen, t =>
    if l.getLast? ≠ some '\n' ∧ l.length < 255 then .ok t
    else
      match (nextWord l).1 with
      | [] => if seen then .hang else .ub
      | c :: _ =>
        if c = '#' then .hang
        else
          match parse (trimC l) with
          | none => .exit
          | some e => (storeLine np t e).bind (loadLoop parse np ls true)

/-- `load_par_names` for `np` parameters. -/
def loadParNames (parse : List Char → Option ParLine) (np : ℕ) (file : List Char) (t : ParTab) : Res ParTab :=
  loadLoop parse np (fgetsAll 254 file) false t

/-- One step of `set_drw_par_range_load` (src/init.c:603-622) for a parameter with loaded range `r`, and
mean `m` and deviation `s` from the continuum analysis. -/
noncomputable def drwRange (r : ℝ × ℝ) (m s : ℝ) : Res (ℝ × ℝ) :=
  if s > 0 then
    if r.1 > m + 5 * s ∨ r.2 < m - 5 * s then .exit
    else .ok (max r.1 (m - 5 * s), min r.2 (m + 5 * s))
  else .ok r

/-- `set_drw_par_range_load` (src/init.c:590-625): parameters `1`, `2` of each of the `n` triples. -/
noncomputable def drwLoad (par std : ℕ → ℝ) : ℕ → (ℕ → ℝ × ℝ) → Res (ℕ → ℝ × ℝ)
  | 0, r => .ok r
  | n + 1, r => do
    let r ← drwLoad par std n r
    let a ← drwRange (r (3 * n + 1)) (par (3 * n + 1)) (std (3 * n + 1))
    let b ← drwRange (r (3 * n + 2)) (par (3 * n + 2)) (std (3 * n + 2))
    .ok fun i => if i = 3 * n + 1 then a else if i = 3 * n + 2 then b else r i

end Mica
