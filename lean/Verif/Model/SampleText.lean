import Verif.Model.SciText
import Verif.Model.ParNames
import Verif.Model.Postprocess
import Mathlib.Data.List.DropRight

/-!
# The sampler's files as texts

What `save_particle`, `save_levels` and `postprocess` print, and what `postprocess` and the programs that use
the posterior samples read, character by character.  The counts of the sampler are natural numbers.
-/

namespace Mica

/-! ## `%g` -/

/-- Digits behind a point, without the trailing zeros (and without the point if nothing remains). -/
def dotText (s : List Char) : List Char :=
  if s.rdropWhile (· == '0') = [] then [] else '.' :: s.rdropWhile (· == '0')

/-- `printf("%.{q+1}g", x)`: `q + 1` significant digits, in the style of `%e` if the exponent is below -4 or above
`q`, else in the style of `%f`; trailing zeros removed. -/
noncomputable def gText (q : ℕ) (x : ℝ) : List Char :=
  let m := (sciParts q |x|).1
  let e := (sciParts q |x|).2
  (if x < 0 then ['-'] else []) ++
    (if e < -4 ∨ (q : ℤ) < e then
      lastDigits 1 (m / 10 ^ q) ++ (dotText (lastDigits q (m % 10 ^ q)) ++ 'e' :: sciExpo e)
    else
      Nat.toDigits 10 (m / 10 ^ ((q : ℤ) - e).toNat) ++
        dotText (lastDigits ((q : ℤ) - e).toNat (m % 10 ^ ((q : ℤ) - e).toNat)))

/-! ## What is written -/

/-- A level as `save_levels` prints it (cdnest/dnest.c:573-578). -/
structure LevelRow where
  logX : ℝ
  logl : ℝ
  tie : ℝ
  accepts : ℕ
  tries : ℕ
  exceeds : ℕ
  visits : ℕ

/-- `"%14.12g %14.12g %f %llu %llu %llu %llu\n"` without the newline (cdnest/dnest.c:575-577). -/
noncomputable def levelLine (l : LevelRow) : List Char :=
  padL 14 (gText 11 l.logX) ++ ' ' :: (padL 14 (gText 11 l.logl) ++ ' ' :: (fmt6 l.tie ++ ' ' ::
    (Nat.toDigits 10 l.accepts ++ ' ' :: (Nat.toDigits 10 l.tries ++ ' ' :: (Nat.toDigits 10 l.exceeds ++ ' ' ::
      Nat.toDigits 10 l.visits)))))

/-- Header of the levels file (cdnest/dnest.c:572). -/
def levelsHead : List Char := "# log_X, log_likelihood, tiebreaker, accepts, tries, exceeds, visits".toList

/-- The levels file (cdnest/dnest.c:571-579). -/
noncomputable def levelsText (ls : List LevelRow) : List Char :=
  levelsHead ++ '\n' :: (ls.map fun l => levelLine l ++ ['\n']).flatten

/-- The state file, `"%d %d\n"` (cdnest/dnest.c:406, 583). -/
def stateText (numLevels numSamples : ℕ) : List Char :=
  Nat.toDigits 10 numLevels ++ ' ' :: (Nat.toDigits 10 numSamples ++ ['\n'])

/-- A saved particle: its parameters, and what the information file says of it. -/
structure SavedRow where
  par : List ℝ
  level : ℕ
  logl : ℝ
  tie : ℝ
  id : ℕ

/-- `"%d %e %f %d\n"` without the newline (cdnest/dnest.c:666-669, 682-685, cdnest/dnestpostprocess.c:210). -/
noncomputable def infoLine (s : SavedRow) : List Char :=
  Nat.toDigits 10 s.level ++ ' ' :: (sciText 6 s.logl ++ ' ' :: (fmt6 s.tie ++ ' ' :: Nat.toDigits 10 s.id))

/-- Header of the information file (cdnest/dnest.c:914). -/
def infoHead : List Char := "# level assignment, log likelihood, tiebreaker, ID.".toList

/-- The sample-information file (cdnest/dnest.c:914, 666-669, 682-685). -/
noncomputable def infoText (ss : List SavedRow) : List Char :=
  infoHead ++ '\n' :: (ss.map fun s => infoLine s ++ ['\n']).flatten

/-- `print_particle_*`: each parameter with `"%f "`, then a newline (src/dnest_con.c:125-135, src/dnest_line.c:534-544,
src/dnest_mmap.c:273-283, src/dnest_pmap.c:327-337, src/dnest_vmap.c:368-378). -/
noncomputable def particleText (par : List ℝ) : List Char := (par.map fun x => fmt6 x ++ [' ']).flatten ++ ['\n']

/-- The sample file: the line `"# "` and the particles (cdnest/dnest.c:901, 664, 680). -/
noncomputable def sampleText (ps : List (List ℝ)) : List Char :=
  '#' :: ' ' :: '\n' :: (ps.map particleText).flatten

/-- The posterior sample file: `"# %d\n"` and the particles (cdnest/dnestpostprocess.c:413-419). -/
noncomputable def postText (ps : List (List ℝ)) : List Char :=
  '#' :: ' ' :: (Nat.toDigits 10 ps.length ++ '\n' :: (ps.map particleText).flatten)

/-! ## What is read -/

/-- `sscanf(buf, "%lf %lf %lf", …)` with all three conversions made. -/
noncomputable def scan3 (s : List Char) : Option (ℝ × ℝ × ℝ) := do
  let a ← scanLf s
  let b ← scanLf a.2
  let c ← scanLf b.2
  some (a.1, b.1, c.1)

/-- `n` lines with three numbers each, by `fgets` and `sscanf`; the program stops if one is missing
(cdnest/dnestpostprocess.c:112-127, 141-160: `buf` is cleared after each line, so that nothing is found at the end of
the file, where `feof` may be set or not). -/
noncomputable def readThree : ℕ → List Char → Res (List (ℝ × ℝ × ℝ))
  | 0, _ => .ok []
  | n + 1, file =>
    match scan3 (fgetsBuf [] file).1 with
    | none => .exit
    | some t => do
      let ts ← readThree n (fgetsBuf [] file).2
      .ok (t :: ts)

/-- `read_particle_*`: `n` numbers by `fscanf("%lf")`; the program stops if one is missing (src/dnest_con.c:200-216,
src/dnest_line.c:801-817, src/dnest_mmap.c:454-470, src/dnest_pmap.c:427-443, src/dnest_vmap.c:538-554). -/
noncomputable def readParticle : ℕ → List Char → Res (List ℝ × List Char)
  | 0, s => .ok ([], s)
  | n + 1, s =>
    match scanLf s with
    | none => .exit
    | some p => do
      let r ← readParticle n p.2
      .ok (p.1 :: r.1, r.2)

/-- `k` particles with `np` parameters (cdnest/dnestpostprocess.c:390-393; src/mc_line.c:1307-1321 and the same loop in
the other programs, where in addition white space is skipped behind each particle). -/
noncomputable def readParticles (np : ℕ) : ℕ → List Char → Res (List (List ℝ))
  | 0, _ => .ok []
  | k + 1, s => do
    let p ← readParticle np s
    let ps ← readParticles np k p.2
    .ok (p.1 :: ps)

/-- The numbers in the state file, `fscanf(fp, "%d %d\n", …)`, without a check (cdnest/dnestpostprocess.c:82): the
variables have no value before. -/
def readState (s : List Char) : Res (ℕ × ℕ) :=
  match scanD s with
  | none => .ub
  | some a =>
    match scanD a.2 with
    | none => .ub
    | some b => if a.1 < 0 ∨ b.1 < 0 then .ub else .ok (a.1.toNat, b.1.toNat)

/-- `postprocess` from the texts of the four files (cdnest/dnestpostprocess.c:62-473, with the sample-information file
present).  The sample file is read after the evidence has been calculated; as no output is modelled between, it is
read here beforehand.  The level assignment is read as a double and converted to an integer (219-221). -/
noncomputable def postprocessText (T : ℝ) (np : ℕ) (state levels info samples : List Char) (draws : List (ℕ × ℝ)) :
    Res (PostOut (List ℝ)) := do
  let n ← readState state
  let ls ← readThree n.1 (fgetsBuf [] levels).2
  let is ← readThree n.2 (fgetsBuf [] info).2
  let ps ← readParticles np n.2 (fgetsBuf [] samples).2
  postprocess T (ls.map fun l => ⟨l.1, l.2.1⟩)
    ((is.map fun i => (⟨⌊i.1⌋₊, i.2.1, i.2.2⟩ : PInfo)).map (clampInfo n.1)) ps draws

/-- The posterior samples as the other programs read them: `fscanf(fp, "# %d", …)`, then the particles
(src/mc_con.c:402-425, src/mc_line.c:211-233, 627-632, 779-789, 1299-1321, src/mc_mmap.c:163-186, 274-296,
src/mc_vmap.c, src/mc_pmap.c, src/line_decomp.c:59-83, src/line_decomp_mmap.c:59-83). -/
noncomputable def readPostText (np : ℕ) (s : List Char) : Res (List (List ℝ)) :=
  match s with
  | '#' :: r =>
    match scanD r with
    | none => .exit
    | some n => if n.1 < 0 then .ub else readParticles np n.1.toNat n.2
  | _ => .exit

end Mica
