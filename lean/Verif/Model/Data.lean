import Verif.Model.Text
import Mathlib.Data.Real.Basic

/-!
# The data reader (`read_data`, src/read.c:534-879)

The file is a list of characters.  The numbers `%lf` delivers from the text behind the header are a
parameter of the model (`nums`).
-/

namespace Mica

/-- One row of a light curve: time, flux, error (`LC`, src/allvars.h). -/
abbrev Row := ℝ × ℝ × ℝ

/-- One data set: continuum and line light curves (`DATASET`, src/allvars.h). -/
structure FSet where
  con : List Row
  lines : List (List Row)

/-- `fgets(buf, 256, fp)`: at the end of the file `buf` keeps its content. -/
def fgetsBuf (buf file : List Char) : List Char × List Char :=
  match file with
  | [] => (buf, [])
  | _ :: _ => fgetsC 255 file

/-- `k` successive such calls: the contents of `buf` after each, and the rest of the file. -/
def takeLines : ℕ → List Char → List Char → List (List Char) × List Char
  | 0, _, file => ([], file)
  | k + 1, buf, file =>
    ((fgetsBuf buf file).1 :: (takeLines k (fgetsBuf buf file).1 (fgetsBuf buf file).2).1,
      (takeLines k (fgetsBuf buf file).1 (fgetsBuf buf file).2).2)

/-- The texts behind each `':'`: the positions `pstr` runs through by `strchr(pstr, ':')` and
`pstr++` (src/read.c:574-599, 649-652). -/
def colonTails : List Char → List (List Char)
  | [] => []
  | c :: s => if c = ':' then s :: colonTails s else colonTails s

/-- `while(*pstr == ' ' || *pstr == '\t') pstr++;` (src/read.c:587). -/
def skipBlank (s : List Char) : List Char := s.dropWhile fun c => c == ' ' || c == '\t'

/-- The loop counting the line light curves with points (src/read.c:581-600).  `np` is a local
variable of `read_data`, without value at first; `sscanf` leaves it alone if there is no number.  At
the end of the line a zero byte is stored, so that the next `strchr` finds nothing. -/
def countLines : List (List Char) → Option ℤ → ℕ → Res (ℕ × Option ℤ)
  | [], np, k => .ok (k, np)
  | s :: ts, np, k =>
    match skipBlank s with
    | [] => .ok (k, some 0)
    | c :: r =>
      if c = '\n' ∨ c = '\r' then .ok (k, some 0)
      else
        match (scanInt (c :: r)).or np with
        | none => .ub
        | some v => countLines ts (some v) (if 0 < v then k + 1 else k)

/-- First look at the header line of one data set (src/read.c:562-620): number of continuum points
and number of lines with points.  A missing or negative number of continuum points is used for the
allocation and the loops below and is undefined behaviour here already. -/
def headSet (vmap : Bool) (buf : List Char) (np : Option ℤ) : Res ((ℕ × ℕ) × Option ℤ) :=
  match scanInt (buf.drop 1) with
  | none => .ub
  | some n =>
    if n < 0 then .ub
    else
      match colonTails (buf.drop 1) with
      | [] => .ok ((n.toNat, 0), np)
      | t :: ts =>
        match countLines (t :: ts) np 0 with
        | .ok (k, np') => if vmap && decide (0 < n) then .exit else .ok ((n.toNat, k), np')
        | .exit => .exit
        | .ub => .ub
        | .hang => .hang

/-- First look at all header lines (src/read.c:560-622). -/
def headSets (vmap : Bool) : List (List Char) → Option ℤ → Res (List (ℕ × ℕ) × Option ℤ)
  | [], np => .ok ([], np)
  | b :: bs, np => do
    let p ← headSet vmap b np
    let q ← headSets vmap bs p.2
    .ok (p.1 :: q.1, q.2)

/-- Second look at a header line (src/read.c:649-661): the numbers of points of the `k` lines are
taken from the first `k` fields.  A field without a positive number leaves the number of points
without value, which is undefined behaviour when it is used below. -/
def lineCounts : ℕ → List (List Char) → Option ℤ → Res (List ℕ × Option ℤ)
  | 0, _, np => .ok ([], np)
  | _ + 1, [], _ => .ub
  | k + 1, s :: ts, np =>
    match (scanInt s).or np with
    | none => .ub
    | some v =>
      if 0 < v then do
        let q ← lineCounts k ts (some v)
        .ok (v.toNat :: q.1, q.2)
      else .ub

/-- Second look at all header lines (src/read.c:640-664). -/
def headCounts : List (ℕ × ℕ) → List (List Char) → Option ℤ → Res (List (ℕ × List ℕ))
  | h :: hs, b :: bs, np => do
    let p ← lineCounts h.2 (colonTails (b.drop 1)) np
    let q ← headCounts hs bs p.2
    .ok ((h.1, p.1) :: q)
  | _, _, _ => .ok []

/-- `fscanf(fp, "%lf %lf %lf\n", …)` for `n` rows; `none` if the numbers run out
(src/read.c:826-840, 853-868). -/
def takeRows : ℕ → List ℝ → Option (List Row × List ℝ)
  | 0, l => some ([], l)
  | n + 1, a :: b :: c :: l => (takeRows n l).map fun p => ((a, b, c) :: p.1, p.2)
  | _ + 1, _ => none

/-- `check_time_sorted` (src/read.c:1493-1508). -/
noncomputable def unsorted : List ℝ → Bool
  | a :: b :: l => decide (b - a < 0) || unsorted (b :: l)
  | _ => false

/-- One light curve: its rows, then the check of the times (src/read.c:824-848, 851-876). -/
noncomputable def readCurve (n : ℕ) (l : List ℝ) : Res (List Row × List ℝ) :=
  match takeRows n l with
  | none => .exit
  | some p => if unsorted (p.1.map Prod.fst) then .exit else .ok p

/-- Successive light curves. -/
noncomputable def readCurves : List ℕ → List ℝ → Res (List (List Row) × List ℝ)
  | [], l => .ok ([], l)
  | n :: ns, l => do
    let p ← readCurve n l
    let q ← readCurves ns p.2
    .ok (p.1 :: q.1, q.2)

/-- All data sets: for each the continuum, then the lines (src/read.c:820-879). -/
noncomputable def readSets : List (ℕ × List ℕ) → List ℝ → Res (List FSet)
  | [], _ => .ok []
  | (n, ns) :: hs, l => do
    let c ← readCurve n l
    let q ← readCurves ns c.2
    let r ← readSets hs q.2
    .ok (⟨c.1, q.1⟩ :: r)

/-- `read_data` up to the broadcast, for all modes but `nmap` (src/read.c:541-665, 803-879).  `path`
is what `buf` holds before the first line is read.  `nset` is a global and zero if there is no number;
negative numbers behave like zero. -/
noncomputable def readMain (vmap : Bool) (nums : List Char → List ℝ) (path file : List Char) :
    Res (List FSet) := do
  let l0 := fgetsBuf path file
  let nset := ((scanInt (l0.1.drop 1)).getD 0).toNat
  let ls := takeLines nset l0.1 l0.2
  let h ← headSets vmap ls.1 none
  let hs ← headCounts h.1 ls.1 h.2
  readSets hs (nums ls.2)

/-- Counting loop of the mode `nmap` for one header line (src/read.c:696-722): the numbers of points
of the lines with points.  The first pass counts them, the second one (750-778) stores them; both
run through the same fields. -/
def nmapFields : List (List Char) → Option ℤ → Res (List ℕ × Option ℤ)
  | [], np => .ok ([], np)
  | s :: ts, np =>
    match skipBlank s with
    | [] => .ok ([], some 0)
    | c :: r =>
      if c = '\n' ∨ c = '\r' then .ok ([], some 0)
      else
        match (scanInt (c :: r)).or np with
        | none => .ub
        | some v => do
          let q ← nmapFields ts (some v)
          .ok ((if 0 < v then [v.toNat] else []) ++ q.1, q.2)

/-- First pass of `nmap` over the header lines (src/read.c:685-723).  For a line without `':'` the
statement `dataset[i].nlset = 0` writes through the null pointer `dataset`, which is allocated only
afterwards. -/
def nmapCount : List (List Char) → Option ℤ → Res (ℕ × Option ℤ)
  | [], np => .ok (0, np)
  | b :: bs, np =>
    match colonTails (b.drop 1) with
    | [] => .ub
    | t :: ts => do
      let p ← nmapFields (t :: ts) np
      let q ← nmapCount bs p.2
      .ok (1 + p.1.length + q.1, q.2)

/-- Second pass of `nmap` (src/read.c:736-779): every light curve becomes a continuum. -/
def nmapCounts : List (List Char) → Option ℤ → Res (List ℕ × Option ℤ)
  | [], np => .ok ([], np)
  | b :: bs, np =>
    match scanInt (b.drop 1) with
    | none => .ub
    | some n =>
      if n < 0 then .ub
      else do
        let p ← nmapFields (colonTails (b.drop 1)) np
        let q ← nmapCounts bs p.2
        .ok (n.toNat :: (p.1 ++ q.1), q.2)

/-- `read_data` up to the broadcast for the mode `nmap` (src/read.c:666-801, 820-879).  The number of
header lines is a local variable here; storing more light curves than counted would be out of
bounds. -/
noncomputable def readNmap (nums : List Char → List ℝ) (path file : List Char) : Res (List FSet) := do
  let l0 := fgetsBuf path file
  match scanInt (l0.1.drop 1) with
  | none => .ub
  | some m => do
    let ls := takeLines m.toNat l0.1 l0.2
    let c ← nmapCount ls.1 none
    let q ← nmapCounts ls.1 c.2
    if c.1 < q.1.length then .ub
    else readSets (q.1.map fun n => (n, [])) (nums ls.2)

end Mica
