import Verif.Model.Res
import Mathlib.Data.Real.Basic
import Mathlib.Data.List.Basic

/-!
# Text input: the C library functions the readers rely on

A file is a list of characters.  `fgets`, `sscanf("%s…")`, `sscanf("%d")` and `strchr` are written
out following the C standard; `atof`/`%lf` are parameters of the models that use them.  A text
contains no zero bytes.
-/

namespace Mica

/-- `isspace` in the C locale. -/
def isSpaceC (c : Char) : Bool :=
  c == ' ' || c == '\t' || c == '\n' || c == '\x0b' || c == '\x0c' || c == '\r'

/-- `fgets(str, n+1, fp)`: at most `n` characters, up to and including the first newline; the text
read and the rest of the file. -/
def fgetsC : ℕ → List Char → List Char × List Char
  | 0, s => ([], s)
  | _ + 1, [] => ([], [])
  | n + 1, c :: s => if c = '\n' then ([c], s) else (c :: (fgetsC n s).1, (fgetsC n s).2)

theorem fgetsC_append (n : ℕ) (s : List Char) : (fgetsC n s).1 ++ (fgetsC n s).2 = s := by
  induction n generalizing s with
  | zero => rfl
  | succ n ih =>
    cases s with
    | nil => rfl
    | cons c s =>
      simp only [fgetsC]
      split
      · rfl
      · simp [ih]

theorem fgetsC_rest_lt (n : ℕ) (c : Char) (s : List Char) :
    (fgetsC (n + 1) (c :: s)).2.length < (c :: s).length := by
  have h := congrArg List.length (fgetsC_append (n + 1) (c :: s))
  rw [List.length_append] at h
  have : 0 < (fgetsC (n + 1) (c :: s)).1.length := by
    simp only [fgetsC]; split <;> simp
  omega

/-- The pieces that successive calls `fgets(str, n+2, fp)` deliver until the end of the file. -/
def fgetsAll (n : ℕ) : List Char → List (List Char)
  | [] => []
  | c :: s => (fgetsC (n + 1) (c :: s)).1 :: fgetsAll n (fgetsC (n + 1) (c :: s)).2
termination_by s => s.length
decreasing_by exact fgetsC_rest_lt n c s

/-- Rest of the text after leading white space. -/
def skipSpace (s : List Char) : List Char := s.dropWhile isSpaceC

/-- The next `%s`: the longest run without white space, and the rest. -/
def nextWord (s : List Char) : List Char × List Char :=
  ((skipSpace s).takeWhile fun c => !isSpaceC c, (skipSpace s).dropWhile fun c => !isSpaceC c)

/-- `sscanf(str, "%s%s%s", buf1, buf2, buf3)`: the first two words if there are at least two; the
third one is never used. -/
def twoWords (s : List Char) : Option (List Char × List Char) :=
  if (nextWord s).1 = [] then none
  else if (nextWord (nextWord s).2).1 = [] then none
  else some ((nextWord s).1, (nextWord (nextWord s).2).1)

/-- `strchr(s, c)`: the text from the first occurrence of `c` on. -/
def strchr (s : List Char) (c : Char) : Option (List Char) :=
  match s.dropWhile (fun x => !(x == c)) with
  | [] => none
  | l => some l

/-- Value of a run of digits. -/
def digitsVal (l : List Char) : ℕ := l.foldl (fun a c => a * 10 + (c.toNat - '0'.toNat)) 0

/-- Unsigned part of `%d`: at least one digit. -/
def scanNat (s : List Char) : Option ℕ :=
  match s.takeWhile Char.isDigit with
  | [] => none
  | d => some (digitsVal d)

/-- `sscanf(s, "%d", &n)`: leading white space, an optional sign, digits.  Values out of the range of
`int` are not considered. -/
def scanInt (s : List Char) : Option ℤ :=
  match skipSpace s with
  | '-' :: r => (scanNat r).map fun n => -(n : ℤ)
  | '+' :: r => (scanNat r).map fun n => (n : ℤ)
  | r => (scanNat r).map fun n => (n : ℤ)

end Mica
