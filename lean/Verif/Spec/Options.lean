import Verif.Spec.Text
import Verif.Model.Config

/-! # What an option file says -/

namespace Mica

/-- Some line that is not a comment sets `t` to `v`; comments start with `%` or `#`. -/
def OptLine (ls : List (List Char)) (t : String) (v : List Char) : Prop :=
  ∃ i, EntryAt (fun ch => ch == '%' || ch == '#') ls i t.toList v

/-- The real option named `t` has the value `x`: that of its line, or the default `d`. -/
def RealOpt (atof : List Char → ℝ) (ls : List (List Char)) (t : String) (d x : ℝ) : Prop :=
  (∀ v, OptLine ls t v → x = atof v) ∧ ((∀ v, ¬ OptLine ls t v) → x = d)

/-- The same for an option that is a whole number: the fractional part is cut off. -/
def NatOpt (atof : List Char → ℝ) (ls : List (List Char)) (t : String) (d : ℕ) (x : ℤ) : Prop :=
  (∀ v, OptLine ls t v → x = ⌊atof v⌋₊) ∧ ((∀ v, ¬ OptLine ls t v) → x = d)

/-- `atof` reads decimal numbers with and without a point, and a leading minus sign. -/
structure ReadsDecimals (atof : List Char → ℝ) : Prop where
  whole : ∀ n : ℕ, atof (Nat.toDigits 10 n) = n
  point : ∀ (n : ℕ) (ds : List Char), (∀ c ∈ ds, c.isDigit = true) →
    atof (Nat.toDigits 10 n ++ '.' :: ds) = n + (digitsVal ds : ℝ) / 10 ^ ds.length
  minus : ∀ c s, c.isDigit = true → atof ('-' :: c :: s) = - atof (c :: s)

/-- The line is a single word. -/
def OneWord (l : List Char) : Prop :=
  ∃ a w b, l = a ++ (w ++ b) ∧ (∀ c ∈ a, isSpaceC c = true) ∧ w ≠ [] ∧ (∀ c ∈ w, isSpaceC c = false) ∧
    ∀ c ∈ b, isSpaceC c = true

/-- Options that `printf` writes on lines that fit the buffers. -/
def Printable (o : SampOpts) : Prop :=
  (∀ z ∈ [o.maxSaves, o.numParticles, o.maxLevels], |z| < 2 ^ 31) ∧
  (∀ x ∈ [o.ptol, o.newLevelFactor, o.saveFactor, o.threadFactor, o.lam, o.beta], |x| < (10 : ℝ) ^ 150)

end Mica
