import Verif.Model.Sampler

/-!
# The automatic rule for the number of levels, stated on the thresholds only
-/

namespace Mica

/-- Threshold of level `j` (0 if there is no such level). -/
noncomputable def thresholdAt (ls : List Level) (j : ℕ) : ℝ :=
  match ls[j]? with
  | some l => l.logl.value
  | none => 0

/-- `n` gaps between neighbouring thresholds are looked at: all of them but at most 20 for up to 80
levels, and the whole part of `√(5 size)` of them for more. -/
def GapsChecked (size n : ℕ) : Prop :=
  (size ≤ 80 ∧ n = min 20 (size - 1)) ∨ (80 < size ∧ n * n ≤ 5 * size ∧ 5 * size < (n + 1) * (n + 1))

/-- The likelihood has become flat: the mean of the last gaps is below the tolerance and each of them
below 1.1 tolerances. -/
def Flattened (tol : ℝ) (ls : List Level) : Prop :=
  ∃ n, GapsChecked ls.length n ∧
    (thresholdAt ls (ls.length - 1) - thresholdAt ls (ls.length - 1 - n)) / n < tol ∧
    ∀ j, ls.length - 1 - n ≤ j → j + 1 < ls.length → thresholdAt ls (j + 1) - thresholdAt ls j < 1.1 * tol

end Mica
