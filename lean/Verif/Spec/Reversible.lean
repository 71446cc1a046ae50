import Verif.Model.LineParams
import Mathlib.Algebra.BigOperators.Group.Finset.Basic

/-! # Specification for C78: the prior the line model's moves have to leave invariant -/

namespace Mica

/-- Where the parameters of line `j` of data set `i` start. -/
def lineStart (c : LineCfg) (i j : ℕ) : ℕ :=
  (if c.uniVar then 3 else 3 * c.nl.length) +
    (1 + 3 * c.ng) * ((if c.uniTf = 1 then 0 else (c.nl.take i).sum) + j)

/-- How many lines with lags of their own are booked under data set `i`: with one common transfer
function (`uniTf = 1`) the lines are those of the longest data set, booked under the last one; with
common lags (`uniTf = 2`) those of the first data set. -/
def ownLines (c : LineCfg) (i : ℕ) : ℕ :=
  if c.uniTf = 1 then (if i + 1 = c.nl.length then c.nl.foldl max 0 else 0)
  else if c.uniTf = 2 then (if i = 0 then c.nl.getD 0 0 else 0)
  else c.nl.getD i 0

open Classical in
/-- The penalty on the lag and the (logarithmic) width of a component of data set `i`: 100 if the
positive-lag option is on and the response reaches below zero; with the seasonal-gap option up to
100 for a narrow response in the gap. -/
noncomputable def compPenalty (c : LineCfg) (i : ℕ) (lag lw : ℝ) : ℝ :=
  let centre := if c.typeTf = 2 then lag + Real.exp lw else lag
  let dist := |centre - 365.25 * ⌊centre / 365.25⌋ - c.gapCenter i|
  (if c.posivity ∧
      lag < (if c.typeTf = 0 then 3 else if c.typeTf = 1 then 1 else 0) * Real.exp lw
    then 100 else 0) +
  (if c.gap ∧ dist < c.gapWidth i ∧ Real.exp lw < c.gapWidth i
    then 100 * (1 - (dist / c.gapWidth i) ^ 2) else 0)

/-- Logarithm of the prior density (up to a constant) on the region the prior ranges allow: Gaussian
in the variability parameters, flat in the rest, times the penalties. -/
noncomputable def logPrior (c : LineCfg) (pm : ℕ → ℝ) : ℝ :=
  (∑ i ∈ Finset.range (if c.uniVar then 3 else 3 * c.nl.length),
      -((pm i - c.varPar i) ^ 2 / (2 * c.varStd i ^ 2))) -
  ∑ i ∈ Finset.range c.nl.length, ∑ j ∈ Finset.range (ownLines c i), ∑ k ∈ Finset.range c.ng,
    compPenalty c i (pm (lineStart c i j + (3 * k + 2))) (pm (lineStart c i j + (3 * k + 3)))

/-- A particle strictly inside its prior: free parameters in their ranges (below the upper end),
with the ordered lag prior no two lags of a line equal, and shared lags and widths shared. -/
structure MoveState (c : LineCfg) (pm : ℕ → ℝ) : Prop where
  range : ∀ i < c.numParams, c.fix i = none → (c.rng i).1 ≤ pm i ∧ pm i < (c.rng i).2
  order : c.typeLag = 0 → ∀ i j k, j < c.nl.getD i 0 → k + 1 < c.ng →
    pm (c.idxLine i j + 1 + k * 3 + 1) < pm (c.idxLine i j + 1 + (k + 1) * 3 + 1)
  copy : c.uniTf = 2 → ∀ i j k t, j < c.nl.getD i 0 → k < c.ng → t = 1 ∨ t = 2 →
    pm (c.idxLine i j + 1 + k * 3 + t) = pm (c.idxLine 0 j + 1 + k * 3 + t)

end Mica
