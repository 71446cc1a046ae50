import Verif.Spec.InitLaw

/-!
# Specification for C126: data sets that share nothing

The data sets of a run are divided into the first `m` and the others.  `firstSets`/`lastSets` are the configurations of
runs on the two parts: they keep all options and ranges, and the results of the continuum stage for their own data sets.
-/

open MeasureTheory Set
open scoped ENNReal

namespace Mica

namespace LineCfg

/-- A run on the first `m` data sets. -/
def firstSets (c : LineCfg) (m : ℕ) : LineCfg := { c with nl := c.nl.take m }

/-- A run on the data sets behind the first `m`. -/
def lastSets (c : LineCfg) (m : ℕ) : LineCfg :=
  { c with nl := c.nl.drop m, varPar := fun q => c.varPar (3 * m + q), varStd := fun q => c.varStd (3 * m + q),
           gapCenter := fun i => c.gapCenter (m + i), gapWidth := fun i => c.gapWidth (m + i) }

/-- Where parameter `i` of the run on the first `m` data sets is found in the joint run: three parameters of each
data set come first, then the parameters of all lines. -/
def placeFirst (c : LineCfg) (m i : ℕ) : ℕ := if i < 3 * m then i else i + 3 * (c.nl.length - m)

/-- The same for the run on the other data sets. -/
def placeLast (c : LineCfg) (m i : ℕ) : ℕ :=
  if i < 3 * (c.nl.length - m) then 3 * m + i else i + 3 * m + (1 + 3 * c.ng) * (c.nl.take m).sum

end LineCfg

/-- The parameters of the two parts of a joint run. -/
noncomputable def partsOf (c : LineCfg) (m : ℕ) (x : Fin c.numParams → ℝ) :
    (Fin (c.firstSets m).numParams → ℝ) × (Fin (c.lastSets m).numParams → ℝ) :=
  (fun i => extendVec x (c.placeFirst m i), fun i => extendVec x (c.placeLast m i))

/-- The evidence of a likelihood `exp ∘ L` under the (normalised) prior of the line model. -/
noncomputable def lineEvidence (c : LineCfg) (L : (Fin c.numParams → ℝ) → ℝ) : ℝ≥0∞ :=
  ∫⁻ x, ENNReal.ofReal (Real.exp (L x)) ∂normalised (linePrior c)

/-- The posterior distribution. -/
noncomputable def posteriorLaw (c : LineCfg) (L : (Fin c.numParams → ℝ) → ℝ) : Measure (Fin c.numParams → ℝ) :=
  normalised ((linePrior c).withDensity fun x => ENNReal.ofReal (Real.exp (L x)))

end Mica
