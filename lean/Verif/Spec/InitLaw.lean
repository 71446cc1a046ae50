import Verif.Spec.Invariance

/-! # Specification for C120: the distribution of the first particles -/

open MeasureTheory Set
open scoped ENNReal

namespace Mica

/-- The random numbers of an initial draw of the line model, from a uniform and a Gaussian number for each parameter. -/
def drawOf {n : ℕ} (v : ℕ → ℕ → ℝ × ℝ) (r : Fin n → ℝ × ℝ) : LineDraw :=
  ⟨extendVec fun i => (r i).2, extendVec fun i => (r i).1, v⟩

/-- The parameters after a draw (0 if it does not complete). -/
noncomputable def startVec (c : LineCfg) (mem : ℕ → ℝ) (v : ℕ → ℕ → ℝ × ℝ) (r : Fin c.numParams → ℝ × ℝ) : Fin c.numParams → ℝ :=
  match c.fromPrior (drawOf v r) mem with
  | .ok pm => fun i => pm i
  | _ => fun _ => 0

/-- The law of the first particles of the line model: independent uniform and standard Gaussian numbers. -/
noncomputable def startLaw (c : LineCfg) (mem : ℕ → ℝ) (v : ℕ → ℕ → ℝ × ℝ) : Measure (Fin c.numParams → ℝ) :=
  (Measure.pi fun _ : Fin c.numParams => unif.prod (ProbabilityTheory.gaussianReal 0 1)).map (startVec c mem v)

/-- A measure scaled to total mass 1. -/
noncomputable def normalised {α : Type} [MeasurableSpace α] (μ : Measure α) : Measure α := (μ univ)⁻¹ • μ

end Mica
