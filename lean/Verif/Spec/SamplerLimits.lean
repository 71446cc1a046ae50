import Verif.Model.Sampler

/-!
# Specifications for limits and lagging particles
-/

namespace Mica

/-- A position lies inside limits. -/
def Lim.has {d : ℕ} (b : Lim d) (x : Fin d → ℝ) : Prop := ∀ i, (b i).1 ≤ x i ∧ x i ≤ (b i).2

/-- Limits `a` lie inside limits `b`. -/
def Lim.inside {d : ℕ} (a b : Lim d) : Prop := ∀ i, (b i).1 ≤ (a i).1 ∧ (a i).2 ≤ (b i).2

/-- Table `b` has, for every level, limits at least as wide as table `a`. -/
def LimsWiden {d : ℕ} (a b : List (Lim d)) : Prop :=
  ∀ (j : ℕ) (x : Lim d), a[j]? = some x → ∃ y, b[j]? = some y ∧ x.inside y

/-- Limits of a higher level lie inside those of a lower level. -/
def LimsNested {d : ℕ} (a : List (Lim d)) : Prop :=
  ∀ (i j : ℕ) (x y : Lim d), i ≤ j → a[i]? = some x → a[j]? = some y → y.inside x

/-- Push of a particle at `level` when `n` levels exist: 0 once levels are enough, else the distance
to the top level in units of `lam`. -/
noncomputable def pushOf (lam : ℝ) (e : Bool) (n level : ℕ) : ℝ :=
  if e then 0 else ((level : ℝ) - ((n : ℝ) - 1)) / lam

/-- A particle is lagging when its uniform number does not exceed its kill probability. -/
noncomputable def Lagging (push u : ℝ) : Prop := u ≤ (1 - 1 / (1 + Real.exp (-push - 4))) ^ 3

end Mica
