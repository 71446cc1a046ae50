import Verif.Model.Round

/-!
# What a rounding to nearest is
-/

namespace Mica

/-- `rd` rounds every real to a nearest member of `F`; which one is taken at a tie is left open, so
this covers round-to-nearest-even and every other tie rule. -/
structure Nearest (F : Set ℝ) (rd : ℝ → ℝ) : Prop where
  mem : ∀ x, rd x ∈ F
  near : ∀ x, ∀ y ∈ F, |rd x - x| ≤ |y - x|

end Mica
