import Verif.Model.Workspace

/-! Memory safety of the shared work arrays. -/

namespace Mica

/-- Every element touched lies inside its array. -/
def InBounds (size : Buf → ℕ) (l : List Acc) : Prop :=
  ∀ a ∈ l, ∀ x, a.touches x → x < size a.buf

/-- Accesses through different pointers into the same array never meet. -/
def Separate (l : List Acc) : Prop :=
  ∀ a ∈ l, ∀ b ∈ l, a.buf = b.buf → a.area ≠ b.area → ∀ x, a.touches x → ¬ b.touches x

end Mica
