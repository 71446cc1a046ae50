import Verif.Model.Flat

/-! What is said about programs on memory. -/

namespace Mica

/-- The piece of memory of `len` elements at `p`. -/
def reg (p : DPtr) (len : ℕ) (A : Arr) (x : ℕ) : Prop := A = p.arr ∧ p.off ≤ x ∧ x < p.off + len

/-- Memory differs at most where `R` holds. -/
def Only (R : Arr → ℕ → Prop) (M M' : Mem) : Prop := ∀ A x, ¬ R A x → M' A x = M A x

/-- The computation returns, nothing outside of the piece of `len` elements at `p` is changed, and the new memory satisfies
`P`. -/
def Leaves (r : Res Mem) (M : Mem) (p : DPtr) (len : ℕ) (P : Mem → Prop) : Prop :=
  ∃ M', r = .ok M' ∧ Only (reg p len) M M' ∧ P M'

/-- Sizes of all arrays of a run: the work arrays are allocated for the largest data sets, the flux arrays as read. -/
def memSizes (nq : ℕ) (ds : List DSet) : Arr → ℕ
  | .sh b => sharedSize nq (maxima (ds.map fun d => ⟨d.con.n, d.line.map LC.n⟩)) b
  | .flux k => (ds[k]?.map fun d => d.con.n).getD 0
  | .fall k => (ds[k]?.map fun d => d.nall).getD 0

/-- `ncon_max`. -/
def nconMax (ds : List DSet) : ℕ := (maxima (ds.map fun d => ⟨d.con.n, d.line.map LC.n⟩)).ncon

/-- Memory holds the fluxes of the data sets; nothing is said about the work arrays. -/
def HoldsFlux (ds : List DSet) (M : Mem) : Prop :=
  ∀ k d, ds[k]? = some d → (∀ i < d.con.n, M (.flux k) i = d.con.f i) ∧ ∀ i < d.nall, M (.fall k) i = d.fall i

end Mica
