import Verif.Model.Line

/-! # What the joint covariance matrix should contain -/

namespace Mica

/-- The light curve and the index within it of the `p`-th point of a list of light curves. -/
def locate : List LC → ℕ → ℕ × ℕ
  | [], p => (0, p)
  | a :: l, p => if p < a.n then (0, p) else ((locate l (p - a.n)).1 + 1, (locate l (p - a.n)).2)

/-- Light curve number `s` (0 the continuum, then the lines). -/
def DSet.ser (d : DSet) (s : ℕ) : LC := d.series.getD s ⟨0, fun _ => 0, fun _ => 0, fun _ => 0, 0⟩

/-- Covariance of the signals at point `i` of light curve `s` and point `j` of light curve `s'`, in units of
`sigma^2`.  Within a line the later point comes first, between lines the earlier line. -/
noncomputable def sigCov (K : Kernels) (tau : ℝ) (d : DSet) (x y : ℕ × ℕ) : ℝ :=
  match x.1, y.1 with
  | 0, 0 => Real.exp (-|(d.ser 0).t x.2 - (d.ser 0).t y.2| / tau)
  | 0, s + 1 => K.Slc ((d.ser 0).t x.2) ((d.ser (s + 1)).t y.2) s
  | s + 1, 0 => K.Slc ((d.ser 0).t y.2) ((d.ser (s + 1)).t x.2) s
  | s + 1, s' + 1 =>
    if s = s' then
      if y.2 ≤ x.2 then K.Sll ((d.ser (s + 1)).t x.2) ((d.ser (s + 1)).t y.2) s
      else K.Sll ((d.ser (s + 1)).t y.2) ((d.ser (s + 1)).t x.2) s
    else if s < s' then K.Sll2 ((d.ser (s + 1)).t x.2) ((d.ser (s' + 1)).t y.2) s s'
    else K.Sll2 ((d.ser (s' + 1)).t y.2) ((d.ser (s + 1)).t x.2) s' s

/-- Noise variance of point `x` in units of `sigma^2`. -/
noncomputable def noiseVar (d : DSet) (pm : ℕ → ℝ) (idxc : ℕ) (idxl : ℕ → ℕ) (x : ℕ × ℕ) : ℝ :=
  let sigma := pmSigma pm idxc
  let se := match x.1 with
    | 0 => pmSyserr pm idxc d.con.em
    | s + 1 => pmSyserr pm (idxl s) (d.ser (s + 1)).em
  ((d.ser x.1).fe x.2 ^ 2 + se ^ 2) / sigma ^ 2

/-- The entry of the covariance matrix for two points, in units of `sigma^2`. -/
noncomputable def covEntry (K : Kernels) (d : DSet) (pm : ℕ → ℝ) (idxc : ℕ) (idxl : ℕ → ℕ) (x y : ℕ × ℕ) : ℝ :=
  sigCov K (pmTau pm idxc) d x y + if x = y then noiseVar d pm idxc idxl x else 0

end Mica
