import Verif.Model.Postprocess
import Verif.Model.SamplerFl

/-!
# The evidence from likelihoods that need not be numbers (cdnest/dnestpostprocess.c)

`Verif/Model/Postprocess.lean` takes the saved log-likelihoods to be real numbers.  Here they are
doubles.  Only the part after the prior masses of the samples are known is modelled (lines 308-339);
the masses are finite numbers.
-/

namespace Mica

open Classical

namespace Fl

/-- The sign of a number, as used by a product with an infinity. -/
noncomputable def timesInf (x : ℝ) (neg : Bool) : Fl :=
  if x = 0 then nan else if 0 < x then inf neg else inf (!neg)

/-- `a * b`. -/
noncomputable def mul : Fl → Fl → Fl
  | fin x, fin y => fin (x * y)
  | fin x, inf s => timesInf x s
  | inf s, fin y => timesInf y s
  | inf s, inf t => inf (s != t)
  | nan, _ => nan
  | _, nan => nan

/-- `log(a)` of libm. -/
noncomputable def log : Fl → Fl
  | fin x => if 0 < x then fin (Real.log x) else if x = 0 then inf true else nan
  | inf false => inf false
  | inf true => nan
  | nan => nan

/-- `fmax(a, b)` of libm: a NaN argument is ignored. -/
noncomputable def fmax (a b : Fl) : Fl :=
  match a, b with
  | nan, b => b
  | a, nan => a
  | a, b => if lt a b then b else a

/-- A finite number. -/
def isFin : Fl → Prop
  | fin _ => True
  | _ => False

end Fl

/-- `logsumexp`, cdnest/dnestpostprocess.c:44-60. -/
noncomputable def fLogsumexp (x : List Fl) : Res Fl :=
  match x with
  | [] => .ub
  | x0 :: _ =>
    let m := x.foldl Fl.fmax x0
    .ok (Fl.add (Fl.log (x.foldl (fun s y => Fl.add s (Fl.exp (Fl.sub y m))) (.fin 0))) m)

/-- Normalisation and evidence, cdnest/dnestpostprocess.c:311-329, as `evidence`. -/
noncomputable def fEvidence (logp : List ℝ) (logl : List Fl) : Res (Fl × Fl × Fl × List Fl) := do
  let s ← logsumexp logp
  let lp := logp.map (· - s)
  let lP := List.zipWith (fun a b => Fl.add (.fin a) b) lp logl
  let z ← fLogsumexp lP
  let lP2 := lP.map (Fl.sub · z)
  let h := (lP2.zip logl).foldl (fun a e => Fl.add a (Fl.mul (Fl.exp e.1) e.2)) (Fl.neg z)
  let e := lP2.foldl (fun a x => Fl.add a (Fl.mul (Fl.neg x) (Fl.exp x))) (.fin 0)
  .ok (z, h, Fl.exp e, lP2)

/-- `int num_ps = moreSample*ESS`, cdnest/dnestpostprocess.c:339: converting NaN or an infinity to
`int` is undefined.  Simplification: no overflow of `int`. -/
noncomputable def fNumPs : Fl → Res ℕ
  | .fin x => .ok ⌊x⌋₊
  | _ => .ub

end Mica
