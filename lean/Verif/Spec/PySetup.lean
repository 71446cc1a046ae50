import Verif.Model.PySetup

/-! # What the settings of an object mean -/

namespace Mica

/-- The number that `model` has for a class (src/allvars.h:33). -/
def Mode.number : Mode → ℤ
  | .gmodel => 0 | .pmap => 1 | .vmap => 2 | .mmap => 3 | .nmap => 4

/-- The settings of an object in the form in which `read_parset` leaves them before its checks. -/
noncomputable def PyParset.cfg (p : PyParset) : Config :=
  { model := p.model, uniVar := p.uniVar, uniTf := p.uniTf, trend := p.trend, negResp := p.negResp
    lagLow := p.lagLow, lagUpp := p.lagUpp
    widthLow := if p.wLowSet then p.wLow else DBL_MAX, widthUpp := if p.wUppSet then p.wUpp else DBL_MAX
    widthLowSet := false, widthUppSet := false, ngLow := p.ngLow, ngUpp := p.ngUpp, ngDiff := 0
    typeLag := p.typeLag, strLag := if p.typeLag = 4 then p.strLag else []
    typeTf := p.typeTf, strMix := p.strMix, posivity := p.posivity, ndRec := p.ndRec }

/-- Settings that have an effect: the text of the lag prior counts for type 4 only, the text of the mixture for `mmap` only, limits
of widths if they are set. -/
noncomputable def PyParset.effective (p : PyParset) : PyParset :=
  { p with strLag := if p.typeLag = 4 then p.strLag else [], strMix := if p.model = 3 then p.strMix else []
           wLow := if p.wLowSet then p.wLow else 0, wUpp := if p.wUppSet then p.wUpp else 0 }

/-- All real numbers of an object. -/
def PyParset.reals (p : PyParset) : List ℝ :=
  [p.lagLow, p.lagUpp, p.wLow, p.wUpp, p.recLow, p.recUpp, p.opts.ptol, p.opts.newLevelFactor, p.opts.saveFactor,
   p.opts.threadFactor, p.opts.lam, p.opts.beta]

/-- `repr` of a number is a word that `atof` reads back as the same number. -/
structure ReprOk (atof : List Char → ℝ) (num : ℝ → List Char) (x : ℝ) : Prop where
  ne : num x ≠ []
  word : ∀ c ∈ num x, isSpaceC c = false
  len : (num x).length ≤ 32
  back : atof (num x) = x

end Mica
