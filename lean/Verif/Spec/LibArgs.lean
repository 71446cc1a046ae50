import Verif.Spec.CmdLine
import Verif.Model.LibArgs

/-!
# What options of `dnest()` ask for
-/

namespace Mica

/-- The last value given for a letter. -/
def lastOf (es : List (Char × Option CStr)) (c : Char) : Option CStr :=
  (es.filterMap fun e => if e.1 = c then e.2 else none).getLast?

/-- A letter is given. -/
def given (es : List (Char × Option CStr)) (c : Char) : Bool := es.any fun e => e.1 == c

/-- What the options ask for: a letter given sets its flag, of several values of a letter the last counts, and
what is not given has its default (cdnest/dnestvars.c:67-69, cdnest/dnest.c:71-79). -/
noncomputable def libAsked (atof : CStr → ℝ) (es : List (Char × Option CStr)) : LibVars where
  temp := (lastOf es 't').elim 1 atof
  restart := given es 'r'
  postprc := given es 'p'
  sampleInfo := given es 'c'
  limits := given es 'l'
  restartFile := (lastOf es 'r').getD []
  save := (lastOf es 's').getD "restart_dnest.txt".toList
  suffix := (lastOf es 'x').getD []
  tag := (lastOf es 'g').getD []
  compression := (lastOf es 'm').elim 2.7182818 atof

/-- Values that are taken: temperatures of at least 1, compressions of at most `e`. -/
def LibValid (atof : CStr → ℝ) (es : List (Char × Option CStr)) : Prop :=
  ∀ v, (('t', some v) ∈ es → 1 ≤ atof v) ∧ (('m', some v) ∈ es → atof v ≤ Real.exp 1)

end Mica
