import Verif.Model.RunPlan
import Mathlib.Analysis.SpecialFunctions.Exp

/-!
# All options of `dnest()` and the variables they are kept in

`Model/RunPlan.lean` has the options that MICA's own drivers hand over; here are all of them, together with the
variables of the process that keep their values from one call to the next (cdnest/dnestvars.c:56-69).  `atof` is a
parameter with values in the reals; the program calls `dnest()` on the root task, the other tasks receive the
flags by broadcast (cdnest/dnest.c:151-155).
-/

namespace Mica

/-- The variables, cdnest/dnestvars.c:56, 67-69. -/
structure LibVars where
  temp : ℝ := 1
  restart : Bool := false
  postprc : Bool := false
  sampleInfo : Bool := false
  limits : Bool := false
  restartFile : CStr := []
  save : CStr := []
  suffix : CStr := []
  tag : CStr := []
  compression : ℝ := 2.7182818

/-- What is set back at the beginning of a call, cdnest/dnest.c:71-79. -/
def libReset (g : LibVars) : LibVars :=
  { g with temp := 1, restart := false, postprc := false, sampleInfo := false, limits := false,
           save := "restart_dnest.txt".toList, suffix := [], tag := [] }

open Classical in
/-- The `switch`, cdnest/dnest.c:86-148. -/
noncomputable def libSwitch (atof : CStr → ℝ) (g : LibVars) : Char × Option CStr → Res LibVars
  | ('r', some f) => copyStr 156 f >>= fun s => .ok { g with restart := true, restartFile := s }
  | ('s', some f) => copyStr 156 f >>= fun s => .ok { g with save := s }
  | ('p', _) => .ok { g with postprc := true, temp := 1 }
  | ('t', some f) =>
    if atof f = 0 then .exit else if atof f < 1 then .exit else .ok { g with temp := atof f }
  | ('c', _) => .ok { g with sampleInfo := true }
  | ('l', _) => .ok { g with limits := true }
  | ('x', some f) => copyStr 156 f >>= fun s => .ok { g with suffix := s }
  | ('g', some f) => copyStr 156 f >>= fun s => .ok { g with tag := s }
  | ('m', some f) => if Real.exp 1 < atof f then .exit else .ok { g with compression := atof f }
  | (_, _) => .ok g

/-- The arguments of one call, cdnest/dnest.c:68-150. -/
noncomputable def libCall (atof : CStr → ℝ) (g : LibVars) (argv : List CStr) : Res LibVars :=
  getoptLoop dnestOpts (libSwitch atof) ((argv.map List.length).sum + 1) (GState.init argv) (libReset g) >>= fun r => .ok r.1

/-- Several calls in one process. -/
noncomputable def libCalls (atof : CStr → ℝ) : LibVars → List (List CStr) → Res LibVars
  | g, [] => .ok g
  | g, a :: l => libCall atof g a >>= fun g' => libCalls atof g' l

/-- What a call does, cdnest/dnest.c:157-186. -/
inductive LibAction
  /-- only `dnest_postprocess` with the temperature -/
  | post (temp : ℝ)
  /-- `dnest_run` (continuing the run kept in the file, if there is one) and `dnest_postprocess` -/
  | run (from? : Option CStr) (temp : ℝ)

@[inherit_doc LibAction]
noncomputable def libAction (g : LibVars) : LibAction :=
  if g.postprc then .post g.temp else if g.sampleInfo then .post g.temp
  else .run (if g.restart then some g.restartFile else none) g.temp

end Mica
