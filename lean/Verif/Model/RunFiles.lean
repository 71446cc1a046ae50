import Verif.Model.RunPlan

/-!
# Which files a part of a run writes
-/

namespace Mica

/-- The file of weights, cdnest/dnestpostprocess.c:436-447: its name has neither tag nor suffix. -/
def weightsName : CStr := "weights.txt".toList

/-- The names inside `<dir>/data/` that a part of a run writes.  Sampling: the sample files, cdnest/dnest.c:566-602,
604-679.  Every call of the sampler, with or without sampling, ends with `dnest_postprocess` and has gone through `setup`:
posterior sample files and weights, cdnest/dnestpostprocess.c:389-447, status file opened for writing, cdnest/dnest.c:1159-1160,
list of options, cdnest/dnest.c:1474-1505.  Light curves and trends: src/mc_con.c:79-88, src/mc_line.c:632-651 (without
`pall_each.txt`), src/mc_vmap.c:675-685, src/mc_mmap.c:299-309; components: src/line_decomp.c:210-211; parameter names:
src/dnest_line.c:397-398; evidences: src/mc_con.c:149-150, src/mc_line.c:142-143.  Snapshots are left out, see C66. -/
def Act.writes : Act → List CStr
  | .load _ _ => []
  | .sample st _ _ => [SFile.sample, .sampleInfo, .levels, .state, .limits].map fun f => (OutFile.sampler st f).name
  | .posterior st _ _ => [(OutFile.sampler st .post).name, (OutFile.sampler st .postInfo).name, weightsName,
      (OutFile.status st.isSome).name, OutFile.options.name]
  | .summary _ => []
  | .recon none => [OutFile.pcon.name, OutFile.trendCon.name]
  | .recon (some n) => [(OutFile.pall n).name, (OutFile.trend n).name]
  | .decomp none => []
  | .decomp (some n) => (List.range n).map fun c => (OutFile.pline n c).name
  | .names none => []
  | .names (some n) => [(OutFile.names n).name]
  | .evidence true => [OutFile.evidenceCon.name]
  | .evidence false => [OutFile.evidence.name]

end Mica
