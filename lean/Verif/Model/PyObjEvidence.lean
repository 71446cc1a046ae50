import Verif.Model.PyObjects
import Verif.Model.PyEvidence

/-!
# `get_evidence` of an object that was run with the settings of another one (python/pymica/pymica.pyx)
-/

namespace Mica

/-- An object is set up (pymica.pyx:601-610, 775-779, 1023-1032, 1260-1269), then run while the C code holds the settings `g`: the
loops of src/mc_line.c:72-108, mc_pmap.c:67-80, mc_vmap.c:68-87 go through the numbers of components of `g` and write to the object's
array; src/mc_mmap.c:83 writes one entry.  `z j`: the evidence of `g.low + j` components.  The object keeps its own `low` and
`upp`. -/
def runWith (mode : Mode) (low upp : ℕ) (g : ObjSet) (z : ℕ → ℝ) : Res EvObj :=
  let o := ({} : EvObj).setup mode low upp
  writeLogz o.block (lineVals mode false g.diff z) >>= fun b => .ok { o with block := b }

end Mica
