import Verif.Model.PyObjEvidence
import Verif.Props.PyEvidence
import Verif.Props.PyObjects

/-!
# C153, evidences: what `get_evidence` of an object hands out after a run with the settings of another one

By `C153_other_settings` this is what happens in the session setup of `i`, setup of `j`, run of `i`.
-/

namespace Mica

/-- With as many numbers of components in both, every evidence is handed out under the number of components of the wrong object:
`z j` belongs to `low' + j` components and is handed out as `logz_<low + j>`. -/
theorem C153_evidence_label (low upp low' upp' : ℕ) (data' : CStr) (hle : low ≤ upp) (hn : upp' + 1 - low' = upp + 1 - low)
    (z : ℕ → ℝ) :
    ∃ o, runWith .gmodel low upp ⟨low', upp' + 1 - low', data'⟩ z = .ok o ∧
      o.evidence = .ok ((List.range (upp + 1 - low)).map fun j => ("logz_".toList ++ dec (low + j), z j)) := by
  have h1 : ¬ upp + 1 < low := by omega
  let o : EvObj := { low := low, upp := upp, diff := upp + 1 - low
                     block := some (((List.range (upp + 1 - low)).map z).map some ++ []) }
  refine ⟨o, ?_, evidence_eq (o := o) rfl⟩
  simp [runWith, EvObj.setup, h1, writeLogz, lineVals, hn, o]

/-- One component asked for, three found: the evidence of three components is handed out as that of one. -/
example : (1 : ℕ) ≤ 1 ∧ (3 : ℕ) + 1 - 3 = 1 + 1 - 1 := by decide

/-- With fewer numbers of components in the other one, `get_evidence` reads entries that were never written. -/
theorem C153_evidence_unwritten (low upp low' upp' : ℕ) (data' : CStr) (hn : upp' + 1 - low' < upp + 1 - low) (z : ℕ → ℝ) :
    ∃ o, runWith .gmodel low upp ⟨low', upp' + 1 - low', data'⟩ z = .ok o ∧ o.evidence = .ub := by
  have h1 : ¬ upp + 1 < low := by omega
  refine ⟨{ low := low, upp := upp, diff := upp + 1 - low,
            block := some (((List.range (upp' + 1 - low')).map z).map some ++
              List.replicate (upp + 1 - low - (upp' + 1 - low')) none) }, ?_, ?_⟩
  · simp only [runWith, EvObj.setup, writeLogz, lineVals, reduceCtorEq, if_false, if_neg h1, List.length_map, List.length_range,
      List.length_replicate, if_pos hn.le, Res.ok_bind, List.drop_replicate, Bool.false_eq_true]
  · refine entries_ub (j := upp' + 1 - low') ?_ (List.mem_range.2 hn)
    have : (List.replicate (upp + 1 - low - (upp' + 1 - low')) (none : Option ℝ))[0]? = some none := by
      rw [List.getElem?_replicate, if_pos (by omega)]
    simp [EvObj.entry, List.getElem?_append_right, this]

example : (2 : ℕ) + 1 - 2 < 3 + 1 - 1 := by decide

/-- With more, the run itself writes past the end (the same as `C153_overrun`). -/
theorem C153_evidence_overrun (low upp low' upp' : ℕ) (data' : CStr) (hle : low ≤ upp) (hn : upp + 1 - low < upp' + 1 - low')
    (z : ℕ → ℝ) : runWith .gmodel low upp ⟨low', upp' + 1 - low', data'⟩ z = .ub := by
  have h1 : ¬ upp + 1 < low := by omega
  have h2 : ¬ upp' + 1 - low' ≤ upp + 1 - low := by omega
  simp only [runWith, EvObj.setup, writeLogz, lineVals, reduceCtorEq, if_false, if_neg h1, List.length_map, List.length_range,
    List.length_replicate, if_neg h2, Res.ub_bind]

example : (1 : ℕ) ≤ 1 ∧ (1 : ℕ) + 1 - 1 < 3 + 1 - 1 := by decide

end Mica
