import Verif.Model.PyEvidence
import Mathlib.Tactic.NormNum

/-!
# C145: `get_evidence` hands out the evidences of the last computation
-/

namespace Mica

/-- Object and block fit together, as they do from the first `setup` on. -/
structure EvObj.Ready (o : EvObj) : Prop where
  diff : o.diff = o.upp + 1 - o.low
  block : o.low ≤ o.upp → ∃ b, o.block = some b ∧ b.length = o.diff

theorem ready_setup {mode : Mode} (h : mode ≠ .nmap) (low upp : ℕ) (o : EvObj) : (o.setup mode low upp).Ready := by
  unfold EvObj.setup
  rw [if_neg h]
  refine ⟨rfl, fun hle => ?_⟩
  refine ⟨_, if_neg (by have : _ ≤ _ := hle; dsimp only at this ⊢; omega), by simp⟩

theorem writeLogz_length {b b' : List (Option ℝ)} {vals : List ℝ} (h : writeLogz (some b) vals = .ok (some b')) :
    b'.length = b.length := by
  unfold writeLogz at h
  simp only at h
  split at h
  · rename_i hl
    injection h with h
    injection h with h
    subst h
    simp
    omega
  · simp at h

theorem ready_call {mode : Mode} {c : PyCall} {z : ℕ → ℝ} {zc : ℝ} {o o' : EvObj} (hr : o.Ready) (h : o.call mode c z zc = .ok o') :
    o'.Ready ∧ o'.low = o.low ∧ o'.upp = o.upp ∧ o'.flags = c.flags mode o.flags := by
  unfold EvObj.call at h
  simp only at h
  by_cases hn : mode = .nmap
  · rw [if_pos hn] at h
    split at h
    · rename_i hc
      injection h with h
      subst h
      refine ⟨hr, rfl, rfl, ?_⟩
      rcases hc with rfl | rfl <;> simp [PyCall.flags, hn]
    · injection h with h
      subst h
      exact ⟨⟨hr.diff, hr.block⟩, rfl, rfl, rfl⟩
  · rw [if_neg hn] at h
    obtain ⟨b, hb, h⟩ := Res.bind_eq_ok.1 h
    injection h with h
    subst h
    refine ⟨⟨hr.diff, fun hle => ?_⟩, rfl, rfl, rfl⟩
    obtain ⟨b0, h0, hl⟩ := hr.block hle
    rw [h0] at hb
    have : ∃ b', b = some b' := by
      unfold writeLogz at hb
      simp only at hb
      split at hb
      · injection hb with hb
        exact ⟨_, hb.symm⟩
      · simp at hb
    obtain ⟨b', rfl⟩ := this
    exact ⟨b', rfl, (writeLogz_length hb).trans hl⟩

theorem ready_run {mode : Mode} (hm : mode ≠ .nmap) {ops : List EvOp} {o o' : EvObj} (h : evRun mode ops o = .ok o')
    (hs : o.Ready ∨ ∃ low upp, EvOp.setup low upp ∈ ops) : o'.Ready := by
  induction ops generalizing o with
  | nil =>
    simp only [evRun, Res.ok.injEq] at h
    subst h
    rcases hs with hs | ⟨_, _, hs⟩
    · exact hs
    · simp at hs
  | cons op ops ih =>
    cases op with
    | setup low upp => exact ih h (.inl (ready_setup hm low upp o))
    | call c z zc =>
      obtain ⟨o1, h1, h2⟩ := Res.bind_eq_ok.1 h
      refine ih h2 ?_
      rcases hs with hs | ⟨l, u, hs⟩
      · exact .inl (ready_call hs h1).1
      · exact .inr ⟨l, u, by simpa using hs⟩

theorem entries_ok {o : EvObj} {f : ℕ → CStr × ℝ} {js : List ℕ} (h : ∀ j ∈ js, o.entry j = .ok (f j)) :
    evEntries o js = .ok (js.map f) := by
  induction js with
  | nil => rfl
  | cons j js ih =>
    rw [evEntries, h j (by simp), ih fun i hi => h i (by simp [hi])]
    rfl

/-- The dictionary read from a block all of whose entries were written. -/
theorem evidence_eq {o : EvObj} {z : ℕ → ℝ} {b : List (Option ℝ)}
    (hb : o.block = some (((List.range (o.upp + 1 - o.low)).map z).map some ++ b)) :
    o.evidence = .ok ((List.range (o.upp + 1 - o.low)).map fun j => ("logz_".toList ++ dec (o.low + j), z j)) := by
  refine entries_ok fun j hj => ?_
  have hj := List.mem_range.1 hj
  unfold EvObj.entry
  rw [hb, Option.bind_some, List.getElem?_append_left (by simpa using hj)]
  simp [hj]

/-- The lines of `evidence.txt` and the dictionary of `get_evidence`, for the evidences `z 0`, `z 1`, … -/
def evTable (low upp : ℕ) (z : ℕ → ℝ) : List (ℕ × ℝ) := (List.range (upp + 1 - low)).map fun j => (low + j, z j)

def evDict (t : List (ℕ × ℝ)) : List (CStr × ℝ) := t.map fun p => ("logz_".toList ++ dec p.1, p.2)

theorem zipIdx_range {β : Type} (n : ℕ) (z : ℕ → ℝ) (f : ℝ × ℕ → β) :
    ((List.range n).map z).zipIdx.map f = (List.range n).map fun j => f (z j, j) := by
  apply List.ext_getElem
  · simp
  · intro i _ _
    simp

/-- What a call leaves behind, whatever the flags. -/
theorem call_gives {mode : Mode} (hm : mode ≠ .nmap) {o : EvObj} (hr : o.Ready) (hle : o.low ≤ o.upp)
    (hmix : mode = .mmap → o.low = o.upp) (c : PyCall) (z : ℕ → ℝ) (zc : ℝ) :
    ∃ o', o.call mode c z zc = .ok o' ∧
      o'.evidence = .ok (evDict (evTable o.low o.upp fun j => if (c.flags mode o.flags).paraName then 0 else z j)) ∧
      o'.file = if (c.flags mode o.flags).paraName then o.file else some (evTable o.low o.upp z) := by
  obtain ⟨b, hb, hl⟩ := hr.block hle
  have hd := hr.diff
  have hn : (if mode = .mmap then 1 else o.diff) = o.upp + 1 - o.low := by
    split
    · have := hmix ‹_›; omega
    · exact hd
  generalize hp : (c.flags mode o.flags).paraName = pn
  have hv : lineVals mode pn o.diff z = (List.range (o.upp + 1 - o.low)).map fun j => if pn then 0 else z j := by
    unfold lineVals
    rw [hn]
  have hlen : (lineVals mode pn o.diff z).length = o.upp + 1 - o.low := by rw [hv]; simp
  have hw : writeLogz o.block (lineVals mode pn o.diff z) =
      .ok (some ((lineVals mode pn o.diff z).map some ++ b.drop (lineVals mode pn o.diff z).length)) := by
    rw [hb]
    unfold writeLogz
    simp only
    rw [if_pos (by omega)]
  unfold EvObj.call
  simp only
  rw [if_neg hm, hp, hw, Res.ok_bind]
  refine ⟨_, rfl, ?_, ?_⟩
  · refine (evidence_eq (z := fun j => if pn then 0 else z j) (b := b.drop (lineVals mode pn o.diff z).length) ?_).trans ?_
    · dsimp only
      rw [hv]
    · simp [evDict, evTable]
  · dsimp only
    split
    · rfl
    · rename_i hpn
      rw [hv, zipIdx_range]
      simp [evTable, hpn]

/-- The next call, for an object in any state that was reached. -/
theorem next_call {mode : Mode} (hm : mode ≠ .nmap) (start : EvObj) (ops : List EvOp)
    (hs : ∃ low upp, EvOp.setup low upp ∈ ops) (o : EvObj) (h : evRun mode ops start = .ok o) (hle : o.low ≤ o.upp)
    (hmix : mode = .mmap → o.low = o.upp) (c : PyCall) (z : ℕ → ℝ) (zc : ℝ) (hp : (c.flags mode o.flags).paraName = false) :
    ∃ o', evRun mode (ops ++ [.call c z zc]) start = .ok o' ∧ o'.evidence = .ok (evDict (evTable o.low o.upp z)) ∧
      o'.file = some (evTable o.low o.upp z) := by
  obtain ⟨o', h1, h2, h3⟩ := call_gives hm (ready_run hm h (.inr hs)) hle hmix c z zc
  refine ⟨o', ?_, by simpa [hp] using h2, by simpa [hp] using h3⟩
  have : ∀ (ops : List EvOp) (s : EvObj), evRun mode ops s = .ok o → evRun mode (ops ++ [.call c z zc]) s = .ok o' := by
    intro ops
    induction ops with
    | nil =>
      intro s hs
      simp only [evRun, Res.ok.injEq] at hs
      subst hs
      simp [evRun, h1, Res.ok_bind]
    | cons op ops ih =>
      intro s hs
      cases op with
      | setup low upp => exact ih _ hs
      | call c' z' zc' =>
        obtain ⟨s1, e1, e2⟩ := Res.bind_eq_ok.1 hs
        simp only [List.cons_append, evRun, e1, Res.ok_bind]
        exact ih _ e2
  exact this ops start h

/-- The calls of a session. -/
def evCalls : List EvOp → List PyCall
  | [] => []
  | .setup _ _ :: ops => evCalls ops
  | .call c _ _ :: ops => c :: evCalls ops

theorem setup_flags (mode : Mode) (low upp : ℕ) (o : EvObj) : (o.setup mode low upp).flags = o.flags := by
  unfold EvObj.setup
  split <;> rfl

theorem call_flags {mode : Mode} {c : PyCall} {z : ℕ → ℝ} {zc : ℝ} {o o' : EvObj} (h : o.call mode c z zc = .ok o') :
    o'.flags = c.flags mode o.flags := by
  unfold EvObj.call at h
  simp only at h
  by_cases hn : mode = .nmap
  · rw [if_pos hn] at h
    split at h
    · rename_i hc
      injection h with h
      subst h
      rcases hc with rfl | rfl <;> simp [PyCall.flags, hn]
    · injection h with h
      subst h
      rfl
  · rw [if_neg hn] at h
    obtain ⟨b, _, h⟩ := Res.bind_eq_ok.1 h
    injection h with h
    subst h
    rfl

theorem run_flags {mode : Mode} {ops : List EvOp} {o o' : EvObj} (h : evRun mode ops o = .ok o') :
    o'.flags = (evCalls ops).foldl (fun m c => c.flags mode m) o.flags := by
  induction ops generalizing o with
  | nil =>
    simp only [evRun, Res.ok.injEq] at h
    subst h
    rfl
  | cons op ops ih =>
    cases op with
    | setup low upp => rw [ih h, setup_flags]; rfl
    | call c z zc =>
      obtain ⟨o1, h1, h2⟩ := Res.bind_eq_ok.1 h
      rw [ih h2, call_flags h1]
      rfl

/-- **C145 (which calls compute).** A call computes evidences unless it is `print_para_names`, or a `run` before which, going back over
other calls of `run`, `print_para_names` was called. -/
theorem C145_flag {mode : Mode} (hm : mode ≠ .nmap) (start : EvObj) (h0 : start.flags.paraName = false) (ops : List EvOp) (o : EvObj)
    (h : evRun mode ops start = .ok o) (c : PyCall) :
    (c.flags mode o.flags).paraName = true ↔ ((evCalls ops ++ [c]).filter (· ≠ .run)).getLast? = some .paraNames := by
  have : ∀ (cs : List PyCall) (m : MainCfg), m.paraName = false →
      ((cs.foldl (fun m c => c.flags mode m) m).paraName = true ↔ (cs.filter (· ≠ .run)).getLast? = some .paraNames) := by
    intro cs
    rw [← List.reverse_reverse cs]
    induction cs.reverse with
    | nil => intro m hm; simp [hm]
    | cons c cs ih =>
      intro m hm0
      rw [List.reverse_cons, List.foldl_append, List.filter_append]
      cases c with
      | run => simpa [PyCall.flags] using ih m hm0
      | postRun => simp [PyCall.flags, setArgv]
      | decompose => simp [PyCall.flags, setArgv, hm]
      | restart => simp [PyCall.flags, setArgv]
      | paraNames => simp [PyCall.flags, setArgv, hm]
  rw [← this _ _ h0, List.foldl_append, ← run_flags h]
  rfl

/-- The numbers of components asked for in `setup`; those of `pmap` are fixed. -/
def evRange (mode : Mode) (low upp : ℕ) : ℕ × ℕ := if mode = .pmap then (2, 2) else (low, upp)

theorem call_range {mode : Mode} {c : PyCall} {z : ℕ → ℝ} {zc : ℝ} {o o' : EvObj} (h : o.call mode c z zc = .ok o') :
    o'.low = o.low ∧ o'.upp = o.upp := by
  unfold EvObj.call at h
  simp only at h
  split at h
  · split at h <;> (injection h with h; subst h; exact ⟨rfl, rfl⟩)
  · obtain ⟨b, _, h⟩ := Res.bind_eq_ok.1 h
    injection h with h
    subst h
    exact ⟨rfl, rfl⟩

theorem run_range {mode : Mode} (hm : mode ≠ .nmap) (low upp : ℕ) {pre post : List EvOp} (hpost : ∀ l u, EvOp.setup l u ∉ post)
    {o o' : EvObj} (h : evRun mode (pre ++ .setup low upp :: post) o = .ok o') :
    (o'.low, o'.upp) = evRange mode low upp := by
  induction pre generalizing o with
  | nil =>
    have : ∀ (post : List EvOp) (o : EvObj), (∀ l u, EvOp.setup l u ∉ post) → evRun mode post o = .ok o' →
        o'.low = o.low ∧ o'.upp = o.upp := by
      intro post
      induction post with
      | nil =>
        intro o _ h
        simp only [evRun, Res.ok.injEq] at h
        subst h
        exact ⟨rfl, rfl⟩
      | cons op post ih =>
        intro o hno h
        cases op with
        | setup l u => exact absurd (List.mem_cons_self ..) (hno l u)
        | call c z zc =>
          obtain ⟨o1, h1, h2⟩ := Res.bind_eq_ok.1 h
          obtain ⟨a1, a2⟩ := ih o1 (fun l u hl => hno l u (List.mem_cons_of_mem _ hl)) h2
          obtain ⟨b1, b2⟩ := call_range h1
          exact ⟨a1.trans b1, a2.trans b2⟩
    obtain ⟨e1, e2⟩ := this post _ hpost h
    rw [e1, e2]
    unfold EvObj.setup
    rw [if_neg hm]
    rfl
  | cons op pre ih =>
    cases op with
    | setup l u => exact ih h
    | call c z zc =>
      obtain ⟨o1, h1, h2⟩ := Res.bind_eq_ok.1 h
      exact ih h2

/-- **C145.** Take any session in which the last `setup` asks for the numbers of components from `low` to `upp` (for mixtures: one number).
Then every further call ends normally, and if it computes evidences `z` — it is not `print_para_names` and not a `run` that follows one —
`get_evidence` hands out exactly these, one per number of components, and they are the ones in `evidence.txt`. -/
theorem C145_run_partial {mode : Mode} (hm : mode ≠ .nmap) (start : EvObj) (h0 : start.flags.paraName = false) (pre post : List EvOp)
    (low upp : ℕ) (hpost : ∀ l u, EvOp.setup l u ∉ post) (o : EvObj) (h : evRun mode (pre ++ .setup low upp :: post) start = .ok o)
    (hle : mode ≠ .pmap → low ≤ upp) (hmix : mode = .mmap → low = upp) (c : PyCall) (z : ℕ → ℝ) (zc : ℝ)
    (hp : ((evCalls (pre ++ .setup low upp :: post) ++ [c]).filter (· ≠ .run)).getLast? ≠ some .paraNames) :
    let t := evTable (evRange mode low upp).1 (evRange mode low upp).2 z
    ∃ o', evRun mode (pre ++ .setup low upp :: post ++ [.call c z zc]) start = .ok o' ∧ o'.evidence = .ok (evDict t) ∧
      o'.file = some t := by
  intro t
  have hr := run_range hm low upp hpost h
  have hl : o.low = (evRange mode low upp).1 := by rw [← hr]
  have hu : o.upp = (evRange mode low upp).2 := by rw [← hr]
  have := next_call hm start _ ⟨low, upp, by simp⟩ o h ?_ ?_ c z zc ?_
  · rwa [hl, hu] at this
  · rw [hl, hu]
    unfold evRange
    split
    · simp
    · exact hle ‹_›
  · rintro rfl
    rw [hl, hu]
    simpa [evRange] using hmix rfl
  · rw [Bool.eq_false_iff, ne_eq, C145_flag hm start h0 _ o h c]
    exact hp

/-- **C145 (violated: parameter names).** `print_para_names` replaces the evidences by 0 and leaves `evidence.txt` as it is. -/
theorem C145_names {mode : Mode} (hm : mode ≠ .nmap) {o : EvObj} (hr : o.Ready) (hle : o.low ≤ o.upp)
    (hmix : mode = .mmap → o.low = o.upp) (z : ℕ → ℝ) (zc : ℝ) :
    ∃ o', o.call mode .paraNames z zc = .ok o' ∧ o'.evidence = .ok (evDict (evTable o.low o.upp fun _ => 0)) ∧ o'.file = o.file := by
  obtain ⟨o', h1, h2, h3⟩ := call_gives hm hr hle hmix .paraNames z zc
  have hp : (PyCall.paraNames.flags mode o.flags).paraName = true := by simp [PyCall.flags, hm, setArgv]
  exact ⟨o', h1, by simpa [hp] using h2, by simpa [hp] using h3⟩

/-- **C145 (violated: parameter file).** Every computation with an object that was made from a parameter file, without `setup`, writes
through the null pointer. -/
theorem C145_file {mode : Mode} (hm : mode ≠ .nmap) (low upp : ℕ) (hle : low ≤ upp) (c : PyCall) (z : ℕ → ℝ) (zc : ℝ) :
    (EvObj.fromFile low upp).call mode c z zc = .ub := by
  unfold EvObj.call
  simp only
  rw [if_neg hm]
  have : lineVals mode (c.flags mode (EvObj.fromFile low upp).flags).paraName (EvObj.fromFile low upp).diff z ≠ [] := by
    unfold lineVals EvObj.fromFile
    simp only [ne_eq, List.map_eq_nil_iff, List.range_eq_nil]
    split <;> omega
  have hw : writeLogz (EvObj.fromFile low upp).block
      (lineVals mode (c.flags mode (EvObj.fromFile low upp).flags).paraName (EvObj.fromFile low upp).diff z) = .ub := if_neg this
  rw [hw]
  rfl

theorem entries_ub {o : EvObj} {j : ℕ} (h : o.entry j = .ub) {js : List ℕ} (hj : j ∈ js) : evEntries o js = .ub := by
  have hent : ∀ i, o.entry i = .ub ∨ ∃ e, o.entry i = .ok e := by
    intro i
    unfold EvObj.entry
    split
    · exact .inr ⟨_, rfl⟩
    · exact .inl rfl
  induction js with
  | nil => simp at hj
  | cons i js ih =>
    rw [evEntries]
    rcases List.mem_cons.1 hj with rfl | hj
    · rw [h]
      rfl
    · rw [ih hj]
      rcases hent i with hi | ⟨e, hi⟩ <;> rw [hi] <;> rfl

theorem evidence_ub {o : EvObj} (j : ℕ) (hj : j < o.upp + 1 - o.low) (h : ∀ v, (o.block.bind fun b => b[j]?) ≠ some (some v)) :
    o.evidence = .ub := by
  refine entries_ub (j := j) ?_ (List.mem_range.2 hj)
  unfold EvObj.entry
  split
  · rename_i v hv
    exact absurd hv (h v)
  · rfl

/-- **C145 (violated: before a run).** Directly after `setup` `get_evidence` reads memory that was never written. -/
theorem C145_before {mode : Mode} (hm : mode ≠ .nmap) (o : EvObj) (low upp : ℕ) (hle : low ≤ upp) :
    (o.setup mode low upp).evidence = .ub := by
  refine evidence_ub 0 ?_ fun v => ?_
  · unfold EvObj.setup
    rw [if_neg hm]
    dsimp only
    split <;> dsimp only <;> omega
  · unfold EvObj.setup
    rw [if_neg hm]
    dsimp only
    generalize (if mode = Mode.pmap then (2, 2) else (low, upp)) = lu
    by_cases hn : lu.2 + 1 < lu.1
    · rw [if_pos hn]
      simp
    · rw [if_neg hn, Option.bind_some, List.getElem?_replicate]
      split <;> simp

/-- **C145 (violated: mixtures).** `mmap` with a range of numbers of components computes one evidence only; `get_evidence` goes on to
read memory that was never written. -/
theorem C145_mixture (o : EvObj) (low upp : ℕ) (hlt : low < upp) (c : PyCall) (z : ℕ → ℝ) (zc : ℝ) :
    ∃ o', (o.setup .mmap low upp).call .mmap c z zc = .ok o' ∧ o'.evidence = .ub := by
  obtain ⟨k, rfl⟩ : ∃ k, upp = low + 1 + k := ⟨upp - (low + 1), by omega⟩
  have e : low + 1 + k + 1 - low = k + 1 + 1 := by omega
  have n : ¬ (low + 1 + k + 1 < low) := by omega
  unfold EvObj.call EvObj.setup
  simp only [reduceCtorEq, if_false, lineVals, if_true, writeLogz, e, n, List.length_map, List.length_range, List.length_replicate,
    Nat.le_add_left, Res.ok_bind]
  refine ⟨_, rfl, evidence_ub 1 ?_ fun v => ?_⟩
  · dsimp only; omega
  · simp [List.range_one, List.replicate_succ]

/-- **C145 (null model).** `get_evidence` of `nmap` hands out the evidence of the last `run`, `post_run` or `restart`, which is the one
in `evidence_con.txt`; the other calls change nothing. -/
theorem C145_null (o : EvObj) (c : PyCall) (z : ℕ → ℝ) (zc : ℝ) :
    ∃ o', o.call .nmap c z zc = .ok o' ∧ ((c = .decompose ∨ c = .paraNames) → o' = o) ∧
      (¬ (c = .decompose ∨ c = .paraNames) → o'.con = zc ∧ o'.fileCon = some zc) := by
  unfold EvObj.call
  simp only [if_true]
  by_cases h : c = .decompose ∨ c = .paraNames
  · exact ⟨o, by rw [if_pos h], fun _ => rfl, fun h' => absurd h h'⟩
  · exact ⟨_, by rw [if_neg h], fun h' => absurd h' h, fun _ => ⟨rfl, rfl⟩⟩

/-- **C145 (continuum).** `evidence_con.txt` holds the evidence of the last continuum stage: `restart` has one in every class, `run` in all
but `vmap`; the others do not touch the file. -/
theorem C145_con {mode : Mode} (hm : mode ≠ .nmap) {o o' : EvObj} {z : ℕ → ℝ} {zc : ℝ} {c : PyCall} (h : o.call mode c z zc = .ok o') :
    (c = .restart → o'.fileCon = some zc) ∧
    (c = .run → mode ≠ .vmap → o.flags.paraName = false → o'.fileCon = some zc) ∧
    (c = .run → mode = .vmap → o'.fileCon = o.fileCon) ∧
    (c = .postRun ∨ c = .decompose ∨ c = .paraNames → o'.fileCon = o.fileCon) := by
  unfold EvObj.call at h
  simp only at h
  rw [if_neg hm] at h
  obtain ⟨b, _, h⟩ := Res.bind_eq_ok.1 h
  injection h with h
  subst h
  refine ⟨?_, ?_, ?_, ?_⟩
  · rintro rfl
    simp [PyCall.flags, setArgv]
  · rintro rfl hv hp
    simp [PyCall.flags, hv, hp]
  · rintro rfl hv
    simp [hv]
  · rintro (rfl | rfl | rfl) <;> simp [PyCall.flags, setArgv, hm]

/-- A session: `setup` for one to two components, `run`, `print_para_names`, `post_run`; the last call computes. -/
example : ∃ o, evRun .gmodel [.setup 1 2, .call .run (fun j => j) 5, .call .paraNames (fun _ => 7) 5] {} = .ok o ∧
    (PyCall.postRun.flags .gmodel o.flags).paraName = false ∧ o.low = 1 ∧ o.upp = 2 ∧
    o.evidence = .ok [("logz_1".toList, 0), ("logz_2".toList, 0)] ∧ o.file = some [(1, 0), (2, 1)] := by
  refine ⟨_, rfl, rfl, rfl, rfl, ?_, ?_⟩
  · refine (evidence_eq (z := fun _ => 0) (b := []) rfl).trans ?_
    simp only [EvObj.setup]
    rfl
  · simp [lineVals, List.range_succ, PyCall.flags, setArgv, EvObj.setup]

example : ∃ o, evRun .gmodel ([] ++ .setup 1 2 :: [.call .run (fun j => j) 5, .call .paraNames (fun _ => 7) 5] ++
    [.call .postRun (fun j => 3 + j) 5]) {} = .ok o ∧ o.evidence = .ok (evDict [(1, 3), (2, 4)]) := by
  obtain ⟨o', h1, h2, -⟩ := C145_run_partial (mode := .gmodel) (by simp) {} rfl [] [.call .run (fun j => j) 5, .call .paraNames (fun _ => 7) 5]
    1 2 (by simp) _ rfl (by simp) (by simp) .postRun (fun j => 3 + j) 5 (by simp [evCalls])
  refine ⟨o', h1, h2.trans ?_⟩
  have e : (3 : ℝ) + 1 = 4 := by norm_num
  simp [evTable, evRange, List.range_succ, e]

end Mica
