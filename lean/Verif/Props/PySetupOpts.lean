import Verif.Props.PySetup

/-!
# C117: options of the sampler that are turned on in the parameter file
-/

namespace Mica

/-- The text behind a tag that alone writes its member. -/
theorem fieldText_own {es : List (List Char × List Char)} {st : Assigned} (hst : entLoop parTags [] es = .ok st)
    (t f : String) (hf : fieldOf parTags t.toList = some f)
    (hone : ∀ e ∈ parTags, e.field = f → e.tag = t.toList) {v : List Char} (h : (t.toList, v) ∈ es) :
    fieldText parTags st f = some v := by
  obtain ⟨hk, hn⟩ := (entLoop_nil_ok parTags_nodup).1 ⟨st, hst⟩
  rw [fieldText_stored parTags_nodup (entLoop_nil_stored hst)]
  have key : (es.filter fun e => fieldOf parTags e.1 == some f) = [(t.toList, v)] := by
    clear hst
    induction es with
    | nil => simp at h
    | cons e es ih =>
      rw [List.map_cons, List.nodup_cons] at hn
      have hother : ∀ e' : List Char × List Char, e'.1 ≠ t.toList → (fieldOf parTags e'.1 == some f) = false := by
        intro e' he'
        rw [beq_eq_false_iff_ne]
        intro hh
        unfold fieldOf at hh
        obtain ⟨x, hx, hxf⟩ := Option.map_eq_some_iff.1 hh
        have h1 := hone x (List.mem_of_find?_eq_some hx) hxf
        have h2 := List.find?_some hx
        rw [beq_iff_eq] at h2
        exact he' (by rw [← h2, h1])
      rcases List.mem_cons.1 h with rfl | h'
      · rw [List.filter_cons_of_pos (by simp [hf]), List.filter_eq_nil_iff.2]
        intro e he
        rw [hother e fun hh => hn.1 (List.mem_map.2 ⟨e, he, hh⟩)]
        simp
      · rw [List.filter_cons_of_neg, ih h' (fun x hx => hk x (by simp [hx])) hn.2]
        rw [hother e fun hh => hn.1 (hh ▸ List.mem_map_of_mem (f := Prod.fst) h')]
        simp
  rw [key]; rfl

/-- **C117.** Removing the `#` in front of the options works: in any parameter file that is accepted and whose lines give
all nine options of the sampler, the options read are those of the file, each from its own line. -/
theorem C117_options_on {atof : List Char → ℝ} (ha : ReadsDecimals atof) (num : ℝ → List Char) (text : List Char)
    (st : Assigned) (hst : readTags parComment parTags text = .ok st) (o : SampOpts)
    (hi : IntC o.numParticles ∧ IntC o.maxSaves ∧ IntC o.maxLevels)
    (hr : ∀ x ∈ [o.newLevelFactor, o.saveFactor, o.threadFactor, o.lam, o.beta, o.ptol], ReprOk atof num x)
    (hes : ∀ e ∈ [("NumberParticles", fmtInt o.numParticles), ("MaxNumberSaves", fmtInt o.maxSaves),
      ("MaxNumberLevels", fmtInt o.maxLevels), ("NewLevelIntervalFactor", num o.newLevelFactor),
      ("SaveIntervalFactor", num o.saveFactor), ("ThreadStepsFactor", num o.threadFactor),
      ("BacktrackingLength", num o.lam), ("StrengthEqualPush", num o.beta), ("PTol", num o.ptol)],
      ∃ line ∈ fgetsAll 198 text, twoWords line = some (e.1.toList, e.2)) :
    parOpts atof st = .ok o := by
  unfold readTags at hst
  rw [tagLoop_eq] at hst
  have mem : ∀ (t : String) (v : List Char), parComment (t.toList.headD ' ') = false →
      (∃ line ∈ fgetsAll 198 text, twoWords line = some (t.toList, v)) →
      (t.toList, v) ∈ entriesOf parComment (fgetsAll 198 text) := by
    rintro t v hc ⟨l, hl, h⟩
    unfold entriesOf
    rw [List.mem_filterMap]
    exact ⟨l, hl, by rw [h]; simp only [hc]; rfl⟩
  generalize entriesOf parComment (fgetsAll 198 text) = es at *
  simp only [List.forall_mem_cons, List.not_mem_nil, IsEmpty.forall_iff, implies_true, and_true] at hr hes
  obtain ⟨e1, e2, e3, e4, e5, e6, e7, e8, e9⟩ := hes
  obtain ⟨r4, r5, r6, r7, r8, r9⟩ := hr
  obtain ⟨i1, i2, i3⟩ := hi
  have f1 := fieldText_own hst "NumberParticles" "num_particles" (by decide +kernel) (by decide +kernel) (mem _ _ (by decide) e1)
  have f2 := fieldText_own hst "MaxNumberSaves" "max_num_saves" (by decide +kernel) (by decide +kernel) (mem _ _ (by decide) e2)
  have f3 := fieldText_own hst "MaxNumberLevels" "max_num_levels" (by decide +kernel) (by decide +kernel) (mem _ _ (by decide) e3)
  have f4 := fieldText_own hst "NewLevelIntervalFactor" "new_level_interval_factor" (by decide +kernel) (by decide +kernel)
    (mem _ _ (by decide) e4)
  have f5 := fieldText_own hst "SaveIntervalFactor" "save_interval_factor" (by decide +kernel) (by decide +kernel)
    (mem _ _ (by decide) e5)
  have f6 := fieldText_own hst "ThreadStepsFactor" "thread_steps_factor" (by decide +kernel) (by decide +kernel)
    (mem _ _ (by decide) e6)
  have f7 := fieldText_own hst "BacktrackingLength" "lam" (by decide +kernel) (by decide +kernel) (mem _ _ (by decide) e7)
  have f8 := fieldText_own hst "StrengthEqualPush" "beta" (by decide +kernel) (by decide +kernel) (mem _ _ (by decide) e8)
  have f9 := fieldText_own hst "PTol" "max_ptol" (by decide +kernel) (by decide +kernel) (mem _ _ (by decide) e9)
  unfold parOpts
  simp only [intField, realField, f1, f2, f3, f4, f5, f6, f7, f8, f9, atof_fmtInt ha, toIntC_int i1.1 i1.2,
    toIntC_int i2.1 i2.2, toIntC_int i3.1 i3.2, Res.ok_bind, r4.back, r5.back, r6.back, r7.back, r8.back, r9.back]

/-- A file with all nine options. -/
def optsOnEx : List Char :=
  "NumberParticles 2\nMaxNumberSaves 5000\nMaxNumberLevels 0\nNewLevelIntervalFactor 3.00\nSaveIntervalFactor 3.00\nThreadStepsFactor 1.00\nBacktrackingLength 10.00\nStrengthEqualPush 100.00\nPTol 0.50\n".toList

example : ∃ st, readTags parComment parTags optsOnEx = .ok st ∧
    (∃ line ∈ fgetsAll 198 optsOnEx, twoWords line = some ("BacktrackingLength".toList, "10.00".toList)) ∧
    (∃ line ∈ fgetsAll 198 optsOnEx, twoWords line = some ("PTol".toList, "0.50".toList)) := by
  have h : ∃ st, readTags parComment parTags optsOnEx = .ok st := by
    have : (match readTags parComment parTags optsOnEx with | .ok _ => true | _ => false) = true := by decide +kernel
    revert this
    cases readTags parComment parTags optsOnEx with
    | ok st => exact fun _ => ⟨st, rfl⟩
    | exit => exact fun h => by cases h
    | ub => exact fun h => by cases h
    | hang => exact fun h => by cases h
  obtain ⟨st, h⟩ := h
  refine ⟨st, h, ?_, ?_⟩
  · decide +kernel
  · decide +kernel

end Mica
