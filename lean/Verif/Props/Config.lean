import Verif.Proof.Config
import Verif.Proof.SamplerExample
import Mathlib.Tactic.Linarith
import Mathlib.Tactic.NormNum
import Mathlib.Tactic.Positivity
import Mathlib.Tactic.FieldSimp
import Mathlib.Tactic.Ring

/-! # Properties C40, C41, C68, C69: parameter and option files -/

namespace Mica

/-! ## C40 -/

/-- C40: the parameter file is accepted exactly if every tag on a non-comment line is known and no tag
stands on two lines; otherwise the program stops with an error message.  Lines fit the buffer. -/
theorem C40_accept (lines : List (List Char)) (last : List Char)
    (h : ∀ l ∈ lines, '\n' ∉ l ∧ l.length ≤ 198) (hl : '\n' ∉ last ∧ last.length ≤ 199) :
    ((∃ st, readTags parComment parTags (textOf lines last) = .ok st) ↔
      (∀ i t v, EntryAt (· == '#') (allLines lines last) i t v → t ∈ parTags.map TagEntry.tag) ∧
      (∀ i j t v v', i < j → EntryAt (· == '#') (allLines lines last) i t v →
        EntryAt (· == '#') (allLines lines last) j t v' → False)) ∧
    ((∃ st, readTags parComment parTags (textOf lines last) = .ok st) ∨
      readTags parComment parTags (textOf lines last) = .exit) :=
  readTags_accept _ _ parTags_nodup lines last h hl

/-- C40: the same for the option file of the sampler. -/
theorem C40_options (lines : List (List Char)) (last : List Char)
    (h : ∀ l ∈ lines, '\n' ∉ l ∧ l.length ≤ 198) (hl : '\n' ∉ last ∧ last.length ≤ 199) :
    ((∃ st, readTags optComment optTags (textOf lines last) = .ok st) ↔
      (∀ i t v, EntryAt (fun ch => ch == '%' || ch == '#') (allLines lines last) i t v → t ∈ optTags.map TagEntry.tag) ∧
      (∀ i j t v v', i < j → EntryAt (fun ch => ch == '%' || ch == '#') (allLines lines last) i t v →
        EntryAt (fun ch => ch == '%' || ch == '#') (allLines lines last) j t v' → False)) ∧
    ((∃ st, readTags optComment optTags (textOf lines last) = .ok st) ∨
      readTags optComment optTags (textOf lines last) = .exit) :=
  readTags_accept _ _ optTags_nodup lines last h hl

/-- C40: after an accepted file, a member of `parset` holds `v` exactly if `v` stands on the last line
whose tag belongs to that member. -/
theorem C40_values (lines : List (List Char)) (last : List Char)
    (h : ∀ l ∈ lines, '\n' ∉ l ∧ l.length ≤ 198) (hl : '\n' ∉ last ∧ last.length ≤ 199) (st : Assigned)
    (hst : readTags parComment parTags (textOf lines last) = .ok st) (f : String) (v : List Char) :
    fieldText parTags st f = some v ↔
      ∃ i t, EntryAt (· == '#') (allLines lines last) i t v ∧
        (∃ e ∈ parTags, e.tag = t ∧ e.field = f) ∧
        ∀ j t' v', i < j → EntryAt (· == '#') (allLines lines last) j t' v' →
          ¬ ∃ e ∈ parTags, e.tag = t' ∧ e.field = f := by
  rw [readTags_text _ _ _ _ h hl] at hst
  rw [fieldText_stored parTags_nodup (entLoop_nil_stored hst)]
  have hfld : ∀ t, (fieldOf parTags t == some f) = true ↔ ∃ e ∈ parTags, e.tag = t ∧ e.field = f := by
    intro t
    rw [beq_iff_eq]
    constructor
    · intro hf
      unfold fieldOf at hf
      obtain ⟨e, he, rfl⟩ := Option.map_eq_some_iff.1 hf
      exact ⟨e, List.mem_of_find?_eq_some he, by simpa using List.find?_some he, rfl⟩
    · rintro ⟨e, he, rfl, rfl⟩
      obtain ⟨j, hj⟩ := List.mem_iff_getElem?.1 he
      rw [← fieldOf_eq parTags_nodup (j := j) (t := e.tag) (by simp [tagIs, hj]), hj]
      rfl
  simp only [← hfld]
  have := last_entry (comment := parComment) (p := fun t => fieldOf parTags t == some f)
    (ls := allLines lines last) (v := v)
  simp only [Bool.not_eq_true] at this ⊢
  exact this

/-- C40: an accepted file without any entry gives the documented defaults. -/
theorem C40_defaults (atof : List Char → ℝ) (lines : List (List Char)) (last : List Char)
    (h : ∀ l ∈ lines, '\n' ∉ l ∧ l.length ≤ 198) (hl : '\n' ∉ last ∧ last.length ≤ 199)
    (hno : ∀ i t v, ¬ EntryAt parComment (allLines lines last) i t v) :
    ∃ st, readTags parComment parTags (textOf lines last) = .ok st ∧
      cfgOf atof st = .ok
        { model := 0, uniVar := 0, uniTf := 0, trend := 0, negResp := 0, lagLow := 0, lagUpp := -1
          widthLow := DBL_MAX, widthUpp := DBL_MAX, widthLowSet := false, widthUppSet := false
          ngLow := 1, ngUpp := 1, ngDiff := 0, typeLag := 0, strLag := [], typeTf := 0, strMix := []
          posivity := 0, ndRec := 200 } := by
  refine ⟨[], ?_, ?_⟩
  · rw [readTags_text _ _ _ _ h hl]
    rcases he : entriesOf parComment (allLines lines last) with _ | ⟨⟨t, v⟩, es⟩
    · rfl
    · exfalso
      obtain ⟨i, hi⟩ := mem_entriesOf.1 (show (t, v) ∈ entriesOf parComment (allLines lines last) by
        rw [he]; simp)
      exact hno i t v hi
  · rfl

/-- Some line sets the tag. -/
def HasTag (lines : List (List Char)) (t : String) : Prop := ∃ i v, EntryAt parComment lines i t.toList v

/-- C40: the order of lines does not matter, as long as the two names of the same setting are not both
used. -/
theorem C40_order_partial (atof : List Char → ℝ) (load : Bool) (lines lines' : List (List Char))
    (hp : lines.Perm lines') (h : ∀ l ∈ lines, '\n' ∉ l ∧ l.length ≤ 198)
    (hlow : ¬ (HasTag lines "NumGaussianLow" ∧ HasTag lines "NumCompLow"))
    (hupp : ¬ (HasTag lines "NumGaussianUpp" ∧ HasTag lines "NumCompUpp")) :
    readParset atof load (textOf lines []) = readParset atof load (textOf lines' []) := by
  have h' : ∀ l ∈ lines', '\n' ∉ l ∧ l.length ≤ 198 := fun l hl => h l (hp.mem_iff.2 hl)
  unfold readParset
  rw [readTags_text _ _ _ _ h (by simp), readTags_text _ _ _ _ h' (by simp)]
  have hal : ∀ ls : List (List Char), allLines ls [] = ls := by intro ls; simp [allLines]
  rw [hal, hal]
  have hpe : (entriesOf parComment lines).Perm (entriesOf parComment lines') := hp.filterMap _
  have hmem : ∀ e ∈ entriesOf parComment lines, ∀ s : String, e.1 = s.toList → HasTag lines s := by
    rintro ⟨t, v⟩ he s rfl
    obtain ⟨i, hi⟩ := mem_entriesOf.1 he
    exact ⟨i, v, hi⟩
  generalize entriesOf parComment lines = es at hpe hmem
  generalize entriesOf parComment lines' = es' at hpe
  rcases entLoop_ok_or_exit parTags [] es with ⟨st, h1⟩ | h1
  · have hk := (entLoop_nil_ok parTags_nodup).1 ⟨st, h1⟩
    obtain ⟨st', h2⟩ := (entLoop_nil_ok parTags_nodup (es := es')).2
      ⟨fun e he => hk.1 e (hpe.mem_iff.2 he), (hpe.map Prod.fst).nodup_iff.1 hk.2⟩
    rw [h1, h2, Res.ok_bind, Res.ok_bind]
    rw [cfgOf_congr atof (st' := st')]
    intro f
    refine fieldText_perm parTags_nodup h1 h2 hpe f ?_
    intro a ha b hb e1 e2
    rcases parTags_alias a.1 (hk.1 a ha) b.1 (hk.1 b hb) (e1.trans e2.symm) with hab | hab
    · exact hab
    · exfalso
      simp only [List.mem_cons, Prod.mk.injEq, List.not_mem_nil, or_false] at hab
      rcases hab with ⟨x, y⟩ | ⟨x, y⟩ | ⟨x, y⟩ | ⟨x, y⟩
      · exact hlow ⟨hmem a ha _ x, hmem b hb _ y⟩
      · exact hlow ⟨hmem b hb _ y, hmem a ha _ x⟩
      · exact hupp ⟨hmem a ha _ x, hmem b hb _ y⟩
      · exact hupp ⟨hmem b hb _ y, hmem a ha _ x⟩
  · have h2 : entLoop parTags [] es' = .exit := by
      rcases entLoop_ok_or_exit parTags [] es' with ⟨st', h2⟩ | h2
      · exfalso
        have hk := (entLoop_nil_ok parTags_nodup).1 ⟨st', h2⟩
        obtain ⟨st, h3⟩ := (entLoop_nil_ok parTags_nodup (es := es)).2
          ⟨fun e he => hk.1 e (hpe.mem_iff.1 he), (hpe.map Prod.fst).nodup_iff.2 hk.2⟩
        rw [h1] at h3; cases h3
      · exact h2
    rw [h1, h2]

/-- Two lines naming the same setting in its two spellings. -/
def aliasLines : List (List Char) := ["NumGaussianLow 1".toList, "NumCompLow 2".toList]

/-- C40 fails in general: the two spellings are accepted together and the value depends on the order. -/
theorem C40_alias :
    (∃ st, readTags parComment parTags (textOf aliasLines []) = .ok st ∧
      fieldText parTags st "num_gaussian_low" = some ['2']) ∧
    (∃ st, readTags parComment parTags (textOf aliasLines.reverse []) = .ok st ∧
      fieldText parTags st "num_gaussian_low" = some ['1']) := by
  constructor
  · refine ⟨[(12, ['1']), (14, ['2'])], ?_, by decide +kernel⟩
    rw [readTags_text _ _ _ _ (by decide +kernel) (by decide +kernel)]
    decide +kernel
  · refine ⟨[(14, ['2']), (12, ['1'])], ?_, by decide +kernel⟩
    rw [readTags_text _ _ _ _ (by decide +kernel) (by decide +kernel)]
    decide +kernel

/-- C40 fails for a tag without value: an unknown or repeated tag alone on its line goes unnoticed. -/
theorem C40_no_value : readTags parComment parTags
    (textOf ["NoSuchTag".toList, "LagLimitUpp 5".toList, "LagLimitUpp".toList] []) = .ok [(9, ['5'])] := by
  rw [readTags_text _ _ _ _ (by decide +kernel) (by decide +kernel)]
  decide +kernel

/-- A file with two settings, a comment and an empty line. -/
def goodLines : List (List Char) :=
  ["# settings".toList, "LagLimitUpp   100  % days".toList, [], " TypeModel 2".toList]

example : (∀ l ∈ goodLines, '\n' ∉ l ∧ l.length ≤ 198) ∧
    (∃ st, readTags parComment parTags (textOf goodLines []) = .ok st) ∧
    ¬ (HasTag goodLines "NumGaussianLow" ∧ HasTag goodLines "NumCompLow") ∧
    readTags parComment parTags (textOf ("LagLimitUpp 3".toList :: goodLines) []) = .exit ∧
    readTags parComment parTags (textOf ("LagLimit 3".toList :: goodLines) []) = .exit := by
  refine ⟨by decide +kernel, ⟨[(9, "100".toList), (2, ['2'])], ?_⟩, ?_, ?_, ?_⟩
  · rw [readTags_text _ _ _ _ (by decide +kernel) (by decide +kernel)]
    decide +kernel
  · rintro ⟨⟨i, v, h⟩, _⟩
    have := mem_entriesOf.2 ⟨i, h⟩
    have he : entriesOf parComment goodLines =
      [("LagLimitUpp".toList, "100".toList), ("TypeModel".toList, ['2'])] := by decide +kernel
    rw [he] at this
    have hd : "NumGaussianLow".toList ∉ ["LagLimitUpp".toList, "TypeModel".toList] := by decide +kernel
    simp only [List.mem_cons, Prod.mk.injEq, List.not_mem_nil, or_false] at this hd
    tauto
  · rw [readTags_text _ _ _ _ (by decide +kernel) (by decide +kernel)]
    decide +kernel
  · rw [readTags_text _ _ _ _ (by decide +kernel) (by decide +kernel)]
    decide +kernel

/-! ## C41 -/

theorem chkLag_ok {c c' : Config} (h : chkLag c = .ok c') : c' = c ∧ (c.model = 0 → c.lagLow < c.lagUpp) := by
  unfold chkLag at h
  split at h
  · cases h
  · rename_i hn
    refine ⟨(Res.ok.inj h).symm, fun hm => ?_⟩
    by_contra hc
    exact hn ⟨hm, not_lt.1 hc⟩

theorem chkWidth_ok {c c' : Config} (h : chkWidth (setWidthFlags c) = .ok c') : c' = setWidthFlags c ∧
    0 < c.widthLow ∧ 0 < c.widthUpp ∧
    (c.widthLow < DBL_MAX → c.widthUpp < DBL_MAX → c.widthLow < c.widthUpp) := by
  have hD := DBL_MAX_pos
  unfold chkWidth at h
  split at h
  · cases h
  · rename_i h1
    split at h
    · cases h
    · rename_i h2
      split at h
      · cases h
      · rename_i h3
        simp only [setWidthFlags, decide_eq_true_eq, not_and, not_le] at h1 h2 h3
        refine ⟨(Res.ok.inj h).symm, ?_, ?_, fun a b => h3 b a⟩
        · by_cases hw : c.widthLow < DBL_MAX
          · exact h1 hw
          · linarith
        · by_cases hw : c.widthUpp < DBL_MAX
          · exact h2 hw
          · linarith

theorem chkPmap_ok {c c3 : Config} (e3 : chkPmap c = .ok c3) :
    c3.model = c.model ∧ c3.lagLow = c.lagLow ∧ c3.lagUpp = c.lagUpp ∧
      c3.widthLow = c.widthLow ∧ c3.widthUpp = c.widthUpp ∧
      (c3.model = 1 → 2 ≤ c3.ngLow ∧ 2 ≤ c3.ngUpp ∧ c3.typeLag = 4 ∧ c3.strLag ≠ []) := by
  unfold chkPmap at e3
  split at e3
  · rename_i hm1
    split at e3
    · cases e3
    · rename_i hs
      cases e3
      refine ⟨rfl, rfl, rfl, rfl, rfl, fun _ => ⟨?_, ?_, rfl, ?_⟩⟩
      · simp only; split <;> omega
      · simp only; split <;> omega
      · intro h0; exact hs (by simp only at h0; rw [h0]; rfl)
  · rename_i hm1
    cases e3
    exact ⟨rfl, rfl, rfl, rfl, rfl, fun h1 => absurd h1 hm1⟩

/-- C41 (part): an accepted configuration, for all models but `nmap`, has positive and ordered width limits,
between one and as many components as asked for, a known lag prior, trend order and, where it applies,
transfer functions; the parallel-mapping model has a lag prior string and two components; the mixture model
has one component per character of its string.  Missing: lag limits of models other than 0, and what
the negations below show. -/
theorem C41_consistent_partial (atof : List Char → ℝ) (load : Bool) (text : List Char) (c : Config)
    (h : readParset atof load text = .ok c) :
    0 ≤ c.model ∧ c.model ≤ 4 ∧ (c.model ≠ 4 →
      (c.model = 0 → c.lagLow < c.lagUpp) ∧
      0 < c.widthLow ∧ 0 < c.widthUpp ∧
      (c.widthLow < DBL_MAX → c.widthUpp < DBL_MAX → c.widthLow < c.widthUpp) ∧
      1 ≤ c.ngLow ∧ c.ngLow ≤ c.ngUpp ∧ 0 ≤ c.ndRec ∧
      0 ≤ c.typeLag ∧ c.typeLag ≤ 4 ∧ 0 ≤ c.trend ∧ c.trend ≤ 2 ∧
      (c.posivity ≠ 0 → 0 ≤ c.lagLow) ∧
      (c.posivity = 1 → ¬ (c.typeTf = 2 ∨ c.typeTf = 3)) ∧
      (c.negResp = 1 → c.model = 0 ∧ c.typeLag ≠ 0) ∧ (c.uniTf ≠ 0 → c.model = 0) ∧
      (c.model ≠ 3 → c.ngDiff = c.ngUpp - c.ngLow + 1 ∧ (load = true → c.ngLow = c.ngUpp) ∧
        (c.typeLag = 2 ∨ c.typeLag = 3 → 3 ≤ c.ngLow)) ∧
      (c.model = 1 → 2 ≤ c.ngLow ∧ c.typeLag = 4 ∧ c.strLag ≠ []) ∧
      (c.model = 3 → 2 ≤ c.ngLow ∧ c.ngLow = c.strMix.length ∧ c.ngUpp = c.strMix.length ∧
        c.posivity = 0 ∧ ∀ ch ∈ c.strMix, '0' ≤ ch ∧ ch ≤ '3')) := by
  unfold readParset at h
  obtain ⟨st, -, h⟩ := Res.bind_eq_ok.1 h
  obtain ⟨c0, -, h⟩ := Res.bind_eq_ok.1 h
  unfold checkCfg at h
  split at h
  · cases h
  rename_i hm
  split at h
  · rename_i h4
    cases h
    exact ⟨by omega, by omega, fun hne => absurd h4 hne⟩
  rename_i h4
  obtain ⟨c1, e1, h1⟩ := Res.bind_eq_ok.1 h
  obtain ⟨hc1, hlag⟩ := chkLag_ok e1
  obtain ⟨c2, e2, h2⟩ := Res.bind_eq_ok.1 h1
  obtain ⟨hc2, hw1, hw2, hw3⟩ := chkWidth_ok e2
  obtain ⟨c3, e3, h3⟩ := Res.bind_eq_ok.1 h2
  obtain ⟨c4, e4, h4'⟩ := Res.bind_eq_ok.1 h3
  obtain ⟨c5, e5, h5⟩ := Res.bind_eq_ok.1 h4'
  obtain ⟨c6, e6, h6⟩ := Res.bind_eq_ok.1 h5
  obtain ⟨c7, e7, h7⟩ := Res.bind_eq_ok.1 h6
  clear h h1 h2 h3 h4' h5 h6 e1 e2
  subst hc1
  subst hc2
  have p3 := chkPmap_ok e3
  simp only [setWidthFlags] at p3
  have p4 : c4 = { c3 with ngDiff := c3.ngUpp - c3.ngLow + 1 } ∧ 1 ≤ c3.ngLow ∧ c3.ngLow ≤ c3.ngUpp := by
    unfold chkComp at e4
    split_ifs at e4
    exact ⟨(Res.ok.inj e4).symm, by omega, by omega⟩
  have p5 : c5 = oneComp c4 ∧ (load = true → c5.ngDiff ≤ 1) ∧ 0 ≤ c5.ndRec ∧ 0 ≤ c5.typeLag ∧
      c5.typeLag ≤ 4 ∧ (c5.typeLag = 2 ∨ c5.typeLag = 3 → 3 ≤ c5.ngLow) := by
    unfold chkPrior at e5
    split_ifs at e5 with a b d f
    cases e5
    refine ⟨rfl, fun hl => ?_, by omega, by omega, by omega, by omega⟩
    by_contra hh
    exact a ⟨hl, by omega⟩
  have p6 : c6 = c5 ∧ 0 ≤ c5.trend ∧ c5.trend ≤ 2 ∧ (c5.posivity ≠ 0 → 0 ≤ c5.lagLow) ∧
      (c5.negResp = 1 → c5.model = 0) := by
    unfold chkFlags at e6
    split_ifs at e6 with a b d f g
    refine ⟨(Res.ok.inj e6).symm, by omega, by omega, fun hp => ?_, fun hn => ?_⟩
    · by_contra hh; exact d ⟨hp, not_le.1 hh⟩
    · by_contra hh; exact g ⟨hn, hh⟩
  have p7 : c7 = negPrior c6 ∧ (c7.posivity = 1 → ¬ (c7.typeTf = 2 ∨ c7.typeTf = 3)) ∧
      (c7.uniTf ≠ 0 → c7.model = 0) := by
    unfold chkTf at e7
    split_ifs at e7 with a b
    cases e7
    refine ⟨rfl, fun hp => ?_, fun hn => ?_⟩
    · rintro (hh | hh) <;> exact a ⟨hp, by omega, by omega⟩
    · by_contra hh; exact b ⟨hn, hh⟩
  clear e3 e4 e5 e6 e7
  obtain ⟨q1, q2, q3, q4, q5, q6⟩ := p3
  obtain ⟨r0, r1, r2⟩ := p4
  obtain ⟨s0, s1, s2, s3, s4, s5⟩ := p5
  obtain ⟨t0, t1, t2, t3, t4⟩ := p6
  obtain ⟨u0, u1, u2⟩ := p7
  subst t0
  have k5 : c6.model = c3.model ∧ c6.lagLow = c3.lagLow ∧ c6.lagUpp = c3.lagUpp ∧
      c6.widthLow = c3.widthLow ∧ c6.widthUpp = c3.widthUpp ∧ c6.ngLow = c3.ngLow ∧ c6.ngUpp = c3.ngUpp ∧
      c6.strLag = c3.strLag ∧ c6.ngDiff = c3.ngUpp - c3.ngLow + 1 ∧
      (2 ≤ c3.ngUpp → c6.typeLag = c3.typeLag) := by
    rw [s0, r0]; unfold oneComp
    simp only
    split_ifs with h1
    · exact ⟨rfl, rfl, rfl, rfl, rfl, rfl, rfl, rfl, rfl, fun h => by omega⟩
    · exact ⟨rfl, rfl, rfl, rfl, rfl, rfl, rfl, rfl, rfl, fun h => rfl⟩
  obtain ⟨m1, m2, m3, m4, m5, m6, m7, m8, m9, m10⟩ := k5
  have k7 : c7.model = c6.model ∧ c7.lagLow = c6.lagLow ∧ c7.lagUpp = c6.lagUpp ∧
      c7.widthLow = c6.widthLow ∧ c7.widthUpp = c6.widthUpp ∧ c7.ngLow = c6.ngLow ∧ c7.ngUpp = c6.ngUpp ∧
      c7.strLag = c6.strLag ∧ c7.ngDiff = c6.ngDiff ∧ c7.ndRec = c6.ndRec ∧ c7.trend = c6.trend ∧
      c7.posivity = c6.posivity ∧ c7.negResp = c6.negResp ∧
      (c6.negResp = 1 ∧ c6.typeLag = 0 ∧ c7.typeLag = 1 ∨
        ¬ (c6.negResp = 1 ∧ c6.typeLag = 0) ∧ c7.typeLag = c6.typeLag) := by
    rw [u0]; unfold negPrior
    split_ifs with h1
    · exact ⟨rfl, rfl, rfl, rfl, rfl, rfl, rfl, rfl, rfl, rfl, rfl, rfl, rfl, Or.inl ⟨h1.1, h1.2, rfl⟩⟩
    · exact ⟨rfl, rfl, rfl, rfl, rfl, rfl, rfl, rfl, rfl, rfl, rfl, rfl, rfl, Or.inr ⟨h1, rfl⟩⟩
  obtain ⟨n1, n2, n3, n4, n5, n6, n7, n8, n9, n10, n11, n12, n13, n14⟩ := k7
  have f1 : c7.widthLow = c1.widthLow := by rw [n4, m4, q4]
  have f2 : c7.widthUpp = c1.widthUpp := by rw [n5, m5, q5]
  have f3 : c7.lagLow = c1.lagLow := by rw [n2, m2, q2]
  have f4 : c7.lagUpp = c1.lagUpp := by rw [n3, m3, q3]
  have f5 : c7.model = c1.model := by rw [n1, m1, q1]
  have f6 : c7.posivity ≠ 0 → 0 ≤ c7.lagLow := by
    rw [n12, n2]; exact t3
  have f7 : c7.strLag = c3.strLag := by rw [n8, m8]
  rw [← f1, ← f2, ] at hw3
  rw [← f1] at hw1
  rw [← f2] at hw2
  rw [← f3, ← f4, ← f5] at hlag
  rw [← f5] at hm h4
  have hneg : c7.negResp = 1 → c7.model = 0 ∧ c7.typeLag ≠ 0 := by
    intro hh
    refine ⟨?_, by omega⟩
    rw [n1]; exact t4 (by omega)
  have hpm : c7.model = 1 → 2 ≤ c7.ngLow ∧ c7.typeLag = 4 ∧ c7.strLag ≠ [] := by
    intro hh
    obtain ⟨a, b, d, f⟩ := q6 (by omega)
    have := m10 b
    exact ⟨by omega, by omega, by rw [f7]; exact f⟩
  have hload : load = true → c7.ngLow = c7.ngUpp := by
    intro hh; have := s1 hh; omega
  unfold chkMmap at h7
  split at h7
  · rename_i hm3
    split_ifs at h7 with a b d
    cases h7
    refine ⟨by simp only; omega, by simp only; omega, fun _ => ⟨hlag, hw1, hw2, hw3, ?_, ?_, ?_, ?_, ?_, ?_, ?_,
      ?_, ?_, hneg, u2, ?_, ?_, ?_⟩⟩
    · simp only; omega
    · exact le_refl _
    · simp only; omega
    · simp only; omega
    · simp only; omega
    · simp only; omega
    · simp only; omega
    · intro h0; exact absurd rfl h0
    · intro h0; exact absurd (show (0 : ℤ) = 1 from h0) (by decide)
    · intro h0; exact absurd hm3 h0
    · intro h0; simp only at h0; omega
    · intro _
      refine ⟨by simp only; omega, rfl, rfl, rfl, ?_⟩
      intro ch hch
      simp only [List.any_eq_true, Bool.or_eq_true, decide_eq_true_eq, not_exists, not_and, not_or] at d
      exact ⟨Char.not_lt.1 (d ch hch).1, Char.not_lt.1 (d ch hch).2⟩
  · rename_i hm3
    cases h7
    refine ⟨by omega, by omega, fun _ => ⟨hlag, hw1, hw2, hw3, by omega, by omega, by omega, by omega, by omega,
      by omega, by omega, f6, u1, hneg, u2, fun _ => ⟨by omega, hload, ?_⟩, hpm, fun h0 => absurd h0 hm3⟩⟩
    intro h0
    have := s5 (by omega)
    omega

/-- `atof` reads the decimal digits of the examples. -/
structure ReadsDigits (atof : List Char → ℝ) : Prop where
  d2 : atof ['2'] = 2
  d3 : atof ['3'] = 3
  d5 : atof ['5'] = 5
  d7 : atof ['7'] = 7
  d10 : atof ['1', '0'] = 10

/-- C41 fails for the lag limits of models other than 0: a range with the lower limit above the upper one
is accepted. -/
theorem C41_lag (atof : List Char → ℝ) (ha : ReadsDigits atof) : ∃ c, readParset atof false
    (textOf ["TypeModel 2".toList, "LagLimitLow 10".toList, "LagLimitUpp 5".toList] []) = .ok c ∧
      c.model = 2 ∧ c.lagUpp < c.lagLow := by
  unfold readParset
  rw [readTags_text _ _ _ _ (by decide +kernel) (by decide +kernel)]
  have he : entLoop parTags [] (entriesOf parComment
      (allLines ["TypeModel 2".toList, "LagLimitLow 10".toList, "LagLimitUpp 5".toList] [])) =
      .ok [(2, ['2']), (8, ['1', '0']), (9, ['5'])] := by
    decide +kernel
  rw [he, Res.ok_bind, cfgOf_texts atof _
    (fun f => if f = "model" then some ['2'] else if f = "lag_limit_low" then some ['1', '0']
        else if f = "lag_limit_upper" then some ['5'] else none)
    (by decide +kernel)]
  have hD := DBL_MAX_pos
  refine ⟨{ model := 2, uniVar := 0, uniTf := 0, trend := 0, negResp := 0, lagLow := 10, lagUpp
            := 5, widthLow := DBL_MAX, widthUpp := DBL_MAX, widthLowSet := false, widthUppSet :=
            false, ngLow := 1, ngUpp := 1, ngDiff := 1, typeLag := 0, strLag := [], typeTf := 0,
            strMix := [], posivity := 0, ndRec := 200 }, ?_, rfl, by norm_num⟩
  simp [ha.d2, ha.d5, ha.d10, toIntC_2, checkCfg, chkLag, setWidthFlags, chkWidth, chkPmap, chkComp,
    oneComp, chkPrior, chkFlags, negPrior, chkTf, chkMmap]

/-- C41 fails for two flags: `FlagNegativeResp` other than 0 and 1 and an unknown transfer function are accepted. -/
theorem C41_flags (atof : List Char → ℝ) (ha : ReadsDigits atof) : ∃ c, readParset atof false
    (textOf ["LagLimitUpp 5".toList, "FlagNegativeResp 2".toList, "TypeTF 7".toList] []) = .ok c ∧
      c.negResp = 2 ∧ c.typeTf = 7 := by
  unfold readParset
  rw [readTags_text _ _ _ _ (by decide +kernel) (by decide +kernel)]
  have he : entLoop parTags [] (entriesOf parComment
      (allLines ["LagLimitUpp 5".toList, "FlagNegativeResp 2".toList, "TypeTF 7".toList] [])) =
      .ok [(9, ['5']), (7, ['2']), (22, ['7'])] := by
    decide +kernel
  rw [he, Res.ok_bind, cfgOf_texts atof _
    (fun f => if f = "lag_limit_upper" then some ['5'] else if f = "flag_negative_resp" then
        some ['2'] else if f = "type_tf" then some ['7'] else none)
    (by decide +kernel)]
  have hD := DBL_MAX_pos
  refine ⟨{ model := 0, uniVar := 0, uniTf := 0, trend := 0, negResp := 2, lagLow := 0, lagUpp
            := 5, widthLow := DBL_MAX, widthUpp := DBL_MAX, widthLowSet := false, widthUppSet :=
            false, ngLow := 1, ngUpp := 1, ngDiff := 1, typeLag := 0, strLag := [], typeTf := 7,
            strMix := [], posivity := 0, ndRec := 200 }, ?_, rfl, rfl⟩
  simp [show ¬ ((5 : ℝ) ≤ 0) by norm_num, ha.d2, ha.d5, ha.d7, toIntC_2, toIntC_7, checkCfg, chkLag, setWidthFlags, chkWidth, chkPmap, chkComp,
    oneComp, chkPrior, chkFlags, negPrior, chkTf, chkMmap]

/-- C41 fails for the mixture model, whose number of components is set after the checks: lag prior 2 with two
components passes, and `num_gaussian_diff` no longer fits the numbers of components. -/
theorem C41_mixture (atof : List Char → ℝ) (ha : ReadsDigits atof) : ∃ c, readParset atof false
    (textOf ["TypeModel 3".toList, "StrTypeTFMix 01".toList, "NumCompLow 3".toList, "NumCompUpp 5".toList, "TypeLagPrior 2".toList] []) = .ok c ∧
      c.typeLag = 2 ∧ c.ngLow = 2 ∧ c.ngUpp = 2 ∧ c.ngDiff = 3 := by
  unfold readParset
  rw [readTags_text _ _ _ _ (by decide +kernel) (by decide +kernel)]
  have he : entLoop parTags [] (entriesOf parComment
      (allLines ["TypeModel 3".toList, "StrTypeTFMix 01".toList, "NumCompLow 3".toList, "NumCompUpp 5".toList, "TypeLagPrior 2".toList] [])) =
      .ok [(2, ['3']), (23, ['0', '1']), (14, ['3']), (15, ['5']), (18, ['2'])] := by
    decide +kernel
  rw [he, Res.ok_bind, cfgOf_texts atof _
    (fun f => if f = "model" then some ['3'] else if f = "str_type_tf_mix" then some ['0', '1']
        else if f = "num_gaussian_low" then some ['3'] else if f = "num_gaussian_upper" then some
        ['5'] else if f = "type_lag_prior" then some ['2'] else none)
    (by decide +kernel)]
  have hD := DBL_MAX_pos
  refine ⟨{ model := 3, uniVar := 0, uniTf := 0, trend := 0, negResp := 0, lagLow := 0, lagUpp
            := -1, widthLow := DBL_MAX, widthUpp := DBL_MAX, widthLowSet := false, widthUppSet :=
            false, ngLow := 2, ngUpp := 2, ngDiff := 3, typeLag := 2, strLag := [], typeTf := 0,
            strMix := ['0', '1'], posivity := 0, ndRec := 200 }, ?_, rfl, rfl, rfl, rfl⟩
  simp [ha.d2, ha.d3, ha.d5, toIntC_2, toIntC_3, toIntC_5, checkCfg, chkLag, setWidthFlags, chkWidth, chkPmap, chkComp,
    oneComp, chkPrior, chkFlags, negPrior, chkTf, chkMmap]

/-- C41 fails for the mixture model in a second way: the number of components is 1 by default when the checks are
made, so that the lag prior asked for is replaced by type 0, although the mixture has two components. -/
theorem C41_mixture_prior (atof : List Char → ℝ) (ha : ReadsDigits atof) : ∃ c, readParset atof false
    (textOf ["TypeModel 3".toList, "StrTypeTFMix 01".toList, "TypeLagPrior 2".toList] []) = .ok c ∧
      c.ngLow = 2 ∧ c.ngUpp = 2 ∧ c.typeLag = 0 := by
  unfold readParset
  rw [readTags_text _ _ _ _ (by decide +kernel) (by decide +kernel)]
  have he : entLoop parTags [] (entriesOf parComment
      (allLines ["TypeModel 3".toList, "StrTypeTFMix 01".toList, "TypeLagPrior 2".toList] [])) =
      .ok [(2, ['3']), (23, ['0', '1']), (18, ['2'])] := by
    decide +kernel
  rw [he, Res.ok_bind, cfgOf_texts atof _
    (fun f => if f = "model" then some ['3'] else if f = "str_type_tf_mix" then some ['0', '1']
        else if f = "type_lag_prior" then some ['2'] else none)
    (by decide +kernel)]
  have hD := DBL_MAX_pos
  refine ⟨{ model := 3, uniVar := 0, uniTf := 0, trend := 0, negResp := 0, lagLow := 0, lagUpp
            := -1, widthLow := DBL_MAX, widthUpp := DBL_MAX, widthLowSet := false, widthUppSet :=
            false, ngLow := 2, ngUpp := 2, ngDiff := 1, typeLag := 0, strLag := [], typeTf := 0,
            strMix := ['0', '1'], posivity := 0, ndRec := 200 }, ?_, rfl, rfl, rfl⟩
  simp [ha.d2, ha.d3, toIntC_2, toIntC_3, checkCfg, chkLag, setWidthFlags, chkWidth, chkPmap, chkComp,
    oneComp, chkPrior, chkFlags, negPrior, chkTf, chkMmap]

/-- `C41_consistent_partial` applies to a parameter file for the general model with two to five components. -/
example (atof : List Char → ℝ) (ha : ReadsDigits atof) : ∃ c, readParset atof false
    (textOf ["LagLimitUpp 5".toList, "NumCompLow 2".toList, "NumCompUpp 5".toList] []) = .ok c ∧
      c.ngLow = 2 ∧ c.ngDiff = 4 := by
  unfold readParset
  rw [readTags_text _ _ _ _ (by decide +kernel) (by decide +kernel)]
  have he : entLoop parTags [] (entriesOf parComment
      (allLines ["LagLimitUpp 5".toList, "NumCompLow 2".toList, "NumCompUpp 5".toList] [])) =
      .ok [(9, ['5']), (14, ['2']), (15, ['5'])] := by
    decide +kernel
  rw [he, Res.ok_bind, cfgOf_texts atof _
    (fun f => if f = "lag_limit_upper" then some ['5'] else if f = "num_gaussian_low" then some ['2'] else
      if f = "num_gaussian_upper" then some ['5'] else none)
    (by decide +kernel)]
  have hD := DBL_MAX_pos
  refine ⟨{ model := 0, uniVar := 0, uniTf := 0, trend := 0, negResp := 0, lagLow := 0, lagUpp := 5
            widthLow := DBL_MAX, widthUpp := DBL_MAX, widthLowSet := false, widthUppSet := false
            ngLow := 2, ngUpp := 5, ngDiff := 4, typeLag := 0, strLag := [], typeTf := 0, strMix := []
            posivity := 0, ndRec := 200 }, ?_, rfl, rfl⟩
  simp [show ¬ ((5 : ℝ) ≤ 0) by norm_num, ha.d2, ha.d5, toIntC_2, toIntC_5, checkCfg, chkLag, setWidthFlags, chkWidth, chkPmap, chkComp,
    oneComp, chkPrior, chkFlags, negPrior, chkTf, chkMmap]

/-- C41, converse for the general model: settings with the documented relations are accepted, and only the
derived settings change. -/
theorem C41_accepts (c : Config) (hm : c.model = 0) (hlag : c.lagLow < c.lagUpp) (hw1 : 0 < c.widthLow)
    (hw2 : c.widthLow < c.widthUpp) (hn1 : 1 ≤ c.ngLow) (hn2 : c.ngLow ≤ c.ngUpp) (hrec : 0 ≤ c.ndRec)
    (ht : 0 ≤ c.typeLag ∧ c.typeLag ≤ 4) (ht3 : c.typeLag = 2 ∨ c.typeLag = 3 → 3 ≤ c.ngLow)
    (htr : 0 ≤ c.trend ∧ c.trend ≤ 2) (hpos : c.posivity ≠ 0 → 0 ≤ c.lagLow)
    (htf : c.typeTf = 0 ∨ c.typeTf = 1) (hu : c.widthUpp < DBL_MAX) :
    checkCfg false c = .ok { c with
      widthLowSet := true, widthUppSet := true, ngDiff := c.ngUpp - c.ngLow + 1
      typeLag := if c.ngUpp = 1 then (if c.negResp = 1 then 1 else 0)
        else if c.negResp = 1 ∧ c.typeLag = 0 then 1 else c.typeLag } := by
  have hl : c.widthLow < DBL_MAX := lt_trans hw2 hu
  have e1 : chkLag c = .ok c := by unfold chkLag; rw [if_neg]; rintro ⟨_, h⟩; linarith
  have e2 : setWidthFlags c = { c with widthLowSet := true, widthUppSet := true } := by
    unfold setWidthFlags; simp [hl, hu]
  have e3 : chkWidth { c with widthLowSet := true, widthUppSet := true } =
      .ok { c with widthLowSet := true, widthUppSet := true } := by
    unfold chkWidth
    rw [if_neg (by rintro ⟨_, h⟩; simp only at h; linarith),
      if_neg (by rintro ⟨_, h⟩; simp only at h; linarith),
      if_neg (by rintro ⟨_, _, h⟩; simp only at h; linarith)]
  unfold checkCfg
  rw [if_neg (by omega), if_neg (by omega), e1, Res.ok_bind, e2, e3, Res.ok_bind]
  have e4 : chkPmap { c with widthLowSet := true, widthUppSet := true } =
      .ok { c with widthLowSet := true, widthUppSet := true } := by
    unfold chkPmap; rw [if_neg (by simp only; omega)]
  rw [e4, Res.ok_bind]
  have e5 : chkComp { c with widthLowSet := true, widthUppSet := true } =
      .ok { c with widthLowSet := true, widthUppSet := true, ngDiff := c.ngUpp - c.ngLow + 1 } := by
    unfold chkComp
    rw [if_neg (by simp only; omega), if_neg (by simp only; omega), if_neg (by simp only; omega)]
  rw [e5, Res.ok_bind]
  have e6 : oneComp { c with widthLowSet := true, widthUppSet := true, ngDiff := c.ngUpp - c.ngLow + 1 } =
      { c with widthLowSet := true, widthUppSet := true, ngDiff := c.ngUpp - c.ngLow + 1
               typeLag := if c.ngUpp = 1 then 0 else c.typeLag } := by
    unfold oneComp; simp only; split <;> rfl
  rw [e6]
  have key : ∀ t : ℤ, 0 ≤ t → t ≤ 4 → (t = 2 ∨ t = 3 → 3 ≤ c.ngLow) →
      (chkPrior false { c with widthLowSet := true, widthUppSet := true, ngDiff := c.ngUpp - c.ngLow + 1
                               typeLag := t } >>= fun c => chkFlags c >>= fun c =>
        chkTf (negPrior c) >>= chkMmap) =
      .ok { c with widthLowSet := true, widthUppSet := true, ngDiff := c.ngUpp - c.ngLow + 1
                   typeLag := if c.negResp = 1 ∧ t = 0 then 1 else t } := by
    intro t h0 h4 h3
    unfold chkPrior
    rw [if_neg (by rintro ⟨h, _⟩; cases h), if_neg (by simp only; omega), if_neg (by simp only; omega),
      if_neg (by simp only; omega), Res.ok_bind]
    unfold chkFlags
    rw [if_neg (by simp only; omega), if_neg (by simp only; omega), if_neg, if_neg (by simp only; omega),
      if_neg (by simp only; omega), Res.ok_bind]
    · have e7 : negPrior { c with widthLowSet := true, widthUppSet := true, ngDiff := c.ngUpp - c.ngLow + 1
                                  typeLag := t } =
        { c with widthLowSet := true, widthUppSet := true, ngDiff := c.ngUpp - c.ngLow + 1
                 typeLag := if c.negResp = 1 ∧ t = 0 then 1 else t } := by
        unfold negPrior; simp only; split <;> rfl
      rw [e7]
      unfold chkTf
      rw [if_neg (by simp only; omega), if_neg (by simp only; omega), Res.ok_bind]
      unfold chkMmap
      rw [if_neg (by simp only; omega)]
    · rintro ⟨h1, h2⟩
      have := hpos h1
      simp only at h2
      linarith
  rw [key _ (by split <;> omega) (by split <;> omega) (by split <;> omega)]
  congr 2
  by_cases hone : c.ngUpp = 1 <;> simp [hone]

example : ∃ c : Config, c.model = 0 ∧ c.lagLow < c.lagUpp ∧ 0 < c.widthLow ∧ c.widthLow < c.widthUpp ∧
    1 ≤ c.ngLow ∧ c.ngLow ≤ c.ngUpp ∧ c.typeLag = 2 ∧ c.widthUpp < DBL_MAX :=
  ⟨{ model := 0, uniVar := 0, uniTf := 0, trend := 0, negResp := 0, lagLow := 0, lagUpp := 5
     widthLow := 1, widthUpp := 4, widthLowSet := false, widthUppSet := false
     ngLow := 3, ngUpp := 5, ngDiff := 4, typeLag := 2, strLag := [], typeTf := 0, strMix := []
     posivity := 0, ndRec := 200 }, rfl, by norm_num, by norm_num, by norm_num, by norm_num, by norm_num, rfl,
     by have := DBL_MAX_big; simp only; linarith⟩

/-! ## C68 -/

/-- C68 (part): what the sampler reads back from the option file: integers exactly, real options to within
0.005, and exactly if they are multiples of 0.01.  Missing: other real values, see below. -/
theorem C68_options_partial (o : SampOpts) :
    (throughFile o).numParticles = o.numParticles ∧ (throughFile o).maxLevels = o.maxLevels ∧
    (throughFile o).maxSaves = o.maxSaves ∧
    (∀ get ∈ [SampOpts.newLevelFactor, SampOpts.saveFactor, SampOpts.threadFactor, SampOpts.lam,
        SampOpts.beta, SampOpts.ptol],
      |get (throughFile o) - get o| ≤ 1 / 200 ∧
      (get (throughFile o) = get o ↔ ∃ z : ℤ, get o = z / 100)) := by
  have key : ∀ x : ℝ, |printf2 x - x| ≤ 1 / 200 ∧ (printf2 x = x ↔ ∃ z : ℤ, x = z / 100) := by
    intro x
    refine ⟨?_, ?_, ?_⟩
    · have h := abs_sub_round (x * 100)
      unfold printf2
      rw [abs_le] at h ⊢
      constructor <;> [linarith [h.2]; linarith [h.1]]
    · intro h; exact ⟨_, h.symm⟩
    · rintro ⟨z, rfl⟩
      unfold printf2
      have : ((z : ℝ) / 100 * 100) = z := by ring
      rw [this, round_intCast]
  refine ⟨rfl, rfl, rfl, ?_⟩
  simp only [List.forall_mem_cons, throughFile]
  exact ⟨key _, key _, key _, key _, key _, key _, by simp⟩

/-- C68 fails: a likelihood tolerance of 0.001 reaches the sampler as 0, and a factor 0.004 for the number of
steps as 0. -/
theorem C68_small (o : SampOpts) (h : o.ptol = 1 / 1000) (h2 : o.threadFactor = 4 / 1000) :
    (throughFile o).ptol = 0 ∧ (throughFile o).threadFactor = 0 := by
  have r1 : _root_.round ((1 : ℝ) / 1000 * 100) = 0 := by
    rw [round_eq]; rw [Int.floor_eq_iff]; norm_num
  have r2 : _root_.round ((4 : ℝ) / 1000 * 100) = 0 := by
    rw [round_eq]; rw [Int.floor_eq_iff]; norm_num
  unfold throughFile printf2
  simp only [h, h2, r1, r2]
  norm_num

example : ∃ o : SampOpts, o.ptol = 1 / 1000 ∧ o.threadFactor = 4 / 1000 := ⟨⟨1, 1, 1, 4 / 1000, 0, 10, 100, 2000, 1 / 1000⟩, rfl, rfl⟩

/-! ## C69 -/

/-- C69 (part): numbers of steps accepted by the sampler's check.  If the product of tasks and steps fits
32 bits, a new level is not made before every task has run at least once, which is what the buffers of the
sampler rely on; and if there are any steps, accepted settings are exactly those with a level factor of at
least 1.  Missing: products out of range, and zero steps, see below. -/
theorem C69_intervals_partial (numParams tasks numParticles : ℕ) (tf nf sf : ℝ) (i : Intervals)
    (h : deriveIntervals numParams tasks numParticles tf nf sf = .ok i)
    (hov : tasks * i.threadSteps < 2 ^ 32) :
    i.threadSteps = ⌊numParams * tf * numParticles⌋₊ ∧
    tasks * i.threadSteps ≤ i.newLevel ∧
    (i.newLevel : ℝ) ≤ max 0 (tasks * i.threadSteps * nf) ∧
    (0 < tasks → 0 < i.threadSteps → 1 ≤ nf ∧ 0 < i.newLevel) := by
  have tou : ∀ {x : ℝ} {n : ℕ}, toU32 x = .ok n → n = ⌊x⌋₊ := by
    intro x n h
    unfold toU32 at h
    split at h
    · exact (Res.ok.inj h).symm
    · cases h
  unfold deriveIntervals at h
  obtain ⟨ts, e1, h1⟩ := Res.bind_eq_ok.1 h
  obtain ⟨nl, e2, h2⟩ := Res.bind_eq_ok.1 h1
  obtain ⟨sv, e3, h3⟩ := Res.bind_eq_ok.1 h2
  split at h3
  · cases h3
  rename_i hlt
  cases h3
  simp only at hov ⊢
  have hmod : tasks * ts % 4294967296 = tasks * ts := Nat.mod_eq_of_lt (by omega)
  rw [hmod] at hlt e2
  have e2' := tou e2
  rw [Nat.cast_mul] at e2'
  have hle : (nl : ℝ) ≤ max 0 (tasks * ts * nf) := by
    rcases le_or_gt 0 ((tasks : ℝ) * ts * nf) with hx | hx
    · rw [e2']; exact le_trans (Nat.floor_le hx) (le_max_right _ _)
    · rw [e2', Nat.floor_of_nonpos hx.le]; simp
  refine ⟨tou e1, by omega, hle, ?_⟩
  intro ht hs
  have hpos : 0 < tasks * ts := Nat.mul_pos ht hs
  have hp' : (0 : ℝ) < (tasks : ℝ) * ts := by exact_mod_cast hpos
  have hnl : ((tasks : ℝ) * ts) ≤ nl := by
    have : tasks * ts ≤ nl := by omega
    exact_mod_cast this
  refine ⟨?_, by omega⟩
  by_contra hnf
  have : (tasks : ℝ) * ts * nf < tasks * ts := by nlinarith
  rcases max_cases (0 : ℝ) (tasks * ts * nf) with ⟨h, _⟩ | ⟨h, _⟩ <;> rw [h] at hle <;> linarith

/-- C69, the converse: positive settings with level factor at least 1 and products in range are accepted. -/
theorem C69_accepts (numParams tasks numParticles : ℕ) (tf nf sf : ℝ) (h1 : 0 ≤ tf) (hnf : 1 ≤ nf)
    (hsf : 0 ≤ sf) (hts : numParams * tf * numParticles < 2 ^ 32)
    (hn : tasks * (numParams * tf * numParticles) * nf < 2 ^ 32)
    (hs : tasks * (numParams * tf * numParticles) * sf < 2 ^ 32) :
    ∃ i, deriveIntervals numParams tasks numParticles tf nf sf = .ok i := by
  set x : ℝ := numParams * tf * numParticles with hx
  have hx0 : 0 ≤ x := by positivity
  have e1 : toU32 x = .ok ⌊x⌋₊ := by
    unfold toU32; rw [if_pos ⟨by linarith, by norm_num at hts; linarith⟩]
  have hfl : ((tasks * ⌊x⌋₊ : ℕ) : ℝ) ≤ tasks * x := by
    push_cast
    exact mul_le_mul_of_nonneg_left (Nat.floor_le hx0) (by positivity)
  have hmodlt : tasks * ⌊x⌋₊ < 4294967296 := by
    have : ((tasks * ⌊x⌋₊ : ℕ) : ℝ) < 4294967296 := by
      have h0 : (0 : ℝ) ≤ tasks * x := by positivity
      norm_num at hn
      nlinarith
    exact_mod_cast this
  have hmod : tasks * ⌊x⌋₊ % 4294967296 = tasks * ⌊x⌋₊ := Nat.mod_eq_of_lt hmodlt
  have gen : ∀ f : ℝ, 0 ≤ f → tasks * x * f < 2 ^ 32 →
      toU32 (((tasks * ⌊x⌋₊ : ℕ) : ℝ) * f) = .ok ⌊((tasks * ⌊x⌋₊ : ℕ) : ℝ) * f⌋₊ := by
    intro f hf hlt
    unfold toU32
    have h0 : (0 : ℝ) ≤ ((tasks * ⌊x⌋₊ : ℕ) : ℝ) * f := by positivity
    have := mul_le_mul_of_nonneg_right hfl hf
    rw [if_pos ⟨by linarith, by norm_num at hlt ⊢; push_cast at this; linarith⟩]
  unfold deriveIntervals
  rw [← hx, e1, Res.ok_bind, hmod, gen nf (by linarith) hn, Res.ok_bind, gen sf hsf hs, Res.ok_bind, if_neg]
  · exact ⟨_, rfl⟩
  · rw [not_lt]
    apply Nat.le_floor
    have : (0 : ℝ) ≤ ((tasks * ⌊x⌋₊ : ℕ) : ℝ) := by positivity
    nlinarith

/-- C69 fails for zero steps: two parameters, one particle and a step factor of 0.1 pass the check, and then the
size of the merged buffer divides by zero. -/
theorem C69_zero_steps : ∃ i, deriveIntervals 2 1 1 (1 / 10) 2 2 = .ok i ∧ i.threadSteps = 0 ∧
    allAboveMax 2 i.threadSteps 1 i.newLevel = .ub := by
  refine ⟨⟨0, 0, 0⟩, ?_, rfl, by simp [allAboveMax]⟩
  have f0 : ⌊((2 : ℕ) : ℝ) * (1 / 10) * ((1 : ℕ) : ℝ)⌋₊ = 0 := by
    rw [Nat.floor_eq_zero]; norm_num
  have e1 : toU32 (((2 : ℕ) : ℝ) * (1 / 10) * ((1 : ℕ) : ℝ)) = .ok 0 := by
    unfold toU32; rw [if_pos (by norm_num), f0]
  have e2 : toU32 (((1 * 0 % 4294967296 : ℕ) : ℝ) * 2) = .ok 0 := by
    unfold toU32; rw [if_pos (by norm_num)]; simp
  unfold deriveIntervals
  rw [e1, Res.ok_bind, e2, Res.ok_bind, Res.ok_bind, if_neg (by norm_num)]

/-- C69 fails when the product of tasks and steps wraps around: 2 tasks with 2³¹ steps each are accepted with a
new-level interval of 0. -/
theorem C69_wrap : ∃ i, deriveIntervals 1 2 1 2147483648 1 1 = .ok i ∧ i.threadSteps = 2147483648 ∧
    i.newLevel = 0 := by
  refine ⟨⟨2147483648, 0, 0⟩, ?_, rfl, rfl⟩
  have f0 : ⌊((1 : ℕ) : ℝ) * 2147483648 * ((1 : ℕ) : ℝ)⌋₊ = 2147483648 := by
    have : ((1 : ℕ) : ℝ) * 2147483648 * ((1 : ℕ) : ℝ) = ((2147483648 : ℕ) : ℝ) := by norm_num
    rw [this, Nat.floor_natCast]
  have e1 : toU32 (((1 : ℕ) : ℝ) * 2147483648 * ((1 : ℕ) : ℝ)) = .ok 2147483648 := by
    unfold toU32; rw [if_pos (by norm_num), f0]
  have e2 : toU32 (((2 * 2147483648 % 4294967296 : ℕ) : ℝ) * 1) = .ok 0 := by
    unfold toU32; rw [if_pos (by norm_num)]; simp
  unfold deriveIntervals
  rw [e1, Res.ok_bind, e2, Res.ok_bind, Res.ok_bind, if_neg (by norm_num)]

example : ((10 : ℕ) : ℝ) * 20 * ((2 : ℕ) : ℝ) < 2 ^ 32 ∧ ((4 : ℕ) : ℝ) * (((10 : ℕ) : ℝ) * 20 * ((2 : ℕ) : ℝ)) * 5 < 2 ^ 32 := by
  norm_num

end Mica
