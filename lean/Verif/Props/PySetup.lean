import Verif.Proof.PySetupClass
import Verif.Props.Config
import Verif.Props.Options

/-!
# C117: the parameter file written by `setup` describes the settings of the object
-/

namespace Mica

theorem right5_fits {v : List Char} (hv : NoSpace v) (hl : v.length ≤ 32) :
    '\n' ∉ right5 v ∧ (right5 v).length ≤ 37 := by
  unfold right5
  constructor
  · simp only [List.mem_append, not_or]
    exact ⟨fun h => absurd (List.eq_of_mem_replicate h) (by decide), nonspace_newline hv⟩
  · simp only [List.length_append, List.length_replicate]; omega

theorem padded_fits {t : String} {v w : List Char} (ht : '\n' ∉ t.toList ∧ t.length ≤ 30) (hv : NoSpace v) (hl : v.length ≤ 32)
    (hw : '\n' ∉ w ∧ w.length ≤ 100) : FitsLine (padded t (right5 v ++ w)) := by
  obtain ⟨h1, h2⟩ := right5_fits hv hl
  unfold padded FitsLine
  constructor
  · simp only [List.mem_append, not_or]
    exact ⟨ht.1, fun h => absurd (List.eq_of_mem_replicate h) (by decide), h1, hw.1⟩
  · simp only [List.length_append, List.length_replicate, String.length_toList]; omega

theorem fmtInt_short {z : ℤ} (h : IntC z) : (fmtInt z).length ≤ 32 := by
  unfold fmtInt
  have hd : (Nat.toDigits 10 z.natAbs).length ≤ 10 := by
    rw [Nat.length_toDigits_le_iff (by norm_num) (by norm_num)]
    unfold IntC at h
    omega
  split
  · simp only [List.length_cons]; omega
  · omega

theorem paramTail_fits {atof : List Char → ℝ} {num : ℝ → List Char} {o : SampOpts}
    (hr : ∀ x ∈ [o.ptol, o.newLevelFactor, o.saveFactor, o.threadFactor, o.lam, o.beta], ReprOk atof num x)
    (hi : IntC o.numParticles ∧ IntC o.maxLevels) : ∀ l ∈ paramTail num o, FitsLine l := by
  simp only [List.forall_mem_cons, List.not_mem_nil, IsEmpty.forall_iff, implies_true, and_true] at hr
  obtain ⟨r1, r2, r3, r4, r5, r6⟩ := hr
  unfold paramTail
  simp only [List.forall_mem_cons, List.not_mem_nil, IsEmpty.forall_iff, implies_true, and_true]
  refine ⟨⟨by decide +kernel, by decide +kernel⟩, ⟨by decide +kernel, by decide +kernel⟩, ⟨by decide +kernel, by decide +kernel⟩,
    ⟨by decide, by decide⟩, ?_, ?_, ?_, ?_, ?_, ?_, ?_, ?_, ⟨by decide +kernel, by decide +kernel⟩⟩
  · exact padded_fits (by decide +kernel) r1.word r1.len (by decide +kernel)
  · exact padded_fits (by decide +kernel) (fmtInt_nonspace _) (fmtInt_short hi.1) (by decide +kernel)
  · exact padded_fits (by decide +kernel) r2.word r2.len (by decide +kernel)
  · exact padded_fits (by decide +kernel) r3.word r3.len (by decide +kernel)
  · exact padded_fits (by decide +kernel) r4.word r4.len (by decide +kernel)
  · exact padded_fits (by decide +kernel) (fmtInt_nonspace _) (fmtInt_short hi.2) (by decide +kernel)
  · exact padded_fits (by decide +kernel) r5.word r5.len (by decide +kernel)
  · exact padded_fits (by decide +kernel) r6.word r6.len (by decide +kernel)

/-- What `read_parset` needs to know about an object. -/
theorem param_ready {atof : List Char → ℝ} {num : ℝ → List Char} {p : PyParset} (hp : Decent p)
    (hd : p.dataFile ≠ [] ∧ NoSpace p.dataFile)
    (hlen : ∀ s ∈ [p.dataFile, p.strMix, p.strWidth, p.strLag, p.strRatio, p.strGap], s.length ≤ 168)
    (hnum : ∀ x ∈ p.reals, ReprOk atof num x) :
    readTags parComment parTags (paramText num p) = entLoop parTags [] (fileEntries num p) := by
  have hi := hp.ints
  simp only [PyParset.reals, List.forall_mem_cons, List.not_mem_nil, IsEmpty.forall_iff, implies_true, and_true] at hi hlen hnum
  obtain ⟨i1, i2, i3, i4, i5, i6, i7, i8, i9, i10, i11, i12, i13, i14, i15, i16, i17⟩ := hi
  obtain ⟨l1, l2, l3, l4, l5, l6⟩ := hlen
  obtain ⟨r1, r2, r3, r4, r5, r6, r7, r8, r9, r10, r11, r12⟩ := hnum
  refine readTags_param (fun e he => ?_) (paramTail_fits (atof := atof) ?_ ⟨i16, i17⟩)
  · have hz : ∀ z, IntC z → NoSpace (fmtInt z) ∧ (fmtInt z).length ≤ 168 := fun z hz =>
      ⟨fmtInt_nonspace z, (fmtInt_short hz).trans (by norm_num)⟩
    have hx : ∀ x, ReprOk atof num x → NoSpace (num x) ∧ (num x).length ≤ 168 := fun x hx =>
      ⟨hx.word, hx.len.trans (by norm_num)⟩
    have all : ∀ e ∈ paramEntries num p, NoSpace e.2 ∧ e.2.length ≤ 168 := by
      unfold paramEntries
      simp only [List.forall_mem_append, List.forall_mem_cons, List.not_mem_nil, IsEmpty.forall_iff, implies_true, and_true]
      have dir : NoSpace p.fileDir ∧ p.fileDir.length ≤ 168 := by rw [hp.dir]; exact ⟨by unfold NoSpace; decide, by decide⟩
      refine ⟨⟨⟨⟨⟨⟨⟨⟨⟨⟨⟨dir, ⟨hd.2, l1⟩, hz _ i1, hz _ i2, ⟨hp.mix, l2⟩, hz _ i15, hz _ i3, hz _ i4, hz _ i5⟩, ?_⟩, ?_⟩, ?_⟩,
        hz _ i6, hz _ i7, hz _ i8, hz _ i9, hz _ i10, hz _ i11, hz _ i12, hx _ r5, hx _ r6⟩, ?_⟩, hz _ i13⟩, ?_⟩, ?_⟩, hz _ i14⟩, ?_⟩
      · split
        · simp only [List.forall_mem_cons, List.not_mem_nil, IsEmpty.forall_iff, implies_true, and_true]
          exact ⟨hx _ r1, hx _ r2⟩
        · simp
      · split
        · simp only [List.forall_mem_cons, List.not_mem_nil, IsEmpty.forall_iff, implies_true, and_true]
          exact hx _ r3
        · simp
      · split
        · simp only [List.forall_mem_cons, List.not_mem_nil, IsEmpty.forall_iff, implies_true, and_true]
          exact hx _ r4
        · simp
      · split
        · simp only [List.forall_mem_cons, List.not_mem_nil, IsEmpty.forall_iff, implies_true, and_true]
          exact ⟨hp.wid, l3⟩
        · simp
      · split
        · simp only [List.forall_mem_cons, List.not_mem_nil, IsEmpty.forall_iff, implies_true, and_true]
          exact ⟨hp.lag, l4⟩
        · simp
      · split
        · simp only [List.forall_mem_cons, List.not_mem_nil, IsEmpty.forall_iff, implies_true, and_true]
          exact ⟨hp.rat, l5⟩
        · simp
      · split
        · simp only [List.forall_mem_cons, List.not_mem_nil, IsEmpty.forall_iff, implies_true, and_true]
          exact ⟨hp.gap, l6⟩
        · simp
    exact all e he
  · simp only [List.forall_mem_cons, List.not_mem_nil, IsEmpty.forall_iff, implies_true, and_true]
    exact ⟨r7, r8, r9, r10, r11, r12⟩

theorem int_of {atof : List Char → ℝ} (ha : ReadsDecimals atof) {num : ℝ → List Char} {p : PyParset} {st : Assigned}
    (hst : entLoop parTags [] (fileEntries num p) = .ok st) (q : String × String) (hq : q ∈ fileTags) {z : ℤ} (d : ℤ)
    (h : (q.1, fmtInt z) ∈ paramEntries num p) (hz : IntC z) : intField atof parTags st q.2 d = .ok z := by
  rw [intField, (fileField hst hq _).2 ⟨h, fmtInt_ne_nil z⟩]
  simp only [atof_fmtInt ha]
  exact toIntC_int hz.1 hz.2

theorem real_of {atof : List Char → ℝ} {num : ℝ → List Char} {p : PyParset} {st : Assigned}
    (hst : entLoop parTags [] (fileEntries num p) = .ok st) (q : String × String) (hq : q ∈ fileTags) {x : ℝ} (d : ℝ)
    (h : (q.1, num x) ∈ paramEntries num p) (hx : ReprOk atof num x) : realField atof parTags st q.2 d = x := by
  rw [realField, (fileField hst hq _).2 ⟨h, hx.ne⟩]
  exact hx.back

theorem real_none {atof : List Char → ℝ} {num : ℝ → List Char} {p : PyParset} {st : Assigned}
    (hst : entLoop parTags [] (fileEntries num p) = .ok st) (q : String × String) (hq : q ∈ fileTags) (d : ℝ)
    (h : q.1 ∉ (paramEntries num p).map Prod.fst) : realField atof parTags st q.2 d = d := by
  rw [realField, fileField_none hst hq fun v hv => absurd (List.mem_map_of_mem (f := Prod.fst) hv) h]

theorem text_none {num : ℝ → List Char} {p : PyParset} {st : Assigned}
    (hst : entLoop parTags [] (fileEntries num p) = .ok st) (q : String × String) (hq : q ∈ fileTags)
    (h : q.1 ∉ (paramEntries num p).map Prod.fst) : textField parTags st q.2 = [] := by
  rw [textField, fileField_none hst hq fun v hv => absurd (List.mem_map_of_mem (f := Prod.fst) hv) h]
  rfl

theorem text_of {num : ℝ → List Char} {p : PyParset} {st : Assigned}
    (hst : entLoop parTags [] (fileEntries num p) = .ok st) (q : String × String) (hq : q ∈ fileTags) {s : List Char}
    (h : (q.1, s) ∈ paramEntries num p) : textField parTags st q.2 = s := by
  by_cases hs : s = []
  · subst hs
    rw [textField, fileField_none hst hq fun v hv => ?_]
    · rfl
    · have hn : ((paramEntries num p).map Prod.fst).Nodup := (paramEntries_tags num p).nodup fileTags_nodup
      exact (Prod.mk.inj (List.inj_on_of_nodup_map hn hv h rfl)).2
  · rw [textField, (fileField hst hq _).2 ⟨h, hs⟩]
    rfl

/-- Members that the sampler and the models use besides those in `Config`. -/
structure SameRest (atof : List Char → ℝ) (st : Assigned) (p : PyParset) : Prop where
  dir : textField parTags st "file_dir" = p.fileDir
  data : textField parTags st "data_file" = p.dataFile
  con : intField atof parTags st "flag_con_sys_err" 0 = .ok p.conSys
  line : intField atof parTags st "flag_line_sys_err" 0 = .ok p.lineSys
  low : realField atof parTags st "trec_low_ext" 0 = p.recLow
  upp : realField atof parTags st "trec_upp_ext" 0 = p.recUpp
  width : textField parTags st "str_width_prior" = p.strWidth
  ratio : textField parTags st "str_ratio_prior" = p.strRatio
  gap : intField atof parTags st "flag_gap" 0 = .ok p.flagGap
  gapText : textField parTags st "str_gap_prior" = p.strGap

/-- **C117.** After any number of calls of `setup` of an object of any class, reading the parameter file that the last one wrote
is the same as applying the checks of the C program to the settings of the object: every member gets the value that the object
has.  Data file: a word; texts fit into the lines; `repr` of numbers is read back. -/
theorem C117_file_partial {atof : List Char → ℝ} (ha : ReadsDecimals atof) {num : ℝ → List Char} (cls : Mode)
    (h : List (Bool × PyArgs)) (h0 : h ≠ []) (p : PyParset) (hs : pySetups cls h PyParset.fresh = some p)
    (hd : p.dataFile ≠ [] ∧ NoSpace p.dataFile)
    (hlen : ∀ s ∈ [p.dataFile, p.strMix, p.strWidth, p.strLag, p.strRatio, p.strGap], s.length ≤ 168)
    (hnum : ∀ x ∈ p.reals, ReprOk atof num x) (load : Bool) :
    readParset atof load (paramText num p) = checkCfg load p.cfg ∧
      ∃ st, readTags parComment parTags (paramText num p) = .ok st ∧ SameRest atof st p := by
  obtain ⟨⟨hp, -, hlim⟩, hmod⟩ := setups_ofClass hs (fresh_ofClass cls)
  replace hmod := hmod h0
  have hr := param_ready hp hd hlen hnum
  obtain ⟨st, hst⟩ := fileEntries_ok num p
  have hi := hp.ints
  simp only [PyParset.reals, List.forall_mem_cons, List.not_mem_nil, IsEmpty.forall_iff, implies_true, and_true] at hi hnum
  obtain ⟨i1, i2, i3, i4, i5, i6, i7, i8, i9, i10, i11, i12, i13, i14, i15, i16, i17⟩ := hi
  obtain ⟨r1, r2, r3, r4, r5, r6, r7, r8, r9, r10, r11, r12⟩ := hnum
  have I := fun q hq z d => int_of ha hst (num := num) q hq (z := z) d
  have R := fun q hq x d => real_of (atof := atof) hst (num := num) q hq (x := x) d
  have T := fun q hq s => text_of hst (num := num) q hq (s := s)
  have RN := fun q hq d => real_none (atof := atof) hst q hq d
  have TN := fun q hq => text_none hst q hq
  constructor
  · have hcfg : cfgOf atof st = .ok p.cfg := by
      have e1 := I ("TypeModel", "model") (by decide) p.model 0 (by simp [paramEntries]) i1
      have e2 := I ("FlagUniformVarParams", "flag_uniform_var_params") (by decide) p.uniVar 0 (by simp [paramEntries]) i3
      have e3 := I ("FlagUniformTranFuns", "flag_uniform_tranfuns") (by decide) p.uniTf 0 (by simp [paramEntries]) i4
      have e4 := I ("FlagLongtermTrend", "flag_trend") (by decide) p.trend 0 (by simp [paramEntries]) i5
      have e5 := I ("FlagNegativeResp", "flag_negative_resp") (by decide) p.negResp 0 (by simp [paramEntries]) i7
      have e6 := I ("NumCompLow", "num_gaussian_low") (by decide) p.ngLow 1 (by simp [paramEntries]) i8
      have e7 := I ("NumCompUpp", "num_gaussian_upper") (by decide) p.ngUpp 1 (by simp [paramEntries]) i9
      have e8 := I ("TypeLagPrior", "type_lag_prior") (by decide) p.typeLag 0 (by simp [paramEntries]) i13
      have e9 := I ("TypeTF", "type_tf") (by decide) p.typeTf 0 (by simp [paramEntries]) i2
      have e10 := I ("FlagLagPositivity", "flag_lag_posivity") (by decide) p.posivity 0 (by simp [paramEntries]) i6
      have e11 := I ("NumPointRec", "nd_rec") (by decide) p.ndRec 200 (by simp [paramEntries]) i12
      have lagm : (p.model = 0 ∨ p.model = 2 ∨ p.model = 3) ∨ (¬ (p.model = 0 ∨ p.model = 2 ∨ p.model = 3) ∧ p.lagLow = 0 ∧ p.lagUpp = -1) := by
        cases cls with
        | gmodel => left; left; exact hmod
        | vmap => left; right; left; exact hmod
        | mmap => left; right; right; exact hmod
        | pmap => right; exact ⟨by rw [hmod]; decide, hlim (Or.inl rfl)⟩
        | nmap => right; exact ⟨by rw [hmod]; decide, hlim (Or.inr rfl)⟩
      have e12 : realField atof parTags st "lag_limit_low" 0 = p.lagLow := by
        rcases lagm with hm | ⟨hm, e, -⟩
        · exact R ("LagLimitLow", "lag_limit_low") (by decide) p.lagLow 0 (by simp [paramEntries, hm]) r1
        · rw [e]; exact RN ("LagLimitLow", "lag_limit_low") (by decide) 0 (by
            simp only [paramEntries, List.map_append, map_ite_nil, if_neg hm]; simp)
      have e13 : realField atof parTags st "lag_limit_upper" (-1) = p.lagUpp := by
        rcases lagm with hm | ⟨hm, -, e⟩
        · exact R ("LagLimitUpp", "lag_limit_upper") (by decide) p.lagUpp (-1) (by simp [paramEntries, hm]) r2
        · rw [e]; exact RN ("LagLimitUpp", "lag_limit_upper") (by decide) (-1) (by
            simp only [paramEntries, List.map_append, map_ite_nil, if_neg hm]; simp)
      have e14 : realField atof parTags st "width_limit_low" DBL_MAX = if p.wLowSet then p.wLow else DBL_MAX := by
        by_cases hw : p.wLowSet = true
        · rw [if_pos hw]
          exact R ("WidthLimitLow", "width_limit_low") (by decide) p.wLow DBL_MAX (by simp [paramEntries, hw]) r3
        · rw [if_neg hw]; exact RN ("WidthLimitLow", "width_limit_low") (by decide) DBL_MAX (by
            simp only [paramEntries, List.map_append, map_ite_nil, if_neg hw]; simp)
      have e15 : realField atof parTags st "width_limit_upper" DBL_MAX = if p.wUppSet then p.wUpp else DBL_MAX := by
        by_cases hw : p.wUppSet = true
        · rw [if_pos hw]
          exact R ("WidthLimitUpp", "width_limit_upper") (by decide) p.wUpp DBL_MAX (by simp [paramEntries, hw]) r4
        · rw [if_neg hw]; exact RN ("WidthLimitUpp", "width_limit_upper") (by decide) DBL_MAX (by
            simp only [paramEntries, List.map_append, map_ite_nil, if_neg hw]; simp)
      have e16 : textField parTags st "str_lag_prior" = if p.typeLag = 4 then p.strLag else [] := by
        by_cases hw : p.typeLag = 4
        · rw [if_pos hw]
          exact T ("StrLagPrior", "str_lag_prior") (by decide) p.strLag (by simp [paramEntries, hw])
        · rw [if_neg hw]; exact TN ("StrLagPrior", "str_lag_prior") (by decide) (by
            simp only [paramEntries, List.map_append, map_ite_nil, if_neg hw]; simp)
      have e17 := T ("StrTypeTFMix", "str_type_tf_mix") (by decide) p.strMix (by simp [paramEntries])
      simp only at e1 e2 e3 e4 e5 e6 e7 e8 e9 e10 e11 e17
      unfold cfgOf
      rw [e1, Res.ok_bind, e2, Res.ok_bind, e3, Res.ok_bind, e4, Res.ok_bind, e5, Res.ok_bind, e6, Res.ok_bind, e7,
        Res.ok_bind, e8, Res.ok_bind, e9, Res.ok_bind, e10, Res.ok_bind, e11, Res.ok_bind, e12, e13, e14, e15, e16, e17]
      rfl
    unfold readParset
    rw [hr, hst, Res.ok_bind, hcfg, Res.ok_bind]
  · refine ⟨st, hr.trans hst, ?_⟩
    constructor
    · exact T ("FileDir", "file_dir") (by decide) p.fileDir (by simp [paramEntries])
    · exact T ("DataFile", "data_file") (by decide) p.dataFile (by simp [paramEntries])
    · exact I ("FlagConSysErr", "flag_con_sys_err") (by decide) p.conSys 0 (by simp [paramEntries]) i10
    · exact I ("FlagLineSysErr", "flag_line_sys_err") (by decide) p.lineSys 0 (by simp [paramEntries]) i11
    · exact R ("TimeRecLowExt", "trec_low_ext") (by decide) p.recLow 0 (by simp [paramEntries]) r5
    · exact R ("TimeRecUppExt", "trec_upp_ext") (by decide) p.recUpp 0 (by simp [paramEntries]) r6
    · by_cases hw : p.strWidth = []
      · rw [hw]; exact TN ("StrWidthPrior", "str_width_prior") (by decide) (by
          simp only [paramEntries, List.map_append, map_ite_nil, if_neg (not_not.2 hw)]; simp)
      · exact T ("StrWidthPrior", "str_width_prior") (by decide) p.strWidth (by simp [paramEntries, hw])
    · by_cases hw : p.strRatio = []
      · rw [hw]; exact TN ("StrRatioPrior", "str_ratio_prior") (by decide) (by
          simp only [paramEntries, List.map_append, map_ite_nil, if_neg (not_not.2 hw)]; simp)
      · exact T ("StrRatioPrior", "str_ratio_prior") (by decide) p.strRatio (by simp [paramEntries, hw])
    · exact I ("FlagGap", "flag_gap") (by decide) p.flagGap 0 (by simp [paramEntries]) i14
    · by_cases hw : p.strGap = []
      · rw [hw]; exact TN ("StrGapPrior", "str_gap_prior") (by decide) (by
          simp only [paramEntries, List.map_append, map_ite_nil, if_neg (not_not.2 hw)]; simp)
      · exact T ("StrGapPrior", "str_gap_prior") (by decide) p.strGap (by simp [paramEntries, hw])

/-! ## The checks behind it -/

/-- Type of the lag prior after the checks of the C program. -/
def checkedLag (ngUpp negResp typeLag : ℤ) : ℤ :=
  if negResp = 1 ∧ (if ngUpp = 1 then 0 else typeLag) = 0 then 1 else if ngUpp = 1 then 0 else typeLag

theorem chkPrior_ok {l : Bool} {c c' : Config} (h : chkPrior l c = .ok c') : c' = c := by
  unfold chkPrior at h
  split_ifs at h; exact (Res.ok.inj h).symm

theorem chkFlags_ok {c c' : Config} (h : chkFlags c = .ok c') : c' = c := by
  unfold chkFlags at h
  split_ifs at h; exact (Res.ok.inj h).symm

theorem chkTf_ok {c c' : Config} (h : chkTf c = .ok c') : c' = c ∧ (c.uniTf ≠ 0 → c.model = 0) := by
  unfold chkTf at h
  split_ifs at h with h1 h2
  refine ⟨(Res.ok.inj h).symm, fun h3 => ?_⟩
  by_contra h4
  exact h2 ⟨h3, h4⟩

theorem chkComp_ok {c c' : Config} (h : chkComp c = .ok c') : c' = { c with ngDiff := c.ngUpp - c.ngLow + 1 } := by
  unfold chkComp at h
  split_ifs at h; exact (Res.ok.inj h).symm

theorem checkCfg_ok {l : Bool} {c c' : Config} (hm : c.model = 0 ∨ c.model = 2 ∨ c.model = 3) (h : checkCfg l c = .ok c') :
    chkMmap { setWidthFlags c with ngDiff := c.ngUpp - c.ngLow + 1, typeLag := checkedLag c.ngUpp c.negResp c.typeLag } = .ok c' ∧
      (c.uniTf ≠ 0 → c.model = 0) := by
  unfold checkCfg at h
  rw [if_neg (by omega), if_neg (by omega)] at h
  obtain ⟨c1, e1, h⟩ := Res.bind_eq_ok.1 h
  obtain ⟨c2, e2, h⟩ := Res.bind_eq_ok.1 h
  obtain ⟨c3, e3, h⟩ := Res.bind_eq_ok.1 h
  obtain ⟨c4, e4, h⟩ := Res.bind_eq_ok.1 h
  obtain ⟨c5, e5, h⟩ := Res.bind_eq_ok.1 h
  obtain ⟨c6, e6, h⟩ := Res.bind_eq_ok.1 h
  obtain ⟨c7, e7, h⟩ := Res.bind_eq_ok.1 h
  obtain ⟨rfl, -⟩ := chkLag_ok e1
  obtain ⟨rfl, -⟩ := chkWidth_ok e2
  have : c3 = setWidthFlags c1 := by
    unfold chkPmap at e3
    rw [if_neg (by show ¬ c1.model = 1; omega)] at e3
    exact (Res.ok.inj e3).symm
  subst this
  have h4 := chkComp_ok e4
  subst h4
  have h5 := chkPrior_ok e5
  subst h5
  have h6 := chkFlags_ok e6
  subst h6
  obtain ⟨h7, hu⟩ := chkTf_ok e7
  subst h7
  have key : negPrior (oneComp { setWidthFlags c1 with ngDiff := (setWidthFlags c1).ngUpp - (setWidthFlags c1).ngLow + 1 }) =
      { setWidthFlags c1 with ngDiff := c1.ngUpp - c1.ngLow + 1, typeLag := checkedLag c1.ngUpp c1.negResp c1.typeLag } := by
    unfold negPrior oneComp checkedLag setWidthFlags
    simp only
    by_cases g1 : c1.ngUpp = 1
    · by_cases g2 : c1.negResp = 1
      · simp [g1, g2]
      · simp [g1, g2]
    · by_cases g2 : c1.negResp = 1
      · by_cases g3 : c1.typeLag = 0
        · simp [g1, g2, g3]
        · simp [g1, g2, g3]
      · simp [g1, g2]
  rw [key] at hu h
  exact ⟨h, hu⟩

section file

variable {atof : List Char → ℝ} {num : ℝ → List Char} {p : PyParset} {load : Bool} {c : Config} {h : List (Bool × PyArgs)}

/-- **C117, general model.** If the C program accepts the file of a `gmodel` object, it works with the settings of the object,
except for the type of the lag prior: that is set to 0 for a single component and raised from 0 to 1 with negative responses. -/
theorem C117_gmodel_partial (ha : ReadsDecimals atof) (h0 : h ≠ [])
    (hs : pySetups .gmodel h PyParset.fresh = some p) (hd : p.dataFile ≠ [] ∧ NoSpace p.dataFile)
    (hlen : ∀ s ∈ [p.dataFile, p.strMix, p.strWidth, p.strLag, p.strRatio, p.strGap], s.length ≤ 168)
    (hnum : ∀ x ∈ p.reals, ReprOk atof num x) (hc : readParset atof load (paramText num p) = .ok c) :
    c = { setWidthFlags p.cfg with ngDiff := p.ngUpp - p.ngLow + 1, typeLag := checkedLag p.ngUpp p.negResp p.typeLag } := by
  obtain ⟨⟨hp, hm, -⟩, -⟩ := setups_ofClass hs (fresh_ofClass .gmodel)
  rw [(C117_file_partial ha .gmodel h h0 p hs hd hlen hnum load).1] at hc
  have hm := hm rfl
  obtain ⟨h1, -⟩ := checkCfg_ok (Or.inl hm) hc
  unfold chkMmap at h1
  rw [if_neg (by show ¬ p.model = 3; rw [hm]; decide)] at h1
  exact (Res.ok.inj h1).symm

/-- **C117 fails for negative responses**: from Python they are analysed with the lag prior asked for, 0 if nothing is said; from
the file with 1. -/
theorem C117_negative (ha : ReadsDecimals atof) (h0 : h ≠ [])
    (hs : pySetups .gmodel h PyParset.fresh = some p) (hd : p.dataFile ≠ [] ∧ NoSpace p.dataFile)
    (hlen : ∀ s ∈ [p.dataFile, p.strMix, p.strWidth, p.strLag, p.strRatio, p.strGap], s.length ≤ 168)
    (hnum : ∀ x ∈ p.reals, ReprOk atof num x) (hc : readParset atof load (paramText num p) = .ok c)
    (hn : p.negResp = 1) (ht : p.typeLag = 0) : c.typeLag = 1 := by
  rw [C117_gmodel_partial ha h0 hs hd hlen hnum hc, hn, ht]
  simp [checkedLag]

/-- **C117 fails for the mixture model**: from the file it has one component for each character of `type_tf` and no restriction to
positive lags; the object has the number of components and the restriction asked for. -/
theorem C117_mmap (ha : ReadsDecimals atof) (h0 : h ≠ [])
    (hs : pySetups .mmap h PyParset.fresh = some p) (hd : p.dataFile ≠ [] ∧ NoSpace p.dataFile)
    (hlen : ∀ s ∈ [p.dataFile, p.strMix, p.strWidth, p.strLag, p.strRatio, p.strGap], s.length ≤ 168)
    (hnum : ∀ x ∈ p.reals, ReprOk atof num x) (hc : readParset atof load (paramText num p) = .ok c) :
    c.ngLow = p.strMix.length ∧ c.ngUpp = p.strMix.length ∧ c.posivity = 0 := by
  obtain ⟨-, hm⟩ := setups_ofClass hs (fresh_ofClass .mmap)
  rw [(C117_file_partial ha .mmap h h0 p hs hd hlen hnum load).1] at hc
  have hm : p.model = 3 := hm h0
  obtain ⟨h1, -⟩ := checkCfg_ok (Or.inr (Or.inr hm)) hc
  unfold chkMmap at h1
  rw [if_pos (by show p.model = 3; exact hm)] at h1
  split_ifs at h1
  rw [← Res.ok.inj h1]
  exact ⟨rfl, rfl, rfl⟩

/-- **C117 fails for the options of the sampler**: in the file they are comments; reading it gives the defaults, whatever the
object has.  Only the number of saves is kept. -/
theorem C117_options (ha : ReadsDecimals atof) (cls : Mode)
    (hs : pySetups cls h PyParset.fresh = some p) (hd : p.dataFile ≠ [] ∧ NoSpace p.dataFile)
    (hlen : ∀ s ∈ [p.dataFile, p.strMix, p.strWidth, p.strLag, p.strRatio, p.strGap], s.length ≤ 168)
    (hnum : ∀ x ∈ p.reals, ReprOk atof num x) :
    ∃ st, readTags parComment parTags (paramText num p) = .ok st ∧
      parOpts atof st = .ok { PyParset.fresh.opts with maxSaves := p.opts.maxSaves } := by
  obtain ⟨⟨hp, -, -⟩, -⟩ := setups_ofClass hs (fresh_ofClass cls)
  have hr := param_ready hp hd hlen hnum
  obtain ⟨st, hst⟩ := fileEntries_ok num p
  refine ⟨st, hr.trans hst, ?_⟩
  have hi := hp.ints
  simp only [List.forall_mem_cons, List.not_mem_nil, IsEmpty.forall_iff, implies_true, and_true] at hi
  obtain ⟨i1, i2, i3, i4, i5, i6, i7, i8, i9, i10, i11, i12, i13, i14, i15, i16, i17⟩ := hi
  have N := fun f hf => otherField hst (f := f) hf
  have e1 := N "num_particles" (by decide +kernel)
  have e2 := N "max_num_levels" (by decide +kernel)
  have e3 := N "new_level_interval_factor" (by decide +kernel)
  have e4 := N "save_interval_factor" (by decide +kernel)
  have e5 := N "thread_steps_factor" (by decide +kernel)
  have e6 := N "lam" (by decide +kernel)
  have e7 := N "beta" (by decide +kernel)
  have e8 := N "max_ptol" (by decide +kernel)
  have e9 := int_of ha hst ("MaxNumberSaves", "max_num_saves") (by decide) (z := p.opts.maxSaves) 2000 (by simp [paramEntries]) i15
  simp only at e9
  unfold parOpts
  rw [e9]
  simp only [intField, realField, e1, e2, e3, e4, e5, e6, e7, e8, Res.ok_bind, PyParset.fresh]

end file

/-! ## A case -/

/-- Arguments of a `gmodel` with two components and negative responses. -/
noncomputable def argsEx : PyArgs :=
  { dataFile := some "data.txt".toList, typeTf := "gaussian".toList, uniVar := false, uniTf := 0, trend := 1, posivity := false
    negResp := true, lagLimit := (0, 100), comps := (2, 2), widthLimit := some (some 1, some 50), conSys := true
    lineSys := false, ndRec := 100, recExt := (0, 5), typeLag := 0, lagPrior := none, ratioPrior := none, widthPrior := none
    gap := false, gapPrior := none
    opts := { numParticles := 2, newLevelFactor := 3, saveFactor := 3, threadFactor := 1, maxLevels := 0, lam := 10, beta := 100
              maxSaves := 5000, ptol := 1 / 2 } }

/-- The object behind it. -/
noncomputable def parsetEx : PyParset :=
  { PyParset.fresh with
    dataFile := "data.txt".toList, trend := 1, negResp := 1, lagLow := 0, lagUpp := 100, wLowSet := true, wUppSet := true
    wLow := 1, wUpp := 50, ngLow := 2, ngUpp := 2, ngDiff := 1, conSys := 1, ndRec := 100, recLow := 0, recUpp := 5
    typeLag := 0, opts := argsEx.opts }

theorem setupEx : pySetups .gmodel [(false, argsEx)] PyParset.fresh = some parsetEx := by
  have h1 : ∀ z ∈ argsEx.ints, IntC z := by simp only [PyArgs.ints, argsEx]; decide
  have h2 : pyTypeTf argsEx.typeTf = some (0, none) := by unfold pyTypeTf; exact if_pos rfl
  simp only [pySetups, pySetParset]
  rw [if_neg (not_not.2 h1)]
  simp only [baseSetup, h2, Option.map_some, Option.bind_some]
  simp only [compSetup, widthSetup, argsEx, widthPriorSetup, gapSetup, parsetEx, PyParset.fresh, boolZ]
  simp [gapSetup]

theorem reprEx (x : ℝ) (h : ∃ n : ℕ, n < 10 ^ 8 ∧ x = n / 100) : ReprOk atofRef fmt2 x := by
  obtain ⟨n, hn, rfl⟩ := h
  have hx : |(n : ℝ) / 100| < 10 ^ 7 := by
    rw [abs_of_nonneg (by positivity), div_lt_iff₀ (by norm_num)]
    have : (n : ℝ) < (10 ^ 8 : ℕ) := by exact_mod_cast hn
    norm_num at this ⊢
    linarith
  refine ⟨fmt2_ne_nil _, fmt2_nonspace _, ?_, ?_⟩
  · unfold fmt2
    have e : ((n : ℝ) / 100 * 100) = ((n : ℤ) : ℝ) := by push_cast; field_simp
    rw [e, round_intCast]
    have hd : (Nat.toDigits 10 ((n : ℤ).natAbs / 100)).length ≤ 6 := by
      rw [Nat.length_toDigits_le_iff (by norm_num) (by norm_num)]
      rw [Int.natAbs_natCast]; omega
    simp only [List.length_append, List.length_cons, List.length_nil]
    have : (if (n : ℤ) < 0 then ['-'] else []).length ≤ 1 := by split <;> simp
    omega
  · rw [atof_fmt2 atofRef_reads]
    unfold printf2
    have e : ((n : ℝ) / 100 * 100) = ((n : ℤ) : ℝ) := by push_cast; field_simp
    rw [e, round_intCast]
    push_cast
    rfl

/-- The hypotheses of C117 hold for the case; the C program accepts the file, but uses another lag prior, two particles become one,
and the tolerance is the default. -/
example : (parsetEx.dataFile ≠ [] ∧ NoSpace parsetEx.dataFile) ∧
    (∀ s ∈ [parsetEx.dataFile, parsetEx.strMix, parsetEx.strWidth, parsetEx.strLag, parsetEx.strRatio, parsetEx.strGap], s.length ≤ 168) ∧
    (∀ x ∈ parsetEx.reals, ReprOk atofRef fmt2 x) ∧
    ∃ c, readParset atofRef false (paramText fmt2 parsetEx) = .ok c ∧ c.typeLag = 1 ∧ parsetEx.typeLag = 0 ∧
      parsetEx.opts.numParticles = 2 ∧ PyParset.fresh.opts.numParticles = 1 := by
  have hd : parsetEx.dataFile ≠ [] ∧ NoSpace parsetEx.dataFile := by
    simp only [parsetEx]; exact ⟨by decide, by unfold NoSpace; decide⟩
  have hl : ∀ s ∈ [parsetEx.dataFile, parsetEx.strMix, parsetEx.strWidth, parsetEx.strLag, parsetEx.strRatio, parsetEx.strGap],
      s.length ≤ 168 := by simp only [parsetEx, PyParset.fresh]; decide
  have hr : ∀ x ∈ parsetEx.reals, ReprOk atofRef fmt2 x := by
    simp only [PyParset.reals, parsetEx, argsEx, List.forall_mem_cons, List.not_mem_nil, IsEmpty.forall_iff, implies_true, and_true]
    refine ⟨reprEx _ ⟨0, ?_⟩, reprEx _ ⟨10000, ?_⟩, reprEx _ ⟨100, ?_⟩, reprEx _ ⟨5000, ?_⟩, reprEx _ ⟨0, ?_⟩, reprEx _ ⟨500, ?_⟩,
      reprEx _ ⟨50, ?_⟩, reprEx _ ⟨300, ?_⟩, reprEx _ ⟨300, ?_⟩, reprEx _ ⟨100, ?_⟩, reprEx _ ⟨1000, ?_⟩, reprEx _ ⟨10000, ?_⟩⟩ <;> norm_num
  refine ⟨hd, hl, hr, ?_⟩
  have hf := (C117_file_partial atofRef_reads .gmodel [(false, argsEx)] (by simp) parsetEx setupEx hd hl hr false).1
  have hD : (50 : ℝ) < DBL_MAX := by
    have : (1 : ℝ) ≤ 2 ^ 971 := one_le_pow₀ (by norm_num)
    have h2 : (51 : ℝ) ≤ 2 ^ 53 - 1 := by norm_num
    have h3 := mul_le_mul h2 this zero_le_one (le_trans (by norm_num) h2)
    unfold DBL_MAX
    exact lt_of_lt_of_le (by norm_num) h3
  have hc := C41_accepts parsetEx.cfg rfl (by show (0 : ℝ) < 100; norm_num) (by show (0 : ℝ) < 1; norm_num)
    (by show (1 : ℝ) < 50; norm_num) (by decide) (by decide) (by decide) (by decide) (by decide) (by decide)
    (by intro h; exact absurd rfl h) (Or.inl rfl) hD
  refine ⟨_, hf.trans hc, ?_, rfl, rfl, rfl⟩
  decide

end Mica
