import Verif.Proof.OptNum

/-! # Property C100: the sampler's option files -/

namespace Mica

/-! ## What a file means -/

/-- C100: for every option file whose lines fit the buffer, the sampler accepts it exactly if every tag is
known, none stands on two lines and the three whole numbers are in range; then every option has the
value of its own line, or the default if there is none, and the interval of saves follows that of
levels. -/
theorem C100_values (atof : List Char → ℝ) (lines : List (List Char)) (last : List Char)
    (h : ∀ l ∈ lines, '\n' ∉ l ∧ l.length ≤ 198) (hl : '\n' ∉ last ∧ last.length ≤ 199) :
    ((∃ o, loadOptions atof (textOf lines last) = .ok o) ↔
      (∃ st, readTags optComment optTags (textOf lines last) = .ok st) ∧
      ∀ t ∈ ["NumberParticles", "MaxNumberLevels", "MaxNumberSaves"], ∀ v, OptLine (allLines lines last) t v →
        -1 < atof v ∧ atof v < 4294967296) ∧
    ∀ o, loadOptions atof (textOf lines last) = .ok o →
      NatOpt atof (allLines lines last) "NumberParticles" 1 o.numParticles ∧
      NatOpt atof (allLines lines last) "MaxNumberLevels" 0 o.maxLevels ∧
      NatOpt atof (allLines lines last) "MaxNumberSaves" 10000 o.maxSaves ∧
      RealOpt atof (allLines lines last) "NewLevelIntervalFactor" 2 o.newLevelFactor ∧
      RealOpt atof (allLines lines last) "SaveIntervalFactor" o.newLevelFactor o.saveFactor ∧
      RealOpt atof (allLines lines last) "ThreadStepsFactor" 10 o.threadFactor ∧
      RealOpt atof (allLines lines last) "BacktrackingLength" 10 o.lam ∧
      RealOpt atof (allLines lines last) "StrengthEqualPush" 100 o.beta ∧
      RealOpt atof (allLines lines last) "PTol" (1 / 10) o.ptol := by
  cases hst : readTags optComment optTags (textOf lines last) with
  | exit => simp [loadOptions, hst]
  | ub => simp [loadOptions, hst]
  | hang => simp [loadOptions, hst]
  | ok st =>
    have hr := fun p hp d => realField_opt (atof := atof) h hl hst p hp d
    have h1 := uintField_ok (atof := atof) h hl hst ("NumberParticles", "num_particles") (by decide) 1
    have h2 := uintField_ok (atof := atof) h hl hst ("MaxNumberLevels", "max_num_levels") (by decide) 0
    have h3 := uintField_ok (atof := atof) h hl hst ("MaxNumberSaves", "max_num_saves") (by decide) 10000
    simp only at h1 h2 h3
    simp only [loadOptions, hst, Res.ok_bind, List.forall_mem_cons]
    rcases h1 with ⟨n1, e1, a1, b1⟩ | ⟨e1, v1, a1, b1⟩
    swap
    · rw [e1]
      simp only [Res.ub_bind, reduceCtorEq, exists_false, false_iff, IsEmpty.forall_iff, implies_true, and_true]
      exact fun hh => b1 (hh.2.1 v1 a1)
    rw [e1]
    rcases h2 with ⟨n2, e2, a2, b2⟩ | ⟨e2, v2, a2, b2⟩
    swap
    · rw [e2]
      simp only [Res.ok_bind, Res.ub_bind, reduceCtorEq, exists_false, false_iff, IsEmpty.forall_iff, implies_true,
        and_true]
      exact fun hh => b2 (hh.2.2.1 v2 a2)
    rw [e2]
    rcases h3 with ⟨n3, e3, a3, b3⟩ | ⟨e3, v3, a3, b3⟩
    swap
    · rw [e3]
      simp only [Res.ok_bind, Res.ub_bind, reduceCtorEq, exists_false, false_iff, IsEmpty.forall_iff, implies_true,
        and_true]
      exact fun hh => b3 (hh.2.2.2.1 v3 a3)
    rw [e3]
    simp only [Res.ok_bind, Res.ok.injEq, exists_eq', true_and, true_iff]
    refine ⟨⟨b1, b2, b3, by simp⟩, ?_⟩
    rintro o rfl
    exact ⟨a1, a2, a3, hr ("NewLevelIntervalFactor", "new_level_interval_factor") (by decide) _,
      hr ("SaveIntervalFactor", "save_interval_factor") (by decide) _,
      hr ("ThreadStepsFactor", "thread_steps_factor") (by decide) _, hr ("BacktrackingLength", "lam") (by decide) _,
      hr ("StrengthEqualPush", "beta") (by decide) _, hr ("PTol", "max_ptol") (by decide) _⟩

/-! ## The files that `mica2` writes itself -/

/-- C100: settings of the parameter file reach the sampler of the line stage through the file that
`write_options_line` writes, up to rounding to two decimals.  The three whole numbers are not
negative. -/
theorem C100_line (atof : List Char → ℝ) (ha : ReadsDecimals atof) (o : SampOpts) (hp : Printable o)
    (h0 : 0 ≤ o.numParticles ∧ 0 ≤ o.maxLevels ∧ 0 ≤ o.maxSaves) :
    loadOptions atof (writeOptionsLine o) = .ok (throughFile o) := by
  obtain ⟨st, hst⟩ := lineEntries_ok o
  have hf := fun p hp v => (optField_entries hst (p := p) hp v).2
  have hi := hp.1
  simp only [List.forall_mem_cons, abs_lt] at hi
  unfold loadOptions
  rw [readTags_line hp, hst, Res.ok_bind]
  simp only [uintField, realField]
  rw [hf ("NumberParticles", "num_particles") (by decide) (fmtInt o.numParticles) (by simp [lineEntries]),
    hf ("MaxNumberLevels", "max_num_levels") (by decide) (fmtInt o.maxLevels) (by simp [lineEntries]),
    hf ("MaxNumberSaves", "max_num_saves") (by decide) (fmtInt o.maxSaves) (by simp [lineEntries]),
    hf ("NewLevelIntervalFactor", "new_level_interval_factor") (by decide) (fmt2 o.newLevelFactor) (by simp [lineEntries]),
    hf ("SaveIntervalFactor", "save_interval_factor") (by decide) (fmt2 o.saveFactor) (by simp [lineEntries]),
    hf ("ThreadStepsFactor", "thread_steps_factor") (by decide) (fmt2 o.threadFactor) (by simp [lineEntries]),
    hf ("BacktrackingLength", "lam") (by decide) (fmt2 o.lam) (by simp [lineEntries]),
    hf ("StrengthEqualPush", "beta") (by decide) (fmt2 o.beta) (by simp [lineEntries]),
    hf ("PTol", "max_ptol") (by decide) (fmt2 o.ptol) (by simp [lineEntries])]
  simp only [atof_fmt2 ha, atof_fmtInt ha]
  rw [toU32_int h0.1 (by omega), Res.ok_bind, toU32_int h0.2.1 (by omega), Res.ok_bind,
    toU32_int h0.2.2 (by omega), Res.ok_bind]
  simp only [throughFile, Res.ok.injEq, SampOpts.mk.injEq, Int.ofNat_toNat, and_true, true_and]
  omega

/-- C100: a negative number of particles, levels or saves, which the parameter file may contain, is
undefined behaviour when the sampler reads it. -/
theorem C100_negative (atof : List Char → ℝ) (ha : ReadsDecimals atof) (o : SampOpts) (hp : Printable o)
    (h0 : o.numParticles < 0 ∨ o.maxLevels < 0 ∨ o.maxSaves < 0) :
    loadOptions atof (writeOptionsLine o) = .ub := by
  obtain ⟨st, hst⟩ := lineEntries_ok o
  have hf := fun p hp v => (optField_entries hst (p := p) hp v).2
  have hi := hp.1
  simp only [List.forall_mem_cons, abs_lt] at hi
  unfold loadOptions
  rw [readTags_line hp, hst, Res.ok_bind]
  simp only [uintField]
  rw [hf ("NumberParticles", "num_particles") (by decide) (fmtInt o.numParticles) (by simp [lineEntries]),
    hf ("MaxNumberLevels", "max_num_levels") (by decide) (fmtInt o.maxLevels) (by simp [lineEntries]),
    hf ("MaxNumberSaves", "max_num_saves") (by decide) (fmtInt o.maxSaves) (by simp [lineEntries])]
  simp only [atof_fmtInt ha]
  by_cases h1 : o.numParticles < 0
  · rw [toU32_neg h1]; rfl
  rw [toU32_int (by omega) (by omega), Res.ok_bind]
  by_cases h2 : o.maxLevels < 0
  · rw [toU32_neg h2]; rfl
  rw [toU32_int (by omega) (by omega), Res.ok_bind, toU32_neg (by omega)]; rfl

/-- Loading a file whose entries are known. -/
theorem load_entries {lines : List (List Char)} {last : List Char} {st : Assigned}
    (h : ∀ l ∈ lines, FitsLine l) (hl : FitsLine last) (hst : entLoop optTags [] (entriesOf optComment (allLines lines last)) = .ok st) :
    readTags optComment optTags (textOf lines last) = .ok st := by
  rw [readTags_text _ _ _ _ h ⟨hl.1, Nat.le_succ_of_le hl.2⟩, hst]

/-- C100: the continuum stage samples with fixed settings. -/
theorem C100_con (atof : List Char → ℝ) (ha : ReadsDecimals atof) :
    loadOptions atof writeOptionsCon = .ok
      { numParticles := 2, newLevelFactor := 5, saveFactor := 5, threadFactor := 20, maxLevels := 0, lam := 10
        beta := 100, maxSaves := 2000, ptol := 1 / 10 } := by
  have hst : readTags optComment optTags writeOptionsCon = .ok
      [(7, "2000".toList), (8, "0.1".toList), (0, "2".toList), (1, "5".toList), (3, "20".toList)] := by
    refine load_entries (lines := optHead "# DNest options for continuum reconstruction" ++ conSettings ++ [[], []] ++
      (optTail conListed).1) (last := (optTail conListed).2) ?_ ?_ ?_
    · decide +kernel
    · decide +kernel
    · decide +kernel
  have a1 : atof "2".toList = 2 := ha.whole 2
  have a2 : atof "2000".toList = 2000 := ha.whole 2000
  have a3 : atof "5".toList = 5 := ha.whole 5
  have a4 : atof "20".toList = 20 := ha.whole 20
  have a5 : atof "0.1".toList = 1 / 10 := by
    have := ha.point 0 ['1'] (by decide)
    rw [show Nat.toDigits 10 0 ++ ['.', '1'] = "0.1".toList from rfl, show digitsVal ['1'] = 1 from rfl] at this
    rw [this]; norm_num
  have u1 : toU32 2 = .ok 2 := by
    have := toU32_int (z := 2) (by norm_num) (by norm_num); exact_mod_cast this
  have u2 : toU32 2000 = .ok 2000 := by
    have := toU32_int (z := 2000) (by norm_num) (by norm_num); exact_mod_cast this
  unfold loadOptions
  rw [hst, Res.ok_bind]
  generalize hs : ([(7, "2000".toList), (8, "0.1".toList), (0, "2".toList), (1, "5".toList), (3, "20".toList)] : Assigned) = st
  have f1 : fieldText optTags st "num_particles" = some "2".toList := by rw [← hs]; decide +kernel
  have f2 : fieldText optTags st "max_num_levels" = none := by rw [← hs]; decide +kernel
  have f3 : fieldText optTags st "max_num_saves" = some "2000".toList := by rw [← hs]; decide +kernel
  have f4 : fieldText optTags st "new_level_interval_factor" = some "5".toList := by rw [← hs]; decide +kernel
  have f5 : fieldText optTags st "save_interval_factor" = none := by rw [← hs]; decide +kernel
  have f6 : fieldText optTags st "thread_steps_factor" = some "20".toList := by rw [← hs]; decide +kernel
  have f7 : fieldText optTags st "lam" = none := by rw [← hs]; decide +kernel
  have f8 : fieldText optTags st "beta" = none := by rw [← hs]; decide +kernel
  have f9 : fieldText optTags st "max_ptol" = some "0.1".toList := by rw [← hs]; decide +kernel
  simp only [uintField, realField, f1, f2, f3, f4, f5, f6, f7, f8, f9, a1, a2, a3, a4, a5, u1, u2, Res.ok_bind]
  norm_num

/-- C100 fails for the comments: both files list "Full options and their default values (if not specified)".
Written out as settings these lists mean other options than a file that specifies nothing. -/
theorem C100_comments (atof : List Char → ℝ) (ha : ReadsDecimals atof) :
    ∃ d c l, loadOptions atof [] = .ok d ∧ loadOptions atof (textOf conListed []) = .ok c ∧
      loadOptions atof (textOf lineListed []) = .ok l ∧
      (d.numParticles = 1 ∧ d.newLevelFactor = 2 ∧ d.threadFactor = 10 ∧ d.maxSaves = 10000) ∧
      (c.numParticles = 2 ∧ c.newLevelFactor = 5 ∧ c.threadFactor = 20 ∧ c.maxSaves = 2000) ∧
      (l.numParticles = 1 ∧ l.newLevelFactor = 1 ∧ l.threadFactor = 1 ∧ l.maxSaves = 2000) ∧
      (d.maxLevels = c.maxLevels ∧ d.maxLevels = l.maxLevels ∧ d.lam = c.lam ∧ d.lam = l.lam ∧
        d.beta = c.beta ∧ d.beta = l.beta ∧ d.ptol = c.ptol ∧ d.ptol = l.ptol) := by
  have w1 : atof "2".toList = 2 := ha.whole 2
  have w2 : atof "2000".toList = 2000 := ha.whole 2000
  have w3 : atof "5".toList = 5 := ha.whole 5
  have w4 : atof "20".toList = 20 := ha.whole 20
  have w5 : atof "0.1".toList = 1 / 10 := by
    have := ha.point 0 ['1'] (by decide)
    rw [show Nat.toDigits 10 0 ++ ['.', '1'] = "0.1".toList from rfl, show digitsVal ['1'] = 1 from rfl] at this
    rw [this]; norm_num
  have w6 : atof "1".toList = 1 := by have := ha.whole 1; exact_mod_cast this
  have w7 : atof "0".toList = 0 := by have := ha.whole 0; exact_mod_cast this
  have w8 : atof "10.0".toList = 10 := by
    have := ha.point 10 ['0'] (by decide)
    rw [show Nat.toDigits 10 10 ++ ['.', '0'] = "10.0".toList from rfl, show digitsVal ['0'] = 0 from rfl] at this
    rw [this]; norm_num
  have w9 : atof "100.0".toList = 100 := by
    have := ha.point 100 ['0'] (by decide)
    rw [show Nat.toDigits 10 100 ++ ['.', '0'] = "100.0".toList from rfl, show digitsVal ['0'] = 0 from rfl] at this
    rw [this]; norm_num
  have u (n : ℕ) (hn : n < 2 ^ 31) : toU32 (n : ℝ) = .ok n := by
    have := toU32_int (z := n) (by omega) (by exact_mod_cast hn); simpa using this
  have u0 : toU32 0 = .ok 0 := by have := u 0 (by norm_num); exact_mod_cast this
  have u1 : toU32 1 = .ok 1 := by have := u 1 (by norm_num); exact_mod_cast this
  have u2 : toU32 2 = .ok 2 := by have := u 2 (by norm_num); exact_mod_cast this
  have u3 : toU32 2000 = .ok 2000 := by have := u 2000 (by norm_num); exact_mod_cast this
  have hd : loadOptions atof [] = .ok ⟨1, 2, 2, 10, 0, 10, 100, 10000, 1 / 10⟩ := by
    have : readTags optComment optTags [] = .ok [] := by rw [readTags, fgetsAll]; rfl
    unfold loadOptions
    rw [this, Res.ok_bind]
    have hf : ∀ f, fieldText optTags [] f = none := fun _ => rfl
    simp [uintField, realField, hf]
  have hc : loadOptions atof (textOf conListed []) = .ok ⟨2, 5, 5, 20, 0, 10, 100, 2000, 1 / 10⟩ := by
    have hst : readTags optComment optTags (textOf conListed []) = .ok
        [(7, "2000".toList), (8, "0.1".toList), (0, "2".toList), (1, "5".toList), (2, "5".toList), (3, "20".toList),
         (4, "0".toList), (5, "10.0".toList), (6, "100.0".toList)] := by
      refine load_entries ?_ ?_ ?_
      · decide +kernel
      · decide +kernel
      · decide +kernel
    unfold loadOptions
    rw [hst, Res.ok_bind]
    generalize hs : ([(7, "2000".toList), (8, "0.1".toList), (0, "2".toList), (1, "5".toList), (2, "5".toList), (3, "20".toList),
         (4, "0".toList), (5, "10.0".toList), (6, "100.0".toList)] : Assigned) = st
    have f1 : fieldText optTags st "num_particles" = some "2".toList := by rw [← hs]; decide +kernel
    have f2 : fieldText optTags st "max_num_levels" = some "0".toList := by rw [← hs]; decide +kernel
    have f3 : fieldText optTags st "max_num_saves" = some "2000".toList := by rw [← hs]; decide +kernel
    have f4 : fieldText optTags st "new_level_interval_factor" = some "5".toList := by rw [← hs]; decide +kernel
    have f5 : fieldText optTags st "save_interval_factor" = some "5".toList := by rw [← hs]; decide +kernel
    have f6 : fieldText optTags st "thread_steps_factor" = some "20".toList := by rw [← hs]; decide +kernel
    have f7 : fieldText optTags st "lam" = some "10.0".toList := by rw [← hs]; decide +kernel
    have f8 : fieldText optTags st "beta" = some "100.0".toList := by rw [← hs]; decide +kernel
    have f9 : fieldText optTags st "max_ptol" = some "0.1".toList := by rw [← hs]; decide +kernel
    simp only [uintField, realField, f1, f2, f3, f4, f5, f6, f7, f8, f9, w1, w2, w3, w4, w5, w7, w8, w9, u0, u2, u3,
      Res.ok_bind]
    norm_num
  have hl : loadOptions atof (textOf lineListed []) = .ok ⟨1, 1, 1, 1, 0, 10, 100, 2000, 1 / 10⟩ := by
    have hst : readTags optComment optTags (textOf lineListed []) = .ok
        [(7, "2000".toList), (8, "0.1".toList), (0, "1".toList), (1, "1".toList), (2, "1".toList), (3, "1".toList),
         (4, "0".toList), (5, "10.0".toList), (6, "100.0".toList)] := by
      refine load_entries ?_ ?_ ?_
      · decide +kernel
      · decide +kernel
      · decide +kernel
    unfold loadOptions
    rw [hst, Res.ok_bind]
    generalize hs : ([(7, "2000".toList), (8, "0.1".toList), (0, "1".toList), (1, "1".toList), (2, "1".toList), (3, "1".toList),
         (4, "0".toList), (5, "10.0".toList), (6, "100.0".toList)] : Assigned) = st
    have f1 : fieldText optTags st "num_particles" = some "1".toList := by rw [← hs]; decide +kernel
    have f2 : fieldText optTags st "max_num_levels" = some "0".toList := by rw [← hs]; decide +kernel
    have f3 : fieldText optTags st "max_num_saves" = some "2000".toList := by rw [← hs]; decide +kernel
    have f4 : fieldText optTags st "new_level_interval_factor" = some "1".toList := by rw [← hs]; decide +kernel
    have f5 : fieldText optTags st "save_interval_factor" = some "1".toList := by rw [← hs]; decide +kernel
    have f6 : fieldText optTags st "thread_steps_factor" = some "1".toList := by rw [← hs]; decide +kernel
    have f7 : fieldText optTags st "lam" = some "10.0".toList := by rw [← hs]; decide +kernel
    have f8 : fieldText optTags st "beta" = some "100.0".toList := by rw [← hs]; decide +kernel
    have f9 : fieldText optTags st "max_ptol" = some "0.1".toList := by rw [← hs]; decide +kernel
    simp only [uintField, realField, f1, f2, f3, f4, f5, f6, f7, f8, f9, w2, w5, w6, w7, w8, w9, u0, u1, u3,
      Res.ok_bind]
    norm_num
  exact ⟨_, _, _, hd, hc, hl, by norm_num, by norm_num, by norm_num, by norm_num⟩

/-! ## The second reader -/

/-- C100 (part): the number of particles that `mica2` takes from a user's option file is the one the sampler
uses, for files that the sampler accepts and that contain no line of a single word, with the number
written in decimal digits.  Missing: other files, see below. -/
theorem C100_particles_partial (atof : List Char → ℝ) (ha : ReadsDecimals atof) (lines : List (List Char))
    (last : List Char) (h : ∀ l ∈ lines, '\n' ∉ l ∧ l.length ≤ 198) (hl : '\n' ∉ last ∧ last.length ≤ 199)
    (hne : textOf lines last ≠ []) (o : SampOpts) (ho : loadOptions atof (textOf lines last) = .ok o)
    (hone : ∀ l ∈ allLines lines last, OneWord l → l.head? = some '#')
    (hdec : ∀ v, OptLine (allLines lines last) "NumberParticles" v → ∃ n : ℕ, v = Nat.toDigits 10 n) :
    getNumParticles (textOf lines last) = .ok o.numParticles := by
  rw [getNum_text (fun l hl => ⟨(h l hl).1, by have := (h l hl).2; omega⟩) ⟨hl.1, by omega⟩ hne]
  have hv := ((C100_values atof lines last h hl).2 o ho).1
  have hopt : ∀ v, (∃ (i : ℕ) (l : List Char), (allLines lines last)[i]? = some l ∧ IsEntry l "NumberParticles".toList v) ↔
      OptLine (allLines lines last) "NumberParticles" v := by
    intro v
    constructor
    · rintro ⟨i, l, h1, h2⟩; exact ⟨i, l, h1, h2, by decide⟩
    · rintro ⟨i, l, h1, h2, -⟩; exact ⟨i, l, h1, h2⟩
  have hex : numLoop (allLines lines last) ≠ .exit := by
    rw [Ne, numLoop_exit]
    rintro ⟨i, l, h1, h2, h3, -⟩
    exact h3 (hone l (List.mem_of_getElem? h1) h2)
  by_cases hin : ∃ v, OptLine (allLines lines last) "NumberParticles" v
  · obtain ⟨v, hv1⟩ := hin
    obtain ⟨i, l, h1, h2⟩ := (hopt v).2 hv1
    refine numLoop_found hex ⟨i, l, v, h1, h2⟩ ?_
    intro j l' v' h1' h2'
    have hv' := (hopt v').1 ⟨j, l', h1', h2'⟩
    obtain ⟨n, rfl⟩ := hdec v' hv'
    rw [hv.1 _ hv', ha.whole, atoi_digits, Nat.floor_natCast]
  · rw [hv.2 (fun v hv' => hin ⟨v, hv'⟩)]
    exact numLoop_absent hex (fun i l v h1 h2 => hin ⟨v, (hopt v).1 ⟨i, l, h1, h2⟩⟩)

/-- C100: `mica2` refuses a user's option file exactly if a line of a single word that does not begin with
`#` stands before the number of particles. -/
theorem C100_refused (lines : List (List Char)) (last : List Char)
    (h : ∀ l ∈ lines, '\n' ∉ l ∧ l.length ≤ 254) (hl : '\n' ∉ last ∧ last.length ≤ 255)
    (hne : textOf lines last ≠ []) :
    getNumParticles (textOf lines last) = .exit ↔
      ∃ (i : ℕ) (l : List Char), (allLines lines last)[i]? = some l ∧ OneWord l ∧ l.head? ≠ some '#' ∧
        ∀ (j : ℕ) (l' v : List Char), j < i → (allLines lines last)[j]? = some l' →
          ¬ IsEntry l' "NumberParticles".toList v := by
  rw [getNum_text h hl hne, numLoop_exit]

/-- C100 fails, part 1: the sampler accepts a file with a line `%` and an empty file, `mica2` stops at the
first and looks at memory never written for the second. -/
theorem C100_refuses_accepted (atof : List Char → ℝ) (ha : ReadsDecimals atof) :
    (∃ o, loadOptions atof (textOf ["%".toList, "NumberParticles 2".toList] []) = .ok o ∧ o.numParticles = 2) ∧
    getNumParticles (textOf ["%".toList, "NumberParticles 2".toList] []) = .exit ∧
    (∃ o, loadOptions atof [] = .ok o) ∧ getNumParticles [] = .ub := by
  refine ⟨?_, ?_, ?_, rfl⟩
  · have hst : readTags optComment optTags (textOf ["%".toList, "NumberParticles 2".toList] []) = .ok [(0, "2".toList)] := by
      refine load_entries ?_ ?_ ?_
      · decide +kernel
      · decide +kernel
      · decide +kernel
    have a1 : atof "2".toList = 2 := ha.whole 2
    have u2 : toU32 2 = .ok 2 := by
      have := toU32_int (z := 2) (by norm_num) (by norm_num); exact_mod_cast this
    have f1 : fieldText optTags [(0, "2".toList)] "num_particles" = some "2".toList := by decide +kernel
    have f2 : fieldText optTags [(0, "2".toList)] "max_num_levels" = none := by decide +kernel
    have f3 : fieldText optTags [(0, "2".toList)] "max_num_saves" = none := by decide +kernel
    unfold loadOptions
    rw [hst, Res.ok_bind]
    simp only [uintField, f1, f2, f3, a1, u2, Res.ok_bind, Res.ok.injEq]
    exact ⟨_, rfl, rfl⟩
  · rw [getNum_text (by decide +kernel) (by decide) (by decide +kernel)]
    decide +kernel
  · obtain ⟨d, c, l, hd, -⟩ := C100_comments atof ha
    exact ⟨d, hd⟩

/-- C100 fails, part 2: `1e2` is a hundred particles for the sampler and one for `mica2`. -/
theorem C100_exponent (atof : List Char → ℝ) (ha : atof "1e2".toList = 100) :
    (∃ o, loadOptions atof (textOf ["NumberParticles 1e2".toList] []) = .ok o ∧ o.numParticles = 100) ∧
    getNumParticles (textOf ["NumberParticles 1e2".toList] []) = .ok 1 := by
  constructor
  · have hst : readTags optComment optTags (textOf ["NumberParticles 1e2".toList] []) = .ok [(0, "1e2".toList)] := by
      refine load_entries ?_ ?_ ?_
      · decide +kernel
      · decide +kernel
      · decide +kernel
    have u2 : toU32 100 = .ok 100 := by
      have := toU32_int (z := 100) (by norm_num) (by norm_num); exact_mod_cast this
    have f1 : fieldText optTags [(0, "1e2".toList)] "num_particles" = some "1e2".toList := by decide +kernel
    have f2 : fieldText optTags [(0, "1e2".toList)] "max_num_levels" = none := by decide +kernel
    have f3 : fieldText optTags [(0, "1e2".toList)] "max_num_saves" = none := by decide +kernel
    unfold loadOptions
    rw [hst, Res.ok_bind]
    simp only [uintField, f1, f2, f3, ha, u2, Res.ok_bind, Res.ok.injEq]
    exact ⟨_, rfl, rfl⟩
  · rw [getNum_text (by decide +kernel) (by decide) (by decide +kernel)]
    decide +kernel

/-! ## The two stages -/

/-- C100: without option files of the user, the continuum stage samples with fixed settings and the line
stage with those of the parameter file. -/
theorem C100_stages (atof : List Char → ℝ) (ha : ReadsDecimals atof) (parset : SampOpts) (hp : Printable parset)
    (h0 : 0 ≤ parset.numParticles ∧ 0 ≤ parset.maxLevels ∧ 0 ≤ parset.maxSaves) :
    ∃ p', conStageOpts atof none parset = .ok (⟨2, 5, 5, 20, 0, 10, 100, 2000, 1 / 10⟩, p') ∧
      lineStageOpts atof none p' = .ok (throughFile parset) := by
  refine ⟨parset, ?_, C100_line atof ha parset hp h0⟩
  simp only [conStageOpts, C100_con atof ha, Res.ok_bind]

/-- C100: an option file of the user for the line stage replaces the settings of the parameter file
completely, whatever those are. -/
theorem C100_user (atof : List Char → ℝ) (t : List Char) (p q : SampOpts) :
    lineStageOpts atof (some t) p = lineStageOpts atof (some t) q ∧
    ∀ o, lineStageOpts atof (some t) p = .ok o → loadOptions atof t = .ok o := by
  refine ⟨rfl, ?_⟩
  intro o h
  obtain ⟨z, -, h2⟩ := Res.bind_eq_ok.1 h
  exact h2

/-- C100 fails for a run with an option file for the continuum stage only: the number of particles in that
file, or 1 if it has none, replaces the one of the parameter file in the line stage; the other
settings are kept. -/
theorem C100_override (atof : List Char → ℝ) (ha : ReadsDecimals atof) (t : List Char) (o p' parset : SampOpts)
    (hp : Printable parset) (h0 : 0 ≤ parset.maxLevels ∧ 0 ≤ parset.maxSaves)
    (hc : conStageOpts atof (some t) parset = .ok (o, p')) (hn : 0 ≤ p'.numParticles ∧ p'.numParticles < 2 ^ 31) :
    getNumParticles t = .ok p'.numParticles ∧
    lineStageOpts atof none p' = .ok (throughFile { parset with numParticles := p'.numParticles }) := by
  simp only [conStageOpts] at hc
  obtain ⟨z, h1, h2⟩ := Res.bind_eq_ok.1 hc
  obtain ⟨o', h3, h4⟩ := Res.bind_eq_ok.1 h2
  simp only [Res.ok.injEq, Prod.mk.injEq] at h4
  obtain ⟨rfl, rfl⟩ := h4
  refine ⟨h1, ?_⟩
  refine C100_line atof ha _ ?_ ⟨hn.1, h0.1, h0.2⟩
  obtain ⟨hi, hr⟩ := hp
  refine ⟨?_, hr⟩
  simp only [List.forall_mem_cons, abs_lt] at hi hn ⊢
  exact ⟨hi.1, ⟨by omega, hn.2⟩, hi.2.2⟩

/-! ## The hypotheses can be met -/

/-- A simple reader of decimal numbers. -/
noncomputable def atofRef (s : List Char) : ℝ :=
  let pos (r : List Char) : ℝ := (digitsVal (r.takeWhile Char.isDigit) : ℝ) +
    (digitsVal (((r.dropWhile Char.isDigit).drop 1).takeWhile Char.isDigit) : ℝ) /
      10 ^ (((r.dropWhile Char.isDigit).drop 1).takeWhile Char.isDigit).length
  match s with
  | '-' :: r => - pos r
  | r => pos r

theorem atofRef_digit {c : Char} {s : List Char} (hc : c.isDigit = true) :
    atofRef (c :: s) = (digitsVal ((c :: s).takeWhile Char.isDigit) : ℝ) +
      (digitsVal ((((c :: s).dropWhile Char.isDigit).drop 1).takeWhile Char.isDigit) : ℝ) /
        10 ^ ((((c :: s).dropWhile Char.isDigit).drop 1).takeWhile Char.isDigit).length := by
  have : c ≠ '-' := by rintro rfl; revert hc; decide
  unfold atofRef
  split
  · rename_i h; simp_all
  · rfl

theorem atofRef_reads : ReadsDecimals atofRef := by
  have hdig : ∀ n, ∀ c ∈ Nat.toDigits 10 n, c.isDigit = true := fun n c hc =>
    Nat.isDigit_of_mem_toDigits (by norm_num) (by norm_num) hc
  have hmain : ∀ (n : ℕ) (r : List Char), (∀ c s, r = c :: s → c.isDigit = false) →
      atofRef (Nat.toDigits 10 n ++ r) = n + (digitsVal ((r.drop 1).takeWhile Char.isDigit) : ℝ) /
        10 ^ ((r.drop 1).takeWhile Char.isDigit).length := by
    intro n r hr
    obtain ⟨c, s, hcs⟩ := List.exists_cons_of_ne_nil (Nat.toDigits_ne_nil (b := 10) (n := n))
    have e1 : (Nat.toDigits 10 n ++ r).takeWhile Char.isDigit = Nat.toDigits 10 n := by
      rw [List.takeWhile_append_of_pos (hdig n)]
      cases r with
      | nil => simp
      | cons a r => simp [hr a r rfl]
    have e2 : (Nat.toDigits 10 n ++ r).dropWhile Char.isDigit = r := by
      rw [List.dropWhile_append_of_pos (hdig n)]
      cases r with
      | nil => rfl
      | cons a r => simp [hr a r rfl]
    have hv := digitsVal_toDigits n
    have hc : c.isDigit = true := hdig n c (by rw [hcs]; simp)
    rw [← e1] at hv
    rw [hcs, List.cons_append] at e1 e2 hv ⊢
    rw [atofRef_digit hc, hv, e2]
  refine ⟨?_, ?_, ?_⟩
  · intro n
    have := hmain n [] (by simp)
    simpa [digitsVal] using this
  · intro n ds hds
    rw [hmain n ('.' :: ds) (by rintro c s h; cases h; decide)]
    have : ds.takeWhile Char.isDigit = ds := by rw [List.takeWhile_eq_self_iff]; exact hds
    simp only [List.drop_succ_cons, List.drop_zero, this]
  · intro c s hc
    rw [atofRef_digit hc]
    rfl

example : ReadsDecimals atofRef ∧ ∃ o : SampOpts, Printable o ∧ 0 ≤ o.numParticles ∧ 0 ≤ o.maxLevels ∧ 0 ≤ o.maxSaves ∧
    o.ptol = 1 / 10 ∧ o.maxSaves = 2000 := by
  refine ⟨atofRef_reads, ⟨2, 1, 1, 1, 0, 10, 100, 2000, 1 / 10⟩, ⟨?_, ?_⟩, by norm_num, by norm_num, by norm_num, rfl, rfl⟩
  · simp only [List.forall_mem_cons]; norm_num
  · simp only [List.forall_mem_cons]; norm_num [abs_of_pos]

/-- A negative number of particles. -/
example : ∃ o : SampOpts, Printable o ∧ o.numParticles < 0 := by
  refine ⟨⟨-1, 1, 1, 1, 0, 10, 100, 2000, 1 / 10⟩, ⟨?_, ?_⟩, by norm_num⟩
  · simp only [List.forall_mem_cons]; norm_num
  · simp only [List.forall_mem_cons]; norm_num [abs_of_pos]

/-- A run with an option file for the continuum stage only: 4 particles there and in the line stage, although
the parameter file says 1. -/
example : ∃ o p', conStageOpts atofRef (some (textOf ["NumberParticles 4".toList] []))
      ⟨1, 1, 1, 1, 0, 10, 100, 2000, 1 / 10⟩ = .ok (o, p') ∧ p'.numParticles = 4 := by
  have ho : ∃ o, loadOptions atofRef (textOf ["NumberParticles 4".toList] []) = .ok o := by
    have hst : readTags optComment optTags (textOf ["NumberParticles 4".toList] []) = .ok [(0, "4".toList)] := by
      refine load_entries ?_ ?_ ?_
      · decide +kernel
      · decide +kernel
      · decide +kernel
    have u2 : toU32 4 = .ok 4 := by
      have := toU32_int (z := 4) (by norm_num) (by norm_num); exact_mod_cast this
    have a1 : atofRef "4".toList = 4 := atofRef_reads.whole 4
    have f1 : fieldText optTags [(0, "4".toList)] "num_particles" = some "4".toList := by decide +kernel
    have f2 : fieldText optTags [(0, "4".toList)] "max_num_levels" = none := by decide +kernel
    have f3 : fieldText optTags [(0, "4".toList)] "max_num_saves" = none := by decide +kernel
    unfold loadOptions
    rw [hst, Res.ok_bind]
    simp only [uintField, f1, f2, f3, a1, u2, Res.ok_bind, Res.ok.injEq]
    exact ⟨_, rfl⟩
  obtain ⟨o, ho⟩ := ho
  have hg : getNumParticles (textOf ["NumberParticles 4".toList] []) = .ok 4 := by
    rw [getNum_text (by decide +kernel) (by decide) (by decide +kernel)]
    decide +kernel
  exact ⟨o, ⟨4, 1, 1, 1, 0, 10, 100, 2000, 1 / 10⟩, by simp only [conStageOpts, hg, ho, Res.ok_bind], rfl⟩

end Mica
