import Verif.Proof.StartDir
import Mathlib.Tactic.SplitIfs

/-!
# C152: the directories a run starts with
-/

namespace Mica

/-- **C152 (what a run needs).**  A run that gets through its start had directories `data` and `param` in the current
directory, its data file, a directory `data` in the directory that `FileDir` names and, if it writes the sampler options
itself, a directory `param` there; an options file it was given exists.  It has made no directory and replaced none. -/
theorem C152_needs {t t' : FsTree} {cwd : List CStr} {s : StartCfg} (hc : t cwd = some .dir)
    (h : startRun t cwd s = .ok t') :
    t (cwd ++ [fData]) = some .dir ∧ t (cwd ++ [fParam]) = some .dir ∧ fsStat t cwd (s.fileDir ++ '/' :: s.dataFile) ≠ none ∧
      (∃ D, Mica.runDir t cwd s.fileDir = some D ∧ t (D ++ [fData]) = some .dir ∧
        (s.optFile = [] → t (D ++ [fParam]) = some .dir)) ∧
      (s.optFile ≠ [] → fsStat t' cwd s.optFile ≠ none) ∧ ∀ p, t' p = some .dir ↔ t p = some .dir := by
  unfold startRun at h
  split at h
  · simp at h
  next h1 =>
  split at h
  · simp at h
  next h2 =>
  split at h
  · simp at h
  next h3 =>
  obtain ⟨t1, ht1, h⟩ := Res.bind_eq_ok.1 h
  obtain ⟨D, hD, hd, hn, rfl⟩ := openNorm.1 ht1
  have s1 := sameDirs_update hn
  obtain ⟨t2, ht2, h⟩ := Res.bind_eq_ok.1 h
  have key : (s.optFile = [] → t (D ++ [fParam]) = some .dir) ∧
      SameDirs (Function.update t (D ++ [fData] ++ [fNorm]) (some .file)) t2 := by
    unfold stageOptions at ht2
    split at ht2
    · next ho =>
      rw [optPath, if_pos ho] at ht2
      obtain ⟨D', hD', hp, hpp, rfl⟩ := (openOpt s.con).1 ht2
      rw [← s1.runDir, hD] at hD'
      cases hD'
      exact ⟨fun _ => (s1 _).2 hp, sameDirs_update hpp⟩
    · next ho =>
      split at ht2
      · simp at ht2
      · cases ht2
        exact ⟨fun h => absurd h ho, SameDirs.refl _⟩
  have s2 := s1.trans key.2
  obtain ⟨t3, ht3, h⟩ := Res.bind_eq_ok.1 h
  rw [checkDirectory, stat_data (by rw [← s2.runDir]; exact hD) ((s2 _).1 hd)] at ht3
  cases ht3
  split at h
  · simp at h
  next h6 =>
  obtain ⟨t4, ht4, h⟩ := Res.bind_eq_ok.1 h
  obtain ⟨D4, -, -, h4, rfl⟩ := openDOpt.1 ht4
  have s4 := s2.trans (sameDirs_update h4)
  split at h
  · simp at h
  next t5 ht5 =>
  cases h
  obtain ⟨D5, -, -, h5, rfl⟩ := (openStatus s.con).1 ht5
  have s5 := s4.trans (sameDirs_update h5)
  refine ⟨(stat_here hc).1.1 (by simpa using h1), (stat_here hc).2.1 (by simpa using h2), h3, ⟨D, hD, hd, key.1⟩,
    fun ho => ?_, fun p => (s5 p).symm⟩
  rw [optPath, if_neg ho] at h6
  exact stat_update h5 (stat_update h4 h6)

/-- **C152 (it suffices).**  With directories `data` and `param` in the current directory and in the directory that `FileDir`
names, the data file, and no directories in the places of the files, the start succeeds; exactly the four files are written. -/
theorem C152_start {t : FsTree} {cwd D : List CStr} {s : StartCfg} (hc : t cwd = some .dir)
    (h1 : t (cwd ++ [fData]) = some .dir) (h2 : t (cwd ++ [fParam]) = some .dir)
    (h3 : fsStat t cwd (s.fileDir ++ '/' :: s.dataFile) ≠ none) (ho : s.optFile = [])
    (hD : Mica.runDir t cwd s.fileDir = some D) (hd : t (D ++ [fData]) = some .dir) (hp : t (D ++ [fParam]) = some .dir)
    (hn : ∀ f ∈ [fNorm, fDOpt, statusName s.con], t (D ++ [fData] ++ [f]) ≠ some .dir)
    (hm : t (D ++ [fParam] ++ [optName s.con]) ≠ some .dir) :
    ∃ t', startRun t cwd s = .ok t' ∧ ∀ p, t' p =
      if p ∈ [D ++ [fData] ++ [fNorm], D ++ [fParam] ++ [optName s.con], D ++ [fData] ++ [fDOpt],
        D ++ [fData] ++ [statusName s.con]] then some .file else t p := by
  have s1 : SameDirs t _ := sameDirs_update (hn fNorm (by simp))
  have hm1 := mt (s1 _).2 hm
  have s2 := s1.trans (sameDirs_update hm1)
  have hn2 := mt (s2 _).2 (hn fDOpt (by simp))
  have s3 := s2.trans (sameDirs_update hn2)
  have hn3 := mt (s3 _).2 (hn (statusName s.con) (by simp))
  have e1 := openNorm.2 ⟨D, hD, hd, hn fNorm (by simp), rfl⟩
  have e2 := (openOpt s.con).2 ⟨D, (s1.runDir cwd s.fileDir).symm.trans hD, (s1 _).1 hp, hm1, rfl⟩
  have e3 := openDOpt.2 ⟨D, (s2.runDir cwd s.fileDir).symm.trans hD, (s2 _).1 hd, hn2, rfl⟩
  have e4 := (openStatus s.con).2 ⟨D, (s3.runDir cwd s.fileDir).symm.trans hD, (s3 _).1 hd, hn3, rfl⟩
  have ec := stat_data ((s2.runDir cwd s.fileDir).symm.trans hD) ((s2 _).1 hd)
  have eo : optPath s = s.fileDir ++ ("/param/".toList ++ optName s.con) := if_pos ho
  refine ⟨Function.update (Function.update (Function.update (Function.update t (D ++ [fData] ++ [fNorm]) (some .file))
    (D ++ [fParam] ++ [optName s.con]) (some .file)) (D ++ [fData] ++ [fDOpt]) (some .file))
    (D ++ [fData] ++ [statusName s.con]) (some .file), ?_, ?_⟩
  · unfold startRun
    rw [if_neg (by simpa using (stat_here hc).1.2 h1), if_neg (by simpa using (stat_here hc).2.2 h2), if_neg h3]
    simp only [e1, Res.ok_bind, stageOptions, if_pos ho, eo, e2, checkDirectory, ec]
    rw [if_neg]
    · simp only [e3, Res.ok_bind, e4]
    · obtain ⟨p, hp, -, hq⟩ := fsOpenW_some (openOrExit_ok.1 e2)
      rw [fsStat, ← (sameDirs_update hm1).resolve, hp, Option.bind_some, hq]
      simp
  · intro p
    simp only [Function.update_apply, List.mem_cons, List.not_mem_nil, or_false]
    split_ifs <;> simp_all

/-- **C152 (no undefined behaviour).**  The start either succeeds or stops with a message, unless a directory has the name of
the status file. -/
theorem C152_no_ub {t : FsTree} {cwd : List CStr} {s : StartCfg} (h : startRun t cwd s = .ub) :
    ∃ D, Mica.runDir t cwd s.fileDir = some D ∧ t (D ++ [fData] ++ [statusName s.con]) = some .dir := by
  unfold startRun at h
  split at h
  · simp at h
  split at h
  · simp at h
  split at h
  · simp at h
  rcases Res.bind_eq_ub.1 h with h | ⟨t1, ht1, h⟩
  · exact absurd h (openOrExit_ub _ _ _)
  obtain ⟨D, hD, hd, hn, rfl⟩ := openNorm.1 ht1
  have s1 := sameDirs_update hn
  rcases Res.bind_eq_ub.1 h with h | ⟨t2, ht2, h⟩
  · exact absurd h (stageOptions_ub _ _ _)
  have s2 := s1.trans (stageOptions_same ht2)
  rcases Res.bind_eq_ub.1 h with h | ⟨t3, ht3, h⟩
  · exact absurd h (checkDirectory_ub _ _ _)
  rw [checkDirectory, stat_data (by rw [← s2.runDir]; exact hD) ((s2 _).1 hd)] at ht3
  cases ht3
  split at h
  · simp at h
  rcases Res.bind_eq_ub.1 h with h | ⟨t4, ht4, h⟩
  · exact absurd h (openOrExit_ub _ _ _)
  obtain ⟨D4, -, -, h4, rfl⟩ := openDOpt.1 ht4
  have s4 := s2.trans (sameDirs_update h4)
  refine ⟨D, hD, ?_⟩
  by_contra hst
  split at h
  · next hno =>
    have := (openStatus s.con).2 ⟨D, (s4.runDir cwd s.fileDir).symm.trans hD, (s4 _).1 hd, mt (s4 _).2 hst, rfl⟩
    rw [hno] at this
    simp at this
  · simp at h

/-- `C152_no_ub`: such a directory does lead to undefined behaviour. -/
example : startRun (fun p => if p = [fData, "status.txt".toList] ∨ p = [] ∨ p = [fData] ∨ p = [fParam] then some .dir
    else if p = ["d.txt".toList] then some .file else none) [] ⟨".".toList, "d.txt".toList, [], true⟩ = .ub := by
  rfl

/-- **C152 (refused).**  Without `data` or `param` in the current directory the run is refused, whatever `FileDir` holds. -/
theorem C152_refused {t : FsTree} {cwd : List CStr} (s : StartCfg) (hc : t cwd = some .dir)
    (h : t (cwd ++ [fData]) ≠ some .dir ∨ t (cwd ++ [fParam]) ≠ some .dir) : startRun t cwd s = .exit := by
  unfold startRun
  split
  · rfl
  next h1 =>
  split
  · rfl
  next h2 =>
  rcases h with h | h
  · exact absurd ((stat_here hc).1.1 (by simpa using h1)) h
  · exact absurd ((stat_here hc).2.1 (by simpa using h2)) h

/-- `./` and `.` name the current directory. -/
theorem runDir_dot {t : FsTree} {cwd : List CStr} (hc : t cwd = some .dir) :
    Mica.runDir t cwd "./".toList = some cwd ∧ Mica.runDir t cwd ".".toList = some cwd := by
  have h1 : Mica.runDir t cwd "./".toList = fsWalk t cwd [['.'], [], []] := rfl
  have h2 : Mica.runDir t cwd ".".toList = fsWalk t cwd [['.'], []] := rfl
  rw [h1, h2]
  simp [fsWalk, hc]

/-- **C152 (in the current directory).**  If `FileDir` names the current directory, the run starts exactly if `data` and
`param` are there.  Missing for other values of `FileDir`: `C152_elsewhere`, `C152_unnamed`. -/
theorem C152_here_partial {t : FsTree} {cwd : List CStr} {s : StartCfg} (hc : t cwd = some .dir)
    (hD : Mica.runDir t cwd s.fileDir = some cwd) (ho : s.optFile = [])
    (h3 : fsStat t cwd (s.fileDir ++ '/' :: s.dataFile) ≠ none)
    (hn : ∀ f ∈ [fNorm, fDOpt, statusName s.con], t (cwd ++ [fData] ++ [f]) ≠ some .dir)
    (hm : t (cwd ++ [fParam] ++ [optName s.con]) ≠ some .dir) :
    ((∃ t', startRun t cwd s = .ok t') ↔ t (cwd ++ [fData]) = some .dir ∧ t (cwd ++ [fParam]) = some .dir) ∧
      ((¬∃ t', startRun t cwd s = .ok t') → startRun t cwd s = .exit) := by
  have key : t (cwd ++ [fData]) = some .dir ∧ t (cwd ++ [fParam]) = some .dir → ∃ t', startRun t cwd s = .ok t' := by
    rintro ⟨h1, h2⟩
    obtain ⟨t', h, -⟩ := C152_start hc h1 h2 h3 ho hD h1 h2 hn hm
    exact ⟨t', h⟩
  refine ⟨⟨?_, key⟩, fun h => C152_refused s hc ?_⟩
  · rintro ⟨t', h⟩
    exact ⟨(C152_needs hc h).1, (C152_needs hc h).2.1⟩
  · by_contra hh
    rw [not_or, not_not, not_not] at hh
    exact h (key hh)

/-- **C152 (no `FileDir`).**  Without `FileDir` in the parameter file (the default is the empty string) the run works in the
root directory of the file system, not in the current one. -/
theorem C152_unnamed {t t' : FsTree} {cwd : List CStr} {s : StartCfg} (hc : t cwd = some .dir) (hs : s.fileDir = [])
    (h : startRun t cwd s = .ok t') : t [fData] = some .dir ∧ (s.optFile = [] → t [fParam] = some .dir) := by
  obtain ⟨-, -, -, ⟨D, hD, hd, hp⟩, -, -⟩ := C152_needs hc h
  have e : Mica.runDir t cwd [] = fsWalk t [] [[], []] := rfl
  rw [hs, e] at hD
  simp only [fsWalk, true_or, if_true] at hD
  split at hD
  · cases hD
    exact ⟨hd, hp⟩
  · simp at hD

/-- An example: everything in `/run`, the user in `/home`. -/
def exTree : FsTree := fun p =>
  if p = [] ∨ p = ["home".toList] ∨ p = ["run".toList] ∨ p = ["run".toList, fData] ∨ p = ["run".toList, fParam] then some .dir
  else if p = ["run".toList, "d.txt".toList] then some .file else none

/-- **C152 (elsewhere).**  A run whose `FileDir` has all that is needed is refused because of the current directory; the same
run starts from `FileDir` itself. -/
theorem C152_elsewhere :
    startRun exTree ["home".toList] ⟨"/run".toList, "d.txt".toList, [], true⟩ = .exit ∧
      ∃ t', startRun exTree ["run".toList] ⟨"/run".toList, "d.txt".toList, [], true⟩ = .ok t' ∧
        t' ["run".toList, "param".toList, "OPTIONSCON".toList] = some .file ∧
        t' ["run".toList, "data".toList, "status.txt".toList] = some .file := by
  refine ⟨C152_refused _ (by decide) (Or.inl (by decide)), ?_⟩
  obtain ⟨t', h, ht⟩ := C152_start (t := exTree) (cwd := ["run".toList]) (D := ["run".toList])
    (s := ⟨"/run".toList, "d.txt".toList, [], true⟩) (by decide) (by decide) (by decide) (by decide) rfl (by decide)
    (by decide) (by decide) (by decide) (by decide)
  refine ⟨t', h, ?_, ?_⟩
  · rw [ht]; decide
  · rw [ht]; decide

/-- `C152_here_partial` with `./`. -/
example : ∃ t', startRun exTree ["run".toList] ⟨"./".toList, "d.txt".toList, [], true⟩ = .ok t' :=
  (C152_here_partial (by decide) (by decide) rfl (by decide) (by decide) (by decide)).1.2 ⟨by decide, by decide⟩

/-- `C152_unnamed` refuses what a user in the right directory means. -/
example : startRun exTree ["run".toList] ⟨[], "d.txt".toList, [], true⟩ = .exit := by
  unfold startRun
  rw [if_neg (by decide), if_neg (by decide), if_pos (by decide)]

/-- `C152_start` with `./../run`, line stage. -/
example : ∃ t', startRun exTree ["run".toList] ⟨"./../run".toList, "d.txt".toList, [], false⟩ = .ok t' ∧
    t' ["run".toList, "param".toList, "OPTIONS1D".toList] = some .file ∧
    t' ["run".toList, "data".toList, "status1d.txt".toList] = some .file := by
  obtain ⟨t', h, ht⟩ := C152_start (t := exTree) (cwd := ["run".toList]) (D := ["run".toList])
    (s := ⟨"./../run".toList, "d.txt".toList, [], false⟩) (by decide) (by decide) (by decide) (by decide) rfl (by decide)
    (by decide) (by decide) (by decide) (by decide)
  refine ⟨t', h, ?_, ?_⟩
  · rw [ht]; decide
  · rw [ht]; decide

/-- **C152 (the sampler's own check).**  `dnest_check_directory` on `FileDir/name`, with or without a slash at the end: a
directory is left, a missing one is made, and nothing else changes.  A file in its place is refused only if the name has no
slash at the end; with the slash the program goes on without a directory. -/
theorem C152_check {t : FsTree} {cwd D : List CStr} {d nm : CStr} (hD : Mica.runDir t cwd d = some D)
    (hp : fsParts nm = [nm]) (ha : nm ≠ [] ∧ nm ≠ ['.'] ∧ nm ≠ ['.', '.']) :
    (t (D ++ [nm]) = some .dir → checkDirectory t cwd (d ++ '/' :: nm) = .ok t ∧
      checkDirectory t cwd (d ++ '/' :: (nm ++ ['/'])) = .ok t) ∧
    (t (D ++ [nm]) = none → checkDirectory t cwd (d ++ '/' :: nm) = .ok (Function.update t (D ++ [nm]) (some .dir)) ∧
      checkDirectory t cwd (d ++ '/' :: (nm ++ ['/'])) = .ok (Function.update t (D ++ [nm]) (some .dir))) ∧
    (t (D ++ [nm]) = some .file → checkDirectory t cwd (d ++ '/' :: nm) = .exit ∧
      checkDirectory t cwd (d ++ '/' :: (nm ++ ['/'])) = .ok t) := by
  have hdir := runDir_dir hD
  have hp2 : fsParts (nm ++ ['/']) = [nm, []] := by rw [fsParts_append, hp]; rfl
  have w1 : fsWalk t D [nm] = some (D ++ [nm]) := by simp [fsWalk, hdir, ha.1, ha.2.1, ha.2.2]
  have r1 : fsResolve t cwd (d ++ '/' :: nm) = some (D ++ [nm]) := by rw [resolve_in hp, hD]; exact w1
  have r2 : fsResolve t cwd (d ++ '/' :: (nm ++ ['/'])) = if t (D ++ [nm]) = some .dir then some (D ++ [nm]) else none := by
    rw [resolve_in hp2, hD]; exact walk_slash hdir ha
  have m := fun s hs => mkdir_in hD hp ha (s := s) hs
  refine ⟨fun h => ⟨?_, ?_⟩, fun h => ⟨?_, ?_⟩, fun h => ⟨?_, ?_⟩⟩
  all_goals simp [checkDirectory, fsStat, r1, r2, h, m nm (Or.inl rfl), m (nm ++ ['/']) (Or.inr rfl)]

/-- **C152 (Python).**  If no files are called `data` or `param`, the constructor of the Python class succeeds, leaves both as
directories of the current directory, and changes nothing else: a run with `FileDir` `./` does not fail for lack of them. -/
theorem C152_python {t : FsTree} {cwd : List CStr} (hc : t cwd = some .dir)
    (hf : ∀ nm ∈ [fData, fParam], t (cwd ++ [nm]) ≠ some .file) :
    ∃ t', pyDirs t cwd = .ok t' ∧ t' (cwd ++ [fData]) = some .dir ∧ t' (cwd ++ [fParam]) = some .dir ∧
      ∀ p, p ≠ cwd ++ [fData] → p ≠ cwd ++ [fParam] → t' p = t p := by
  have dich : ∀ x : Option FsNode, x ≠ some .file → x = none ∨ x = some .dir := by
    rintro (_ | _ | _) h <;> simp_all
  have h1 := dich _ (hf fData (by simp))
  have h2 := dich _ (hf fParam (by simp))
  have ne1 : cwd ≠ cwd ++ [fData] := fun h => by simpa using congrArg List.length h
  have ne2 : cwd ++ [fParam] ≠ cwd ++ [fData] := fun h => absurd (List.append_cancel_left h) (by decide)
  have e1 := pyEnsure_dot hc (nm := fData) (by decide) (by decide)
  have hc' : (if t (cwd ++ [fData]) = none then Function.update t (cwd ++ [fData]) (some .dir) else t) cwd = some .dir := by
    split
    · rw [Function.update_of_ne ne1, hc]
    · exact hc
  have e2 := pyEnsure_dot hc' (nm := fParam) (by decide) (by decide)
  refine ⟨_, by rw [pyDirs]; exact Res.bind_eq_ok.2 ⟨_, e1, e2⟩, ?_, ?_, fun p hp1 hp2 => ?_⟩
  · rcases h1 with h1 | h1 <;> rcases h2 with h2 | h2 <;>
      simp [h1, h2, Function.update_of_ne ne2, Function.update_of_ne ne2.symm]
  · rcases h1 with h1 | h1 <;> rcases h2 with h2 | h2 <;>
      simp [h1, h2, Function.update_of_ne ne2]
  · rcases h1 with h1 | h1 <;> rcases h2 with h2 | h2 <;>
      simp [h1, h2, Function.update_of_ne ne2, Function.update_of_ne hp1, Function.update_of_ne hp2]

/-- **C152 (Python, no current directory).**  If the current directory has been removed, the constructor fails. -/
theorem C152_python_gone {t : FsTree} {cwd : List CStr} (hc : t cwd ≠ some .dir) : pyDirs t cwd = .exit := by
  have h1 : fsResolve t cwd "./data".toList = fsWalk t cwd [['.'], fData] := rfl
  have h2 : fsMkdir t cwd "./data/".toList = none := by
    have e : ((fsParts "./data/".toList).reverse.dropWhile (· = [])).reverse = [['.'], fData] := by decide
    have b : fsBase cwd "./data/".toList = cwd := rfl
    have w : fsWalk t cwd [['.'], fData] = none := by simp [fsWalk, hc]
    rw [fsMkdir, e, b, w]
  have h3 : fsStat t cwd "./data".toList = none := by rw [fsStat, h1]; simp [fsWalk, hc]
  rw [pyDirs, pyEnsure, if_pos h3, h2]
  rfl

example : exTree ["gone".toList] ≠ some .dir := by decide

example : exTree ["home".toList] = some .dir ∧ ∀ nm ∈ [fData, fParam], exTree (["home".toList] ++ [nm]) ≠ some .file := by
  decide

example : fsParts fData = [fData] ∧ Mica.runDir exTree ["home".toList] "/run".toList = some ["run".toList] := by decide

end Mica
