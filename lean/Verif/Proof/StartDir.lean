import Verif.Model.StartDir

/-! Lemmas about names, lookups and the files a run opens first. -/

namespace Mica

theorem fsParts_ne_nil (s : CStr) : fsParts s ≠ [] := by
  cases s with
  | nil => simp [fsParts]
  | cons c s =>
    unfold fsParts
    split
    · simp
    · split <;> simp

theorem fsParts_append (a b : CStr) : fsParts (a ++ '/' :: b) = fsParts a ++ fsParts b := by
  induction a with
  | nil => simp [fsParts]
  | cons c a ih =>
    simp only [List.cons_append, fsParts, ih]
    split
    · rfl
    · cases h : fsParts a with
      | nil => exact absurd h (fsParts_ne_nil a)
      | cons x r => rfl

theorem fsWalk_append (t : FsTree) : ∀ (a b p : List CStr),
    fsWalk t p (a ++ b) = (fsWalk t p a).bind fun q => fsWalk t q b
  | [], b, p => rfl
  | c :: a, b, p => by
    simp only [List.cons_append, fsWalk]
    split
    · split
      · exact fsWalk_append t a b _
      · split
        · exact fsWalk_append t a b _
        · exact fsWalk_append t a b _
    · rfl

/-- The same directories. -/
def SameDirs (t t' : FsTree) : Prop := ∀ p, t p = some .dir ↔ t' p = some .dir

theorem SameDirs.walk {t t' : FsTree} (h : SameDirs t t') : ∀ (cs p : List CStr), fsWalk t p cs = fsWalk t' p cs
  | [], p => rfl
  | c :: cs, p => by
    simp only [fsWalk, h p, h.walk cs]

theorem SameDirs.resolve {t t' : FsTree} (h : SameDirs t t') (cwd : List CStr) (s : CStr) :
    fsResolve t cwd s = fsResolve t' cwd s := by
  simp only [fsResolve, h.walk]

theorem SameDirs.refl (t : FsTree) : SameDirs t t := fun _ => Iff.rfl

theorem SameDirs.trans {t t' t'' : FsTree} (h : SameDirs t t') (h' : SameDirs t' t'') : SameDirs t t'' :=
  fun p => (h p).trans (h' p)

theorem sameDirs_update {t : FsTree} {p : List CStr} (h : t p ≠ some .dir) :
    SameDirs t (Function.update t p (some .file)) := by
  intro q
  by_cases hq : q = p
  · subst hq; simp [h]
  · simp [Function.update_of_ne hq]

theorem fsOpenW_some {t t' : FsTree} {cwd : List CStr} {s : CStr} (h : fsOpenW t cwd s = some t') :
    ∃ p, fsResolve t cwd s = some p ∧ t p ≠ some .dir ∧ t' = Function.update t p (some .file) := by
  unfold fsOpenW at h
  cases hr : fsResolve t cwd s with
  | none => simp [hr] at h
  | some p =>
    simp only [hr] at h
    split at h
    · simp at h
    · next hd => exact ⟨p, rfl, hd, (Option.some.inj h).symm⟩

theorem fsOpenW_of {t : FsTree} {cwd p : List CStr} {s : CStr} (h : fsResolve t cwd s = some p) (hp : t p ≠ some .dir) :
    fsOpenW t cwd s = some (Function.update t p (some .file)) := by
  simp [fsOpenW, h, hp]

theorem openOrExit_ok {t t' : FsTree} {cwd : List CStr} {s : CStr} :
    openOrExit t cwd s = .ok t' ↔ fsOpenW t cwd s = some t' := by
  unfold openOrExit
  cases fsOpenW t cwd s <;> simp

/-- The directory into which names `FileDir/…` lead. -/
def runDir (t : FsTree) (cwd : List CStr) (fileDir : CStr) : Option (List CStr) :=
  fsResolve t cwd (fileDir ++ ['/'])

theorem fsBase_append (cwd : List CStr) (a b : CStr) : fsBase cwd (a ++ '/' :: b) = fsBase cwd (a ++ ['/']) := by
  cases a <;> rfl

/-- A name `FileDir/…` is looked up in the directory of the run. -/
theorem resolve_runDir (t : FsTree) (cwd : List CStr) (d s : CStr) :
    fsResolve t cwd (d ++ '/' :: s) =
      (fsWalk t (fsBase cwd (d ++ ['/'])) (fsParts d)).bind fun q => fsWalk t q (fsParts s) := by
  rw [fsResolve, if_neg (by simp), fsBase_append, fsParts_append, fsWalk_append]

theorem runDir_eq (t : FsTree) (cwd : List CStr) (d : CStr) :
    runDir t cwd d = (fsWalk t (fsBase cwd (d ++ ['/'])) (fsParts d)).bind fun q => if t q = some .dir then some q else none := by
  rw [runDir, resolve_runDir t cwd d []]
  rfl

theorem runDir_dir {t : FsTree} {cwd D : List CStr} {d : CStr} (h : runDir t cwd d = some D) : t D = some .dir := by
  rw [runDir_eq, Option.bind_eq_some_iff] at h
  obtain ⟨q, -, hq⟩ := h
  split at hq
  · next hd => cases hq; exact hd
  · simp at hq

/-- A name `FileDir/s` with parts is found from the directory of the run. -/
theorem resolve_in {t : FsTree} {cwd : List CStr} {d s : CStr} {c : CStr} {cs : List CStr} (hs : fsParts s = c :: cs) :
    fsResolve t cwd (d ++ '/' :: s) = (runDir t cwd d).bind fun D => fsWalk t D (c :: cs) := by
  rw [resolve_runDir t cwd d s, runDir_eq, hs]
  cases fsWalk t (fsBase cwd (d ++ ['/'])) (fsParts d) with
  | none => rfl
  | some q =>
    by_cases hq : t q = some .dir
    · simp [hq]
    · simp [hq, fsWalk]

theorem walk_two {t : FsTree} {D : List CStr} {a b : CStr} (hD : t D = some .dir)
    (ha : a ≠ [] ∧ a ≠ ['.'] ∧ a ≠ ['.', '.']) (hb : b ≠ [] ∧ b ≠ ['.'] ∧ b ≠ ['.', '.']) :
    fsWalk t D [a, b] = if t (D ++ [a]) = some .dir then some (D ++ [a] ++ [b]) else none := by
  simp [fsWalk, hD, ha.1, ha.2.1, ha.2.2, hb.1, hb.2.1, hb.2.2]

theorem walk_two_slash {t : FsTree} {D : List CStr} {a b : CStr} (hD : t D = some .dir)
    (ha : a ≠ [] ∧ a ≠ ['.'] ∧ a ≠ ['.', '.']) (hb : b ≠ [] ∧ b ≠ ['.'] ∧ b ≠ ['.', '.']) :
    fsWalk t D [a, [], b] = if t (D ++ [a]) = some .dir then some (D ++ [a] ++ [b]) else none := by
  simp [fsWalk, hD, ha.1, ha.2.1, ha.2.2, hb.1, hb.2.1, hb.2.2]

theorem walk_slash {t : FsTree} {D : List CStr} {a : CStr} (hD : t D = some .dir)
    (ha : a ≠ [] ∧ a ≠ ['.'] ∧ a ≠ ['.', '.']) :
    fsWalk t D [a, []] = if t (D ++ [a]) = some .dir then some (D ++ [a]) else none := by
  simp [fsWalk, hD, ha.1, ha.2.1, ha.2.2]

/-- `stat("name/")` in the current directory. -/
theorem stat_here {t : FsTree} {cwd : List CStr} (hc : t cwd = some .dir) :
    (fsStat t cwd "data/".toList = some .dir ↔ t (cwd ++ ["data".toList]) = some .dir) ∧
    (fsStat t cwd "param/".toList = some .dir ↔ t (cwd ++ ["param".toList]) = some .dir) := by
  have h1 : fsResolve t cwd "data/".toList = fsWalk t cwd ["data".toList, []] := rfl
  have h2 : fsResolve t cwd "param/".toList = fsWalk t cwd ["param".toList, []] := rfl
  constructor
  · rw [fsStat, h1, walk_slash hc (by decide)]
    by_cases h : t (cwd ++ ["data".toList]) = some .dir <;> simp_all
  · rw [fsStat, h2, walk_slash hc (by decide)]
    by_cases h : t (cwd ++ ["param".toList]) = some .dir <;> simp_all

/-- The names of directories and files in the run's directory. -/
def fData : CStr := "data".toList
def fParam : CStr := "param".toList
def fNorm : CStr := "normalization.txt".toList
def fDOpt : CStr := "DNEST_OPTIONS".toList

theorem SameDirs.runDir {t t' : FsTree} (h : SameDirs t t') (cwd : List CStr) (d : CStr) :
    Mica.runDir t cwd d = Mica.runDir t' cwd d := h.resolve cwd _

theorem openW_in {t : FsTree} {cwd : List CStr} {d s a b : CStr} (hs : fsParts s = [a, b] ∨ fsParts s = [a, [], b])
    (ha : a ≠ [] ∧ a ≠ ['.'] ∧ a ≠ ['.', '.']) (hb : b ≠ [] ∧ b ≠ ['.'] ∧ b ≠ ['.', '.']) {t' : FsTree} :
    fsOpenW t cwd (d ++ '/' :: s) = some t' ↔
      ∃ D, Mica.runDir t cwd d = some D ∧ t (D ++ [a]) = some .dir ∧ t (D ++ [a] ++ [b]) ≠ some .dir ∧
        t' = Function.update t (D ++ [a] ++ [b]) (some .file) := by
  have key : fsResolve t cwd (d ++ '/' :: s) = (Mica.runDir t cwd d).bind fun D =>
      if t (D ++ [a]) = some .dir then some (D ++ [a] ++ [b]) else none := by
    cases hr : Mica.runDir t cwd d with
    | none => rcases hs with hs | hs <;> rw [resolve_in hs, hr] <;> rfl
    | some D =>
      rcases hs with hs | hs
      · rw [resolve_in hs, hr]; exact walk_two (runDir_dir hr) ha hb
      · rw [resolve_in hs, hr]; exact walk_two_slash (runDir_dir hr) ha hb
  constructor
  · intro h
    obtain ⟨p, hp, hd, rfl⟩ := fsOpenW_some h
    rw [key, Option.bind_eq_some_iff] at hp
    obtain ⟨D, hD, hp⟩ := hp
    split at hp
    · next hda =>
      cases hp
      exact ⟨D, hD, hda, hd, rfl⟩
    · simp at hp
  · rintro ⟨D, hD, hda, hd, rfl⟩
    exact fsOpenW_of (by rw [key, hD]; simp [hda]) hd

theorem stat_data {t : FsTree} {cwd D : List CStr} {d : CStr} (hD : Mica.runDir t cwd d = some D)
    (hd : t (D ++ [fData]) = some .dir) : fsStat t cwd (d ++ "/data/".toList) = some .dir := by
  rw [fsStat, show d ++ "/data/".toList = d ++ '/' :: "data/".toList from rfl,
    resolve_in (c := fData) (cs := [[]]) (by decide), hD]
  simp only [Option.bind_some]
  rw [walk_slash (runDir_dir hD) (by decide), if_pos hd]
  exact hd

theorem stat_update {t : FsTree} {cwd : List CStr} {s : CStr} {p : List CStr} (hp : t p ≠ some .dir)
    (h : fsStat t cwd s ≠ none) : fsStat (Function.update t p (some .file)) cwd s ≠ none := by
  rw [fsStat, ← (sameDirs_update hp).resolve]
  rw [fsStat] at h
  cases hr : fsResolve t cwd s with
  | none => simp [hr] at h
  | some q =>
    simp only [hr, Option.bind_some] at h ⊢
    by_cases hq : q = p
    · subst hq; simp
    · rwa [Function.update_of_ne hq]

theorem parts_opt (con : Bool) : fsParts ("param/".toList ++ optName con) = [fParam, optName con] := by
  cases con <;> decide

theorem parts_status (con : Bool) : fsParts ("data/".toList ++ '/' :: statusName con) = [fData, [], statusName con] := by
  cases con <;> decide

theorem optName_plain (con : Bool) : optName con ≠ [] ∧ optName con ≠ ['.'] ∧ optName con ≠ ['.', '.'] := by
  cases con <;> decide

theorem statusName_plain (con : Bool) :
    statusName con ≠ [] ∧ statusName con ≠ ['.'] ∧ statusName con ≠ ['.', '.'] := by
  cases con <;> decide

theorem openNorm {t t' : FsTree} {cwd : List CStr} {d : CStr} :
    openOrExit t cwd (d ++ "/data/normalization.txt".toList) = .ok t' ↔
      ∃ D, Mica.runDir t cwd d = some D ∧ t (D ++ [fData]) = some .dir ∧ t (D ++ [fData] ++ [fNorm]) ≠ some .dir ∧
        t' = Function.update t (D ++ [fData] ++ [fNorm]) (some .file) := by
  rw [openOrExit_ok]
  exact openW_in (s := "data/normalization.txt".toList) (Or.inl (by decide)) (by decide) (by decide)

theorem openDOpt {t t' : FsTree} {cwd : List CStr} {d : CStr} :
    openOrExit t cwd (d ++ ("/data/".toList ++ "/DNEST_OPTIONS".toList)) = .ok t' ↔
      ∃ D, Mica.runDir t cwd d = some D ∧ t (D ++ [fData]) = some .dir ∧ t (D ++ [fData] ++ [fDOpt]) ≠ some .dir ∧
        t' = Function.update t (D ++ [fData] ++ [fDOpt]) (some .file) := by
  rw [openOrExit_ok]
  exact openW_in (s := "data//DNEST_OPTIONS".toList) (Or.inr (by decide)) (by decide) (by decide)

theorem openOpt {t t' : FsTree} {cwd : List CStr} {d : CStr} (con : Bool) :
    openOrExit t cwd (d ++ ("/param/".toList ++ optName con)) = .ok t' ↔
      ∃ D, Mica.runDir t cwd d = some D ∧ t (D ++ [fParam]) = some .dir ∧ t (D ++ [fParam] ++ [optName con]) ≠ some .dir ∧
        t' = Function.update t (D ++ [fParam] ++ [optName con]) (some .file) := by
  rw [openOrExit_ok]
  exact openW_in (s := "param/".toList ++ optName con) (Or.inl (parts_opt con)) (by decide) (optName_plain con)

theorem openStatus {t t' : FsTree} {cwd : List CStr} {d : CStr} (con : Bool) :
    fsOpenW t cwd (d ++ ("/data/".toList ++ '/' :: statusName con)) = some t' ↔
      ∃ D, Mica.runDir t cwd d = some D ∧ t (D ++ [fData]) = some .dir ∧ t (D ++ [fData] ++ [statusName con]) ≠ some .dir ∧
        t' = Function.update t (D ++ [fData] ++ [statusName con]) (some .file) :=
  openW_in (s := "data/".toList ++ '/' :: statusName con) (Or.inr (parts_status con)) (by decide) (statusName_plain con)

theorem openOrExit_ub (t : FsTree) (cwd : List CStr) (s : CStr) : openOrExit t cwd s ≠ .ub := by
  unfold openOrExit; split <;> simp

theorem stageOptions_ub (t : FsTree) (cwd : List CStr) (s : StartCfg) : stageOptions t cwd s ≠ .ub := by
  unfold stageOptions
  split
  · exact openOrExit_ub _ _ _
  · split <;> simp

theorem checkDirectory_ub (t : FsTree) (cwd : List CStr) (s : CStr) : checkDirectory t cwd s ≠ .ub := by
  unfold checkDirectory; split <;> simp

/-- The steps before the status file keep the directories. -/
theorem stageOptions_same {t t' : FsTree} {cwd : List CStr} {s : StartCfg} (h : stageOptions t cwd s = .ok t') :
    SameDirs t t' := by
  unfold stageOptions at h
  split at h
  · obtain ⟨p, -, hp, rfl⟩ := fsOpenW_some (openOrExit_ok.1 h)
    exact sameDirs_update hp
  · split at h
    · simp at h
    · cases h; exact SameDirs.refl _

/-- Making `FileDir/name`, with or without a slash at the end. -/
theorem mkdir_in {t : FsTree} {cwd D : List CStr} {d nm s : CStr} (hD : Mica.runDir t cwd d = some D)
    (hp : fsParts nm = [nm]) (ha : nm ≠ [] ∧ nm ≠ ['.'] ∧ nm ≠ ['.', '.']) (hs : s = nm ∨ s = nm ++ ['/']) :
    fsMkdir t cwd (d ++ '/' :: s) =
      if t (D ++ [nm]) = none then some (Function.update t (D ++ [nm]) (some .dir)) else none := by
  have hp2 : fsParts (nm ++ ['/']) = [nm, []] := by rw [fsParts_append, hp]; rfl
  have w1 : fsWalk t D [nm] = some (D ++ [nm]) := by simp [fsWalk, runDir_dir hD, ha.1, ha.2.1, ha.2.2]
  have r1 : fsResolve t cwd (d ++ '/' :: nm) = some (D ++ [nm]) := by rw [resolve_in hp, hD]; exact w1
  have hw : fsWalk t (fsBase cwd (d ++ '/' :: s)) ((fsParts (d ++ '/' :: s)).reverse.dropWhile (· = [])).reverse
      = some (D ++ [nm]) := by
    have e : ((fsParts (d ++ '/' :: s)).reverse.dropWhile (· = [])).reverse = fsParts d ++ [nm] := by
      rcases hs with rfl | rfl
      · rw [fsParts_append, hp]; simp [ha.1]
      · rw [fsParts_append, hp2]; simp [ha.1]
    rw [e, fsBase_append, ← fsBase_append cwd d nm]
    rw [fsResolve, if_neg (by simp), fsParts_append, hp] at r1
    exact r1
  simp only [fsMkdir, hw]

/-- `pyEnsure` on `./name`. -/
theorem pyEnsure_dot {t : FsTree} {cwd : List CStr} {nm : CStr} (hc : t cwd = some .dir) (hp : fsParts nm = [nm])
    (ha : nm ≠ [] ∧ nm ≠ ['.'] ∧ nm ≠ ['.', '.']) :
    pyEnsure t cwd ('.' :: '/' :: nm) ('.' :: '/' :: (nm ++ ['/'])) =
      .ok (if t (cwd ++ [nm]) = none then Function.update t (cwd ++ [nm]) (some .dir) else t) := by
  have hD : Mica.runDir t cwd ['.'] = some cwd := by
    have h2 : Mica.runDir t cwd ['.'] = fsWalk t cwd [['.'], []] := rfl
    rw [h2]
    simp [fsWalk, hc]
  have r1 : fsResolve t cwd (['.'] ++ '/' :: nm) = some (cwd ++ [nm]) := by
    rw [resolve_in hp, hD]
    simp [fsWalk, hc, ha.1, ha.2.1, ha.2.2]
  have m := mkdir_in hD hp ha (s := nm ++ ['/']) (Or.inr rfl)
  simp only [List.cons_append, List.nil_append] at r1 m
  simp only [pyEnsure, fsStat, r1, Option.bind_some, m]
  split <;> rfl

end Mica
