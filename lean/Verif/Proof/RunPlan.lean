import Verif.Props.RunArgs

/-!
# The stages of a run, written out
-/

namespace Mica

theorem base_le (f : SFile) : f.base.length ≤ 22 := by cases f <;> decide

theorem sfNames_ok (sdir : CStr) (c : DnestCfg) (h : sdir.length + 26 + c.tag.length + c.suffix.length < 156)
    (l : List SFile) : sfNames sdir c l = .ok () := by
  induction l with
  | nil => rfl
  | cons f l ih =>
    have h4 : ".txt".toList.length = 4 := by decide
    have : (sfName sdir c f).length < 156 := by
      have := base_le f
      simp only [sfName, List.length_append, h4]
      omega
    simp only [sfNames, copyStr, this, if_true, Res.ok_bind, ih]

/-- The directory of the samples. -/
abbrev dataDir (dir : CStr) : CStr := dir ++ "/data/".toList

theorem sampleDir_ok (dir : CStr) (h : dir.length + 6 < 156) : sampleDir dir = .ok (dataDir dir) := by
  have h6 : "/data/".toList.length = 6 := by decide
  have h1 : (dir ++ "/data/".toList).length < 256 := by rw [List.length_append]; omega
  have h2 : (dir ++ "/data/".toList).length < 156 := by rw [List.length_append]; omega
  simp only [sampleDir, copyStr, h1, if_true, Res.ok_bind, h2]

/-- What the sampler does when it is told `meant file restart postprc tag suffix`. -/
def stageActs (dir : CStr) (stage : Option ℕ) (file : CStr) (restart postprc : Bool) (tag suffix : CStr) : List Act :=
  (if postprc then [] else (if restart then [Act.load stage file] else []) ++
    [.sample stage file (dataDir dir ++ SFile.base .sample ++ tag ++ ".txt".toList ++ suffix)]) ++
  [.posterior stage (dataDir dir ++ SFile.base .sample ++ tag ++ ".txt".toList ++ suffix)
    (dataDir dir ++ SFile.base .post ++ tag ++ ".txt".toList ++ suffix)]

theorem dnestActs_eq {dir : CStr} {stage : Option ℕ} {argv : Res (List CStr)} {file : CStr} {restart postprc : Bool}
    {tag suffix : CStr} (h : argv >>= dnestArgs = .ok (meant file restart postprc tag suffix))
    (hl : dir.length + 32 + tag.length + suffix.length < 156) :
    argv >>= dnestActs dir stage = .ok (stageActs dir stage file restart postprc tag suffix) := by
  obtain ⟨a, rfl, ha⟩ := Res.bind_eq_ok.1 h
  have h6 : "/data/".toList.length = 6 := by decide
  simp only [Res.ok_bind, dnestActs, ha]
  rw [sampleDir_ok dir (by omega)]
  simp only [Res.ok_bind]
  rw [sfNames_ok]
  · simp only [Res.ok_bind]
    congr 1
    unfold stageActs meant sfName
    cases restart <;> cases postprc <;> rfl
  · simp only [meant, List.length_append, h6]
    omega

def conFile (dir : CStr) : CStr := dir ++ "/data/restart_dnest.txt".toList

/-- The snapshot file of a line stage. -/
def lineFile (mode : Mode) (dir : CStr) (n : ℕ) : CStr :=
  dir ++ "/data/restart_dnest1d.txt".toList ++ if mode = .gmodel then postfixC n else []

theorem mcCon_eq (dir : CStr) (hd : dir.length + 32 < 156) (m : MainCfg) (p : Bool) :
    mcCon dir m p = .ok (stageActs dir none (conFile dir) m.restart p [] [] ++ [.summary none, .recon none] ++
      if m.paraName then [] else [.evidence true]) := by
  have h := C88_con dir m.restart p
  rw [if_pos (by omega)] at h
  have := dnestActs_eq (dir := dir) (stage := none) h (by simpa using hd)
  unfold mcCon
  rw [← res_bind_assoc, this]
  rfl

/-- Whether the mode splits light curves of `n` components. -/
def splits (mode : Mode) (n : ℕ) : Bool :=
  match mode with
  | .gmodel => decide (1 < n)
  | .pmap => decide (1 < n)
  | .mmap => true
  | _ => false

theorem line_any (mode : Mode) (dir : CStr) (n : ℕ) (hd : dir.length + 34 + (postfixC n).length < 156)
    (restart p : Bool) : (if mode = .gmodel then lineArgv dir restart p n else otherArgv dir restart p n) >>= dnestArgs =
      .ok (meant (lineFile mode dir n) restart p "1d".toList (postfixC n)) := by
  unfold lineFile
  by_cases h : mode = .gmodel
  · rw [if_pos h, if_pos h, C88_line dir restart p n (by omega), if_pos (by omega)]
  · rw [if_neg h, if_neg h, C88_other dir restart p n (by omega), if_pos (by omega), List.append_nil]

theorem lineStage_eq (mode : Mode) (hm : mode ≠ .nmap) (dir : CStr) (n : ℕ)
    (hd : dir.length + 34 + (postfixC n).length < 156) (m : MainCfg) (p : Bool) :
    lineStage mode dir m p n = .ok (.names (some n) :: (if m.paraName then [] else
      stageActs dir (some n) (lineFile mode dir n) m.restart p "1d".toList (postfixC n)) ++
      afterActs m (splits mode n) n) := by
  have h := line_any mode dir n hd m.restart p
  have h2 := dnestActs_eq (dir := dir) (stage := some n) h (by
    have : "1d".toList.length = 2 := by decide
    omega)
  have e : lineStage mode dir m p n = dnestLineActs dir m n
      (if mode = .gmodel then lineArgv dir m.restart p n else otherArgv dir m.restart p n) >>= fun l =>
      .ok (l ++ afterActs m (splits mode n) n) := by
    cases mode <;> first | rfl | exact absurd rfl hm
  rw [e]
  obtain ⟨a, ha, ha'⟩ := Res.bind_eq_ok.1 h2
  rw [ha]
  unfold dnestLineActs
  simp only [Res.ok_bind, ha']
  cases m.paraName <;> rfl

theorem lineLoop_eq (mode : Mode) (hm : mode ≠ .nmap) (dir : CStr) (m : MainCfg) (p : Bool) (k low : ℕ)
    (hd : ∀ n, low ≤ n → n < low + k → dir.length + 34 + (postfixC n).length < 156) :
    lineLoop mode dir m p low k = .ok ((List.range' low k).flatMap fun n =>
      .names (some n) :: (if m.paraName then [] else
        stageActs dir (some n) (lineFile mode dir n) m.restart p "1d".toList (postfixC n)) ++
      afterActs m (splits mode n) n) := by
  induction k generalizing low with
  | zero => rfl
  | succ k ih =>
    simp only [lineLoop]
    rw [lineStage_eq mode hm dir low (hd low (Nat.le_refl _) (by omega)), ih (low + 1) (fun n h1 h2 => hd n (by omega) (by omega))]
    simp only [Res.ok_bind, List.range'_succ, List.flatMap_cons]

end Mica
