import Verif.Proof.RunArgs

/-!
# C88: the sampler is told what the stage means
-/

namespace Mica

/-- C88: what `mc_con` hands to the sampler is what it means: snapshots to `<dir>/data/restart_dnest.txt`, with `-r`
read from the same file, post-processing only with `-p`, level-dependent limits, no tag and no postfix — for every
directory name the arrays of the sampler can hold; for every longer one the arrays overflow. -/
theorem C88_con (dir : CStr) (restart postprc : Bool) :
    conArgv dir restart postprc >>= dnestArgs =
      if dir.length + 23 < 156 then .ok (meant (dir ++ "/data/restart_dnest.txt".toList) restart postprc [] [])
      else .ub := by
  have e : dir ++ "/".toList ++ "data/restart_dnest.txt".toList = dir ++ "/data/restart_dnest.txt".toList := by
    rw [List.append_assoc]; rfl
  have hl : dir.length + 23 = (dir ++ "/data/restart_dnest.txt".toList).length := by
    rw [List.length_append]; rfl
  rw [hl]
  unfold conArgv
  rw [e]
  generalize dir ++ "/data/restart_dnest.txt".toList = f
  rw [fill_bind, con_parse]
  · cases restart <;> cases postprc <;> simp
  · rw [con_parse]
    by_cases hf : f.length < 156
    · left
      intro a ha
      simp only [List.mem_append, List.mem_cons, List.not_mem_nil, or_false, List.mem_ite_nil_right] at ha
      have short : ∀ b : CStr, a = b → b.length < 256 → a.length < 256 := fun b h h' => h ▸ h'
      have h0 : "dnest".toList.length < 256 := by decide
      have h1 : "-s".toList.length < 256 := by decide
      have h2 : "-l".toList.length < 256 := by decide
      have h3 : "-r".toList.length < 256 := by decide
      have h4 : "-p".toList.length < 256 := by decide
      have h5 : "-g".toList.length < 256 := by decide
      have h6 : "1d".toList.length < 256 := by decide
      have h7 : "-x".toList.length < 256 := by decide
      have h8 : f.length < 256 := by omega
      rcases ha with ((h | h | h | h) | ⟨_, h | h⟩) | ⟨_, h⟩ <;> exact short _ h (by assumption)
    · right; rw [if_neg hf]

/-- C88: the same for `mc_line` with `n` components: the file has the number of components in its name, the files of
the samples get the tag `1d` and the postfix `_n`. -/
theorem C88_line (dir : CStr) (restart postprc : Bool) (n : ℕ) (hn : (postfixC n).length < 156) :
    lineArgv dir restart postprc n >>= dnestArgs =
      if dir.length + 25 + (postfixC n).length < 156 then
        .ok (meant (dir ++ "/data/restart_dnest1d.txt".toList ++ postfixC n) restart postprc "1d".toList (postfixC n))
      else .ub := by
  have e : dir ++ "/".toList ++ "data/restart_dnest1d.txt".toList = dir ++ "/data/restart_dnest1d.txt".toList := by
    rw [List.append_assoc]; rfl
  have hl : dir.length + 25 + (postfixC n).length = (dir ++ "/data/restart_dnest1d.txt".toList ++ postfixC n).length := by
    rw [List.length_append, List.length_append]; rfl
  rw [hl]
  unfold lineArgv
  rw [e]
  generalize dir ++ "/data/restart_dnest1d.txt".toList ++ postfixC n = f
  rw [fill_bind, line_parse f _ restart postprc hn]
  · cases restart <;> cases postprc <;> simp
  · rw [line_parse f _ restart postprc hn]
    by_cases hf : f.length < 156
    · left
      intro a ha
      simp only [List.mem_append, List.mem_cons, List.not_mem_nil, or_false, List.mem_ite_nil_right] at ha
      have short : ∀ b : CStr, a = b → b.length < 256 → a.length < 256 := fun b h h' => h ▸ h'
      have h0 : "dnest".toList.length < 256 := by decide
      have h1 : "-s".toList.length < 256 := by decide
      have h2 : "-l".toList.length < 256 := by decide
      have h3 : "-r".toList.length < 256 := by decide
      have h4 : "-p".toList.length < 256 := by decide
      have h5 : "-g".toList.length < 256 := by decide
      have h6 : "1d".toList.length < 256 := by decide
      have h7 : "-x".toList.length < 256 := by decide
      have h8 : f.length < 256 := by omega
      have h9 : (postfixC n).length < 256 := by omega
      rcases ha with (((h | h | h | h) | ⟨_, h⟩) | (h | h | h | h)) | ⟨_, h | h⟩ <;> exact short _ h (by assumption)
    · right; rw [if_neg hf]

/-- C88: the same for the other line stages; the file has no number of components in its name. -/
theorem C88_other (dir : CStr) (restart postprc : Bool) (n : ℕ) (hn : (postfixC n).length < 156) :
    otherArgv dir restart postprc n >>= dnestArgs =
      if dir.length + 25 < 156 then
        .ok (meant (dir ++ "/data/restart_dnest1d.txt".toList) restart postprc "1d".toList (postfixC n))
      else .ub := by
  have e : dir ++ "/".toList ++ "data/restart_dnest1d.txt".toList = dir ++ "/data/restart_dnest1d.txt".toList := by
    rw [List.append_assoc]; rfl
  have hl : dir.length + 25 = (dir ++ "/data/restart_dnest1d.txt".toList).length := by
    rw [List.length_append]; rfl
  rw [hl]
  unfold otherArgv
  rw [e]
  generalize dir ++ "/data/restart_dnest1d.txt".toList = f
  rw [fill_bind, other_parse f _ restart postprc hn]
  · cases restart <;> cases postprc <;> simp
  · rw [other_parse f _ restart postprc hn]
    by_cases hf : f.length < 156
    · left
      intro a ha
      simp only [List.mem_append, List.mem_cons, List.not_mem_nil, or_false, List.mem_ite_nil_right] at ha
      have short : ∀ b : CStr, a = b → b.length < 256 → a.length < 256 := fun b h h' => h ▸ h'
      have h0 : "dnest".toList.length < 256 := by decide
      have h1 : "-s".toList.length < 256 := by decide
      have h2 : "-l".toList.length < 256 := by decide
      have h3 : "-r".toList.length < 256 := by decide
      have h4 : "-p".toList.length < 256 := by decide
      have h5 : "-g".toList.length < 256 := by decide
      have h6 : "1d".toList.length < 256 := by decide
      have h7 : "-x".toList.length < 256 := by decide
      have h8 : f.length < 256 := by omega
      have h9 : (postfixC n).length < 256 := by omega
      rcases ha with (((h | h | h | h) | ⟨_, h | h⟩) | ⟨_, h⟩) | (h | h | h | h) <;> exact short _ h (by assumption)
    · right; rw [if_neg hf]

end Mica
