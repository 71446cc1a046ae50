import Verif.Model.RunPlan
import Verif.Proof.Getopt

/-!
# How `dnest` reads the arguments handed over
-/

namespace Mica

/-- Letters of `dnestOpts`. -/
def dFlag (c : Char) : Prop := c ∈ ['p', 'c', 'l']
def dVal (c : Char) : Prop := c ∈ ['r', 's', 't', 'x', 'g', 'm']

theorem dFlag_ok : ∀ c, dFlag c → IsFlag dnestOpts c := by
  intro c h
  simp only [dFlag, List.mem_cons, List.not_mem_nil, or_false] at h
  rcases h with rfl | rfl | rfl <;> exact ⟨_, rfl, by decide⟩

theorem dVal_ok : ∀ c, dVal c → IsVal dnestOpts c := by
  intro c h
  simp only [dVal, List.mem_cons, List.not_mem_nil, or_false] at h
  rcases h with rfl | rfl | rfl | rfl | rfl | rfl <;> exact ⟨_, rfl, by decide⟩

theorem dnestArgs_eq {args : List CStr} {es : List (Char × Option CStr)} {ps : List CStr}
    (h : CmdLine dFlag dVal args es ps) (prog : CStr) :
    dnestArgs (prog :: args) = foldSteps dnestSwitch es {} := by
  obtain ⟨argv, i, _, h2⟩ := loop_end (step := dnestSwitch) (by decide) dFlag_ok dVal_ok h prog
  unfold dnestArgs
  rw [h2 _ _ (by have := cmdline_length h; simp; omega), res_bind_assoc]
  cases foldSteps dnestSwitch es {} <;> rfl

theorem cl_val (c : Char) (hc : dVal c) (v : CStr) {l es ps} (h : CmdLine dFlag dVal l es ps) :
    CmdLine dFlag dVal (['-', c] :: v :: l) ((c, some v) :: es) ps :=
  CmdLine.apart [] (by simp) c hc v h

theorem cl_flag (c : Char) (hc : dFlag c) {l es ps} (h : CmdLine dFlag dVal l es ps) :
    CmdLine dFlag dVal (['-', c] :: l) ((c, none) :: es) ps :=
  CmdLine.flags c [] (by simpa using hc) h

theorem cl_vals (b : Bool) (c : Char) (hc : dVal c) (v : CStr) {l es ps} (h : CmdLine dFlag dVal l es ps) :
    CmdLine dFlag dVal ((if b then [['-', c], v] else []) ++ l) ((if b then [(c, some v)] else []) ++ es) ps := by
  cases b
  · exact h
  · exact cl_val c hc v h

theorem cl_flags (b : Bool) (c : Char) (hc : dFlag c) {l es ps} (h : CmdLine dFlag dVal l es ps) :
    CmdLine dFlag dVal ((if b then [['-', c]] else []) ++ l) ((if b then [(c, none)] else []) ++ es) ps := by
  cases b
  · exact h
  · exact cl_flag c hc h

/-- Any list of arguments of the form used, for any file and postfix. -/
theorem fill_bind {α : Type} {slots : ℕ} {l : List CStr} (hs : l.length ≤ slots) (f : List CStr → Res α)
    (hf : (∀ a ∈ l, a.length < 256) ∨ f l = .ub) : fillArgv slots l >>= f = f l := by
  unfold fillArgv
  split
  · rfl
  · rename_i h
    rcases hf with hf | hf
    · exact absurd ⟨hs, hf⟩ h
    · rw [hf]; rfl

/-- The settings meant for a stage: snapshots to `file`, read from the same file with `-r`. -/
def meant (file : CStr) (restart postprc : Bool) (tag suffix : CStr) : DnestCfg where
  restart := if restart then some file else none
  save := file
  postprc := postprc
  limits := true
  suffix := suffix
  tag := tag

theorem con_parse (f : CStr) (restart postprc : Bool) :
    dnestArgs (["dnest".toList, "-s".toList, f, "-l".toList] ++
      (if restart then ["-r".toList, f] else []) ++ if postprc then ["-p".toList] else []) =
    if f.length < 156 then .ok (meant f restart postprc [] []) else .ub := by
  have hc : CmdLine dFlag dVal (["-s".toList, f, "-l".toList] ++
      (if restart then ["-r".toList, f] else []) ++ if postprc then ["-p".toList] else [])
      ([('s', some f), ('l', none)] ++ (if restart then [('r', some f)] else []) ++
        if postprc then [('p', none)] else []) [] := by
    refine cl_val 's' (by simp [dVal]) f (cl_flag 'l' (by simp [dFlag]) ?_)
    refine cl_vals restart 'r' (by simp [dVal]) f ?_
    have := cl_flags postprc 'p' (by simp [dFlag]) .nil
    simpa using this
  have := dnestArgs_eq hc "dnest".toList
  refine Eq.trans ?_ (this.trans ?_)
  · rfl
  · by_cases hlen : f.length < 156
    · cases restart <;> cases postprc <;> simp [foldSteps, dnestSwitch, copyStr, hlen, meant]
    · simp [foldSteps, dnestSwitch, copyStr, hlen]

theorem line_parse (f x : CStr) (restart postprc : Bool) (hx : x.length < 156) :
    dnestArgs (["dnest".toList, "-s".toList, f, "-l".toList] ++
      (if postprc then ["-p".toList] else []) ++ ["-g".toList, "1d".toList, "-x".toList, x] ++
      if restart then ["-r".toList, f] else []) =
    if f.length < 156 then .ok (meant f restart postprc "1d".toList x) else .ub := by
  have hc : CmdLine dFlag dVal (["-s".toList, f, "-l".toList] ++
      ((if postprc then ["-p".toList] else []) ++ (["-g".toList, "1d".toList, "-x".toList, x] ++
        ((if restart then ["-r".toList, f] else []) ++ []))))
      ([('s', some f), ('l', none)] ++ ((if postprc then [('p', none)] else []) ++
        ([('g', some "1d".toList), ('x', some x)] ++ ((if restart then [('r', some f)] else []) ++ [])))) [] := by
    refine cl_val 's' (by simp [dVal]) f (cl_flag 'l' (by simp [dFlag]) ?_)
    refine cl_flags postprc 'p' (by simp [dFlag]) ?_
    refine cl_val 'g' (by simp [dVal]) _ (cl_val 'x' (by simp [dVal]) _ ?_)
    exact cl_vals restart 'r' (by simp [dVal]) f .nil
  have := dnestArgs_eq hc "dnest".toList
  refine Eq.trans ?_ (this.trans ?_)
  · cases restart <;> cases postprc <;> rfl
  · by_cases hlen : f.length < 156
    · cases restart <;> cases postprc <;> simp [foldSteps, dnestSwitch, copyStr, hlen, hx, meant]
    · simp [foldSteps, dnestSwitch, copyStr, hlen]

theorem other_parse (f x : CStr) (restart postprc : Bool) (hx : x.length < 156) :
    dnestArgs (["dnest".toList, "-s".toList, f, "-l".toList] ++
      (if restart then ["-r".toList, f] else []) ++
      (if postprc then ["-p".toList] else []) ++ ["-g".toList, "1d".toList, "-x".toList, x]) =
    if f.length < 156 then .ok (meant f restart postprc "1d".toList x) else .ub := by
  have hc : CmdLine dFlag dVal (["-s".toList, f, "-l".toList] ++
      ((if restart then ["-r".toList, f] else []) ++ ((if postprc then ["-p".toList] else []) ++
      ["-g".toList, "1d".toList, "-x".toList, x])))
      ([('s', some f), ('l', none)] ++ ((if restart then [('r', some f)] else []) ++
        ((if postprc then [('p', none)] else []) ++
        [('g', some "1d".toList), ('x', some x)]))) [] := by
    refine cl_val 's' (by simp [dVal]) f (cl_flag 'l' (by simp [dFlag]) ?_)
    refine cl_vals restart 'r' (by simp [dVal]) f ?_
    refine cl_flags postprc 'p' (by simp [dFlag]) ?_
    exact cl_val 'g' (by simp [dVal]) _ (cl_val 'x' (by simp [dVal]) _ .nil)
  have := dnestArgs_eq hc "dnest".toList
  refine Eq.trans ?_ (this.trans ?_)
  · cases restart <;> cases postprc <;> rfl
  · by_cases hlen : f.length < 156
    · cases restart <;> cases postprc <;> simp [foldSteps, dnestSwitch, copyStr, hlen, hx, meant]
    · simp [foldSteps, dnestSwitch, copyStr, hlen]

end Mica
