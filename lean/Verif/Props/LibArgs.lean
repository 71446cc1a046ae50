import Verif.Proof.LibArgs

/-!
# C127: options of `dnest()`, for every call of a process

A caller of the sampler library hands over options in any order and any number of times.
-/

namespace Mica

variable {atof : CStr → ℝ} {args : List CStr} {es : List (Char × Option CStr)} {ps : List CStr}

/-- What a call with accepted values makes of its options, exactly, from any state of the variables.  All is as asked,
but the temperature is the last one behind the last `-p`, and the compression stays what it was if it is not given. -/
theorem C127_call (h : CmdLine dFlag dVal args es ps) (hl : ∀ a ∈ args, a.length < 156) (hv : LibValid atof es)
    (prog : CStr) (g : LibVars) :
    ∃ g', libCall atof g (prog :: args) = .ok g' ∧
      g'.restart = (libAsked atof es).restart ∧ g'.postprc = (libAsked atof es).postprc ∧
      g'.sampleInfo = (libAsked atof es).sampleInfo ∧ g'.limits = (libAsked atof es).limits ∧
      (g'.restart = true → g'.restartFile = (libAsked atof es).restartFile) ∧
      g'.save = (libAsked atof es).save ∧ g'.suffix = (libAsked atof es).suffix ∧ g'.tag = (libAsked atof es).tag ∧
      g'.compression = (lastOf es 'm').elim g.compression atof ∧
      (given es 'p' = false → g'.temp = (libAsked atof es).temp) ∧
      (∀ a b, es = a ++ ('p', none) :: b → given b 'p' = false → g'.temp = (lastOf b 't').elim 1 atof) := by
  refine ⟨addLib atof (libReset g) es, ?_, ?_, ?_, ?_, ?_, ?_, rfl, rfl, rfl, rfl, ?_, ?_⟩
  · rw [libCall_eq h, fold_lib es _ hv (lib_events h hl)]
  · simp [addLib, libReset, libAsked]
  · simp [addLib, libReset, libAsked]
  · simp [addLib, libReset, libAsked]
  · simp [addLib, libReset, libAsked]
  · intro hr
    have hr' : given es 'r' = true := by simpa [addLib, libReset] using hr
    obtain ⟨e, he, h1⟩ := List.any_eq_true.1 hr'
    have h2 : e.1 = 'r' := by simpa using h1
    obtain ⟨v, hv'⟩ : ∃ v, lastOf es 'r' = some v := by
      rcases lib_events h hl e he with ⟨h3, -⟩ | ⟨-, v, h3, -⟩
      · rw [h2] at h3; simp [dFlag] at h3
      · have hm : v ∈ es.filterMap fun e => if e.1 = 'r' then e.2 else none :=
          List.mem_filterMap.2 ⟨e, he, by rw [if_pos h2, h3]⟩
        unfold lastOf
        cases hL : (es.filterMap fun e => if e.1 = 'r' then e.2 else none).getLast? with
        | none => rw [List.getLast?_eq_none_iff] at hL; rw [hL] at hm; cases hm
        | some w => exact ⟨w, rfl⟩
    simp [addLib, libAsked, hv']
  · intro hp
    exact tempFrom_noPost _ _ hp
  · rintro a b rfl hp
    show tempFrom atof 1 (a ++ ('p', none) :: b) = _
    rw [tempFrom_append]
    show tempFrom atof 1 b = _
    exact tempFrom_noPost _ _ hp

/-- If the temperature is given behind `-p` (or one of the two is not given), and the compression is given or has never
been given, the call does what is asked. -/
theorem C127_asked_partial (h : CmdLine dFlag dVal args es ps) (hl : ∀ a ∈ args, a.length < 156) (hv : LibValid atof es)
    (prog : CStr) (g : LibVars)
    (ht : given es 'p' = false ∨ ∃ a b, es = a ++ ('p', none) :: b ∧ given b 'p' = false ∧ lastOf b 't' = lastOf es 't')
    (hm : (lastOf es 'm').isSome ∨ g.compression = 2.7182818) :
    ∃ g', libCall atof g (prog :: args) = .ok g' ∧ libAction g' = libAction (libAsked atof es) ∧
      g'.limits = (libAsked atof es).limits ∧ g'.compression = (libAsked atof es).compression ∧
      g'.save = (libAsked atof es).save ∧ g'.suffix = (libAsked atof es).suffix ∧ g'.tag = (libAsked atof es).tag := by
  obtain ⟨g', h0, h1, h2, h3, h4, h5, h6, h7, h8, h9, h10, h11⟩ := C127_call h hl hv prog g
  have htemp : g'.temp = (libAsked atof es).temp := by
    rcases ht with hp | ⟨a, b, he, hp, hlast⟩
    · exact h10 hp
    · rw [h11 a b he hp, hlast]; rfl
  refine ⟨g', h0, ?_, h4, ?_, h6, h7, h8⟩
  · unfold libAction
    rw [h2, h3, htemp, h1]
    split
    · rfl
    · split
      · rfl
      · congr 1
        split
        · rename_i hr
          rw [h5 (h1.trans hr)]
        · rfl
  · rw [h9]
    rcases hm with hm | hm
    · show _ = (lastOf es 'm').elim 2.7182818 atof
      cases hs : lastOf es 'm' with
      | none => rw [hs] at hm; cases hm
      | some v => rfl
    · rw [hm]; rfl

/-- What a call with accepted values goes on to do: with `-p` or `-c` it only post-processes, otherwise it samples,
from the file of the last `-r` if there is one. -/
theorem C127_action (h : CmdLine dFlag dVal args es ps) (hl : ∀ a ∈ args, a.length < 156) (hv : LibValid atof es)
    (prog : CStr) (g : LibVars) :
    ∃ g', libCall atof g (prog :: args) = .ok g' ∧
      ((('p', none) ∈ es ∨ ('c', none) ∈ es) → libAction g' = .post g'.temp) ∧
      (('p', none) ∉ es → ('c', none) ∉ es →
        libAction g' = .run (lastOf es 'r') g'.temp) := by
  obtain ⟨g', h0, h1, h2, h3, h4, h5, -⟩ := C127_call h hl hv prog g
  have hev := lib_events h hl
  have hf : ∀ c, c ∈ ['p', 'c'] → (given es c = true ↔ (c, none) ∈ es) := by
    intro c hc
    constructor
    · intro hg
      obtain ⟨e, he, h1⟩ := List.any_eq_true.1 hg
      have h2 : e.1 = c := by simpa using h1
      rcases hev e he with ⟨-, h3⟩ | ⟨h3, -⟩
      · rw [← h2, ← h3]; exact he
      · rw [h2] at h3
        simp only [List.mem_cons, List.not_mem_nil, or_false] at hc
        rcases hc with rfl | rfl <;> simp [dVal] at h3
    · exact fun he => List.any_eq_true.2 ⟨_, he, by simp⟩
  refine ⟨g', h0, fun hpc => ?_, fun hp hc => ?_⟩
  · unfold libAction
    rcases hpc with hp | hp
    · rw [h2, show (libAsked atof es).postprc = true from (hf 'p' (by simp)).2 hp, if_pos rfl]
    · rw [h3, show (libAsked atof es).sampleInfo = true from (hf 'c' (by simp)).2 hp, if_pos rfl, ite_self]
  · have e1 : g'.postprc = false := by
      rw [h2]; exact Bool.eq_false_iff.2 fun hh => hp ((hf 'p' (by simp)).1 hh)
    have e2 : g'.sampleInfo = false := by
      rw [h3]; exact Bool.eq_false_iff.2 fun hh => hc ((hf 'c' (by simp)).1 hh)
    unfold libAction
    rw [e1, e2]
    simp only [Bool.false_eq_true, if_false]
    congr 1
    split
    · rename_i hr
      rw [h5 hr]
      have hr' : given es 'r' = true := h1.symm.trans hr
      obtain ⟨e, he, h1⟩ := List.any_eq_true.1 hr'
      have h2 : e.1 = 'r' := by simpa using h1
      rcases hev e he with ⟨h3, -⟩ | ⟨-, v, h3, -⟩
      · rw [h2] at h3; simp [dFlag] at h3
      · have hm : v ∈ es.filterMap fun e => if e.1 = 'r' then e.2 else none :=
          List.mem_filterMap.2 ⟨e, he, by rw [if_pos h2, h3]⟩
        show some ((lastOf es 'r').getD []) = lastOf es 'r'
        cases hL : lastOf es 'r' with
        | none =>
          unfold lastOf at hL
          rw [List.getLast?_eq_none_iff] at hL; rw [hL] at hm; cases hm
        | some w => rfl
    · rename_i hr
      have hr' : given es 'r' = false := by
        rw [← Bool.not_eq_true]; exact fun hh => hr (h1.trans hh)
      cases hL : lastOf es 'r' with
      | none => rfl
      | some w =>
        unfold lastOf at hL
        obtain ⟨e, he, h1⟩ := List.mem_filterMap.1 (List.mem_of_getLast? hL)
        have : given es 'r' = true := List.any_eq_true.2 ⟨e, he, by
          by_contra hne
          rw [if_neg (by simpa using hne)] at h1; cases h1⟩
        rw [hr'] at this; cases this

/-- The order of options given once does not matter, unless both `-p` and `-t` are given. -/
theorem C127_order_partial {args' : List CStr} {es' : List (Char × Option CStr)} {ps' : List CStr}
    (h : CmdLine dFlag dVal args es ps) (hl : ∀ a ∈ args, a.length < 156)
    (h' : CmdLine dFlag dVal args' es' ps') (hl' : ∀ a ∈ args', a.length < 156) (hv : LibValid atof es)
    (hperm : es.Perm es') (hone : (es.map (·.1)).Nodup) (hpt : given es 'p' = false ∨ lastOf es 't' = none)
    (prog prog' : CStr) (g : LibVars) :
    ∃ g', libCall atof g (prog :: args) = .ok g' ∧ libCall atof g (prog' :: args') = .ok g' := by
  have hv' : LibValid atof es' := fun v =>
    ⟨fun hm => (hv v).1 (hperm.mem_iff.2 hm), fun hm => (hv v).2 (hperm.mem_iff.2 hm)⟩
  have hg : ∀ c, given es' c = given es c := by
    intro c
    unfold given
    exact (hperm.any_eq).symm
  have hs : ∀ c, lastOf es' c = lastOf es c := by
    intro c
    unfold lastOf
    have hle : (es.filterMap fun e => if e.1 = c then e.2 else none).length ≤ 1 := by
      clear hperm hpt hv h hl hg hv'
      induction es with
      | nil => simp
      | cons e es ih =>
        rw [List.map_cons, List.nodup_cons] at hone
        rw [List.filterMap_cons]
        split
        · exact ih hone.2
        · rename_i w hw
          split at hw
          · rename_i hc
            have : es.filterMap (fun e => if e.1 = c then e.2 else none) = [] := by
              rw [List.filterMap_eq_nil_iff]
              intro x hx
              rw [if_neg]
              rintro rfl
              exact hone.1 (hc ▸ List.mem_map_of_mem hx)
            rw [this]; simp
          · cases hw
    have hp := hperm.filterMap fun e => if e.1 = c then e.2 else none
    match hA : es.filterMap (fun e => if e.1 = c then e.2 else none) with
    | [] => rw [hA] at hp; rw [List.nil_perm.1 hp, hA]
    | [w] => rw [hA] at hp; rw [← List.singleton_perm.1 hp, hA]
    | _ :: _ :: _ => rw [hA] at hle; simp at hle
  refine ⟨addLib atof (libReset g) es, by rw [libCall_eq h, fold_lib es _ hv (lib_events h hl)], ?_⟩
  rw [libCall_eq h', fold_lib es' _ hv' (lib_events h' hl')]
  have ht : tempFrom atof 1 es' = tempFrom atof 1 es := by
    rcases hpt with hp | hn
    · rw [tempFrom_noPost _ _ hp, tempFrom_noPost _ _ (by rw [hg]; exact hp), hs]
    · have key : ∀ l : List (Char × Option CStr), lastOf l 't' = none → tempFrom atof 1 l = 1 := by
        intro l
        induction l with
        | nil => intro _; rfl
        | cons e l ih =>
          obtain ⟨a, o⟩ := e
          rw [lastOf_cons]
          intro hn
          by_cases hat : a = 't'
          · rw [if_pos hat] at hn
            have h1 : lastOf l 't' = none := by cases e : lastOf l 't' <;> simp_all
            have h2 : o = none := by cases o <;> simp_all
            simp only [tempFrom, h2, Option.elim, ite_self]
            exact ih h1
          · rw [if_neg hat] at hn
            simp only [tempFrom, hat, if_false, ite_self]
            exact ih hn
      rw [key es hn, key es' (by rw [hs]; exact hn)]
  simp only [addLib, hg, hs, libReset, ht]

/-- Several calls in a process: after each, all but the compression is as in a new process; the compression is the
last one ever given. -/
theorem C127_calls (calls : List (CStr × List CStr × List (Char × Option CStr)))
    (hc : ∀ c ∈ calls, (∃ ps, CmdLine dFlag dVal c.2.1 c.2.2 ps) ∧ (∀ a ∈ c.2.1, a.length < 156) ∧ LibValid atof c.2.2)
    (last : CStr × List CStr × List (Char × Option CStr))
    (hlast : (∃ ps, CmdLine dFlag dVal last.2.1 last.2.2 ps) ∧ (∀ a ∈ last.2.1, a.length < 156) ∧ LibValid atof last.2.2)
    (g : LibVars) :
    ∃ g1 g2, libCalls atof g ((calls ++ [last]).map fun c => c.1 :: c.2.1) = .ok g1 ∧
      libCall atof {} (last.1 :: last.2.1) = .ok g2 ∧
      { g1 with compression := 0, restartFile := [] } = { g2 with compression := 0, restartFile := [] } ∧
      libAction g1 = libAction g2 ∧
      g1.compression = (lastOf ((calls ++ [last]).flatMap fun c => c.2.2) 'm').elim g.compression atof := by
  have lastApp : ∀ a b : List (Char × Option CStr), lastOf (a ++ b) 'm' = (lastOf b 'm').or (lastOf a 'm') := by
    intro a b
    unfold lastOf
    rw [List.filterMap_append, List.getLast?_append]
  induction calls generalizing g with
  | nil =>
    obtain ⟨⟨ps, h1⟩, h2, h3⟩ := hlast
    refine ⟨addLib atof (libReset g) last.2.2, addLib atof (libReset {}) last.2.2, ?_, ?_, ?_, ?_, ?_⟩
    · simp only [List.nil_append, List.map_cons, List.map_nil, libCalls]
      rw [libCall_eq h1, fold_lib _ _ h3 (lib_events h1 h2)]; rfl
    · rw [libCall_eq h1, fold_lib _ _ h3 (lib_events h1 h2)]
    · simp [addLib, libReset]
    · obtain ⟨u, hu, a1, a2, a3, -, a5, -, -, -, -, -, -⟩ := C127_call h1 h2 h3 last.1 g
      obtain ⟨w, hw, b1, b2, b3, -, b5, -, -, -, -, -, -⟩ := C127_call h1 h2 h3 last.1 {}
      rw [libCall_eq h1, fold_lib _ _ h3 (lib_events h1 h2)] at hu hw
      cases hu; cases hw
      unfold libAction
      rw [a1, b1, a2, b2, a3, b3] at *
      split
      · rfl
      · split
        · rfl
        · congr 1
          split
          · rename_i hr
            rw [a5 hr, b5 hr]
          · rfl
    · simp [addLib, libReset]
  | cons c calls ih =>
    obtain ⟨⟨ps, h1⟩, h2, h3⟩ := hc c (by simp)
    obtain ⟨g1, g2, i1, i2, i3, i4, i5⟩ := ih (fun x hx => hc x (by simp [hx])) (addLib atof (libReset g) c.2.2)
    refine ⟨g1, g2, ?_, i2, i3, i4, ?_⟩
    · rw [List.cons_append, List.map_cons, libCalls, libCall_eq h1, fold_lib _ _ h3 (lib_events h1 h2)]
      exact i1
    · rw [i5, List.cons_append, List.flatMap_cons, lastApp]
      cases lastOf ((calls ++ [last]).flatMap fun c => c.2.2) 'm' <;> rfl

/-- A temperature below 1 (or text that is no number) and a compression above `e` end the program. -/
theorem C127_refused (h : CmdLine dFlag dVal args es ps) (hl : ∀ a ∈ args, a.length < 156)
    (a b : List (Char × Option CStr)) (c : Char) (v : CStr) (he : es = a ++ (c, some v) :: b) (hva : LibValid atof a)
    (hbad : c = 't' ∧ atof v < 1 ∨ c = 'm' ∧ Real.exp 1 < atof v) (prog : CStr) (g : LibVars) :
    libCall atof g (prog :: args) = .exit := by
  have hev := lib_events h hl
  rw [libCall_eq h, he, foldSteps_append, fold_lib a _ hva fun e h' => hev e (by rw [he]; simp [h'])]
  rw [Res.ok_bind, foldSteps]
  rcases hbad with ⟨rfl, hb⟩ | ⟨rfl, hb⟩
  · simp only [libSwitch]
    by_cases h0 : atof v = 0
    · rw [if_pos h0]; rfl
    · rw [if_neg h0, if_pos hb]; rfl
  · simp only [libSwitch]
    rw [if_pos hb]; rfl

/-- The order of `-p` and `-t` matters: in one order the temperature is lost. -/
theorem C127_fails_order (hr : atof ['2'] = 2) (g : LibVars) :
    (∃ g', libCall atof g ["dnest".toList, "-p".toList, "-t".toList, "2".toList] = .ok g' ∧ g'.temp = 2) ∧
    (∃ g', libCall atof g ["dnest".toList, "-t".toList, "2".toList, "-p".toList] = .ok g' ∧ g'.temp = 1) := by
  have c1 : CmdLine dFlag dVal ["-p".toList, "-t".toList, "2".toList] [('p', none), ('t', some ['2'])] [] :=
    cl_flag 'p' (by simp [dFlag]) (cl_val 't' (by simp [dVal]) ['2'] .nil)
  have c2 : CmdLine dFlag dVal ["-t".toList, "2".toList, "-p".toList] [('t', some ['2']), ('p', none)] [] :=
    cl_val 't' (by simp [dVal]) ['2'] (cl_flag 'p' (by simp [dFlag]) .nil)
  obtain ⟨g1, a1, -, -, -, -, -, -, -, -, -, -, a2⟩ := C127_call (atof := atof) c1 (by decide)
    (fun v => ⟨fun hv => by simp at hv; subst hv; rw [hr]; norm_num, fun hv => by simp at hv⟩) "dnest".toList g
  obtain ⟨g2, b1, -, -, -, -, -, -, -, -, -, -, b2⟩ := C127_call (atof := atof) c2 (by decide)
    (fun v => ⟨fun hv => by simp at hv; subst hv; rw [hr]; norm_num, fun hv => by simp at hv⟩) "dnest".toList g
  refine ⟨⟨g1, a1, ?_⟩, g2, b1, ?_⟩
  · rw [a2 [] _ rfl (by decide)]
    exact hr
  · exact b2 [('t', some ['2'])] [] rfl (by decide)

/-- A compression given in one call is used by all later calls of the process. -/
theorem C127_fails_again (hr : atof ['2'] = 2) :
    ∃ g', libCalls atof {} [["dnest".toList, "-m".toList, "2".toList], ["dnest".toList]] = .ok g' ∧ g'.compression = 2 ∧
      (libAsked atof []).compression = 2.7182818 := by
  have c1 : CmdLine dFlag dVal ["-m".toList, "2".toList] [('m', some ['2'])] [] := cl_val 'm' (by simp [dVal]) ['2'] .nil
  have hv : LibValid atof [('m', some ['2'])] := fun v =>
    ⟨fun hv => by simp at hv, fun hv => by simp at hv; subst hv; rw [hr]; have := Real.add_one_le_exp (1 : ℝ); linarith⟩
  obtain ⟨g1, -, i1, -, -, -, i5⟩ := C127_calls (atof := atof) [("dnest".toList, ["-m".toList, "2".toList], [('m', some ['2'])])]
    (by
      intro c hc
      rw [List.mem_singleton] at hc
      subst hc
      exact ⟨⟨[], c1⟩, by decide, hv⟩)
    ("dnest".toList, [], []) ⟨⟨[], .nil⟩, by simp, fun v => by simp⟩ {}
  exact ⟨g1, i1, i5.trans hr, rfl⟩

/-- A compression of zero or below (or text that is no number) is taken. -/
theorem C127_fails_compression (v : CStr) (hl : v.length < 156) (hz : atof v ≤ 0) (g : LibVars) :
    ∃ g', libCall atof g ["dnest".toList, "-m".toList, v] = .ok g' ∧ g'.compression ≤ 0 := by
  have c1 : CmdLine dFlag dVal ["-m".toList, v] [('m', some v)] [] := cl_val 'm' (by simp [dVal]) v .nil
  obtain ⟨g1, a1, -, -, -, -, -, -, -, -, a2, -, -⟩ := C127_call (atof := atof) c1 (by simp [hl])
    (fun w => ⟨fun hv => by simp at hv, fun hv => by simp at hv; subst hv; have := Real.exp_pos 1; linarith⟩) "dnest".toList g
  exact ⟨g1, a1, by rw [a2]; exact hz⟩

/-! ### Examples -/

/-- A command line with grouped and joined options. -/
theorem libLine_ex : CmdLine dFlag dVal ["-lp".toList, "-t3".toList, "-x".toList, "_1".toList]
    [('l', none), ('p', none), ('t', some ['3']), ('x', some ['_', '1'])] [] :=
  .flags 'l' ['p'] (by simp [dFlag]) (.joined [] (by simp) 't' (by simp [dVal]) ['3'] (by simp)
    (cl_val 'x' (by simp [dVal]) ['_', '1'] .nil))

example (hr : atof ['3'] = 3) : ∃ g', libCall atof {} ("dnest".toList :: ["-lp".toList, "-t3".toList, "-x".toList, "_1".toList]) = .ok g' ∧
    libAction g' = libAction (libAsked atof [('l', none), ('p', none), ('t', some ['3']), ('x', some ['_', '1'])]) :=
  let ⟨g', a, b, _⟩ := C127_asked_partial (atof := atof) libLine_ex (by decide)
    (fun v => ⟨fun hv => by simp at hv; subst hv; rw [hr]; norm_num, fun hv => by simp at hv⟩) "dnest".toList {}
    (Or.inr ⟨[('l', none)], _, rfl, by decide, by decide⟩) (Or.inr rfl)
  ⟨g', a, b⟩

example (g : LibVars) : ∃ g', libCall atof g ["dnest".toList, "-l".toList, "-p".toList] = .ok g' ∧
    libCall atof g ["dnest".toList, "-p".toList, "-l".toList] = .ok g' :=
  C127_order_partial (cl_flag 'l' (by simp [dFlag]) (cl_flag 'p' (by simp [dFlag]) .nil)) (by decide)
    (cl_flag 'p' (by simp [dFlag]) (cl_flag 'l' (by simp [dFlag]) .nil)) (by decide)
    (fun v => by simp) (List.Perm.swap _ _ _) (by decide) (Or.inr rfl) _ _ g

example (hr : atof ['0', '.', '5'] = 1 / 2) (g : LibVars) :
    libCall atof g ["dnest".toList, "-t".toList, "0.5".toList] = .exit :=
  C127_refused (cl_val 't' (by simp [dVal]) _ .nil) (by decide) [] [] 't' _ rfl (fun v => by simp)
    (Or.inl ⟨rfl, by rw [show "0.5".toList = ['0', '.', '5'] from rfl, hr]; norm_num⟩) _ g

end Mica
