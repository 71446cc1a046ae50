import Verif.Spec.LibArgs
import Verif.Proof.RunArgs

/-!
# Helper lemmas for C127
-/

namespace Mica

variable {atof : CStr → ℝ} {args : List CStr} {es : List (Char × Option CStr)} {ps : List CStr}

theorem libCall_eq (h : CmdLine dFlag dVal args es ps) (prog : CStr) (g : LibVars) :
    libCall atof g (prog :: args) = foldSteps (libSwitch atof) es (libReset g) := by
  obtain ⟨argv, i, _, h2⟩ := loop_end (step := libSwitch atof) (by decide) dFlag_ok dVal_ok h prog
  unfold libCall
  rw [h2 _ _ (by have := cmdline_length h; simp; omega), res_bind_assoc]
  cases foldSteps (libSwitch atof) es (libReset g) <;> rfl

theorem lastOf_cons (c d : Char) (v : Option CStr) (es : List (Char × Option CStr)) :
    lastOf ((d, v) :: es) c = if d = c then (lastOf es c).or v else lastOf es c := by
  unfold lastOf
  by_cases h : d = c
  · subst h
    rw [if_pos rfl]
    cases v with
    | none => simp
    | some v => simp [List.getLast?_cons]
  · rw [if_neg h, List.filterMap_cons]
    simp only [h, if_false]

theorem given_cons (c d : Char) (v : Option CStr) (es : List (Char × Option CStr)) :
    given ((d, v) :: es) c = (d == c || given es c) := rfl

/-- Temperature after the options. -/
noncomputable def tempFrom (atof : CStr → ℝ) : ℝ → List (Char × Option CStr) → ℝ
  | t, [] => t
  | t, e :: es => tempFrom atof (if e.1 = 'p' then 1 else if e.1 = 't' then e.2.elim t atof else t) es

/-- The variables after the options. -/
noncomputable def addLib (atof : CStr → ℝ) (g : LibVars) (es : List (Char × Option CStr)) : LibVars where
  temp := tempFrom atof g.temp es
  restart := g.restart || given es 'r'
  postprc := g.postprc || given es 'p'
  sampleInfo := g.sampleInfo || given es 'c'
  limits := g.limits || given es 'l'
  restartFile := (lastOf es 'r').getD g.restartFile
  save := (lastOf es 's').getD g.save
  suffix := (lastOf es 'x').getD g.suffix
  tag := (lastOf es 'g').getD g.tag
  compression := (lastOf es 'm').elim g.compression atof

theorem fold_lib (es : List (Char × Option CStr)) (g : LibVars) (hv : LibValid atof es)
    (h : ∀ e ∈ es, dFlag e.1 ∧ e.2 = none ∨ dVal e.1 ∧ ∃ v, e.2 = some v ∧ v.length < 156) :
    foldSteps (libSwitch atof) es g = .ok (addLib atof g es) := by
  induction es generalizing g with
  | nil => simp [foldSteps, addLib, lastOf, given, tempFrom]
  | cons e es ih =>
    have ih' := fun g => ih g (fun v => ⟨fun hm => (hv v).1 (by simp [hm]), fun hm => (hv v).2 (by simp [hm])⟩)
      (fun x hx => h x (by simp [hx]))
    obtain ⟨a, o⟩ := e
    rcases h (a, o) (by simp) with ⟨h1, h2⟩ | ⟨h1, v, h2, h3⟩
    · simp only at h2
      subst h2
      simp only [dFlag, List.mem_cons, List.not_mem_nil, or_false] at h1
      rcases h1 with rfl | rfl | rfl <;>
        · simp only [foldSteps, libSwitch, Res.ok_bind, ih']
          simp [addLib, lastOf_cons, given_cons, tempFrom]
    · simp only at h2
      subst h2
      simp only [dVal, List.mem_cons, List.not_mem_nil, or_false] at h1
      rcases h1 with rfl | rfl | rfl | rfl | rfl | rfl
      · simp only [foldSteps, libSwitch, copyStr, h3, if_true, Res.ok_bind, ih']
        simp [addLib, lastOf_cons, given_cons, tempFrom]
      · simp only [foldSteps, libSwitch, copyStr, h3, if_true, Res.ok_bind, ih']
        simp [addLib, lastOf_cons, given_cons, tempFrom]
      · have ht := (hv v).1 (by simp)
        simp only [foldSteps, libSwitch]
        rw [if_neg (by linarith), if_neg (by linarith), Res.ok_bind, ih']
        simp [addLib, lastOf_cons, given_cons, tempFrom]
      · simp only [foldSteps, libSwitch, copyStr, h3, if_true, Res.ok_bind, ih']
        simp [addLib, lastOf_cons, given_cons, tempFrom]
      · simp only [foldSteps, libSwitch, copyStr, h3, if_true, Res.ok_bind, ih']
        simp [addLib, lastOf_cons, given_cons, tempFrom]
      · have ht := (hv v).2 (by simp)
        simp only [foldSteps, libSwitch]
        rw [if_neg (by linarith), Res.ok_bind, ih']
        simp [addLib, lastOf_cons, given_cons, tempFrom]
        cases lastOf es 'm' <;> rfl

theorem lib_events (h : CmdLine dFlag dVal args es ps) (hl : ∀ a ∈ args, a.length < 156) :
    ∀ e ∈ es, dFlag e.1 ∧ e.2 = none ∨ dVal e.1 ∧ ∃ v, e.2 = some v ∧ v.length < 156 := by
  exact (cmdline_events h hl).1

theorem tempFrom_append (t : ℝ) (a b : List (Char × Option CStr)) :
    tempFrom atof t (a ++ b) = tempFrom atof (tempFrom atof t a) b := by
  induction a generalizing t with
  | nil => rfl
  | cons e a ih => simp only [List.cons_append, tempFrom, ih]

/-- Without `-p` behind, the last temperature counts. -/
theorem tempFrom_noPost (t : ℝ) (b : List (Char × Option CStr)) (hp : given b 'p' = false) :
    tempFrom atof t b = (lastOf b 't').elim t atof := by
  induction b generalizing t with
  | nil => rfl
  | cons e b ih =>
    obtain ⟨a, o⟩ := e
    rw [given_cons, Bool.or_eq_false_iff] at hp
    have hap : a ≠ 'p' := by simpa using hp.1
    rw [lastOf_cons]
    simp only [tempFrom, hap, if_false]
    by_cases hat : a = 't'
    · rw [if_pos hat, if_pos hat, ih _ hp.2]
      cases lastOf b 't' <;> simp
    · rw [if_neg hat, if_neg hat, ih _ hp.2]

end Mica
