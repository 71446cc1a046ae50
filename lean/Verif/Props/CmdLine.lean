import Verif.Proof.Getopt
import Mathlib.Data.List.GetD
import Mathlib.Algebra.Order.BigOperators.Group.List
import Mathlib.Algebra.Order.Group.Nat

/-!
# C87: the command line

Settings, file names and option files reach the program whatever the order of the arguments.
-/

namespace Mica

/-- The letters without a value (docs/decomp.rst, resume.rst, para_prior.rst; src/main.c:50). -/
def mainFlag (c : Char) : Prop := c ∈ ['p', 'v', 'r', 'd', 'e', 'n', 's']

/-- The one with a value. -/
def mainVal (c : Char) : Prop := c = 'l'

/-- What the options `es` and the names `ps` ask for (one letter may be given several times; of several priors the
last counts). -/
def asked (es : List (Char × Option CStr)) (ps : List CStr) : MainCfg where
  postprc := es.any fun e => e.1 == 'p' || e.1 == 'd'
  version := es.any fun e => e.1 == 'v'
  restart := es.any fun e => e.1 == 'r'
  decomp := es.any fun e => e.1 == 'd'
  examine := es.any fun e => e.1 == 'e'
  prior := (es.filterMap fun e => if e.1 = 'l' then e.2 else none).getLast?
  paraName := es.any fun e => e.1 == 'n'
  postsample := es.any fun e => e.1 == 's'
  param := ps.getD 0 []
  optsLine := ps.getD 1 []
  optsCon := ps.getD 2 []

theorem mainFlag_ok : ∀ c, mainFlag c → IsFlag mainOpts c := by
  intro c h
  simp only [mainFlag, List.mem_cons, List.not_mem_nil, or_false] at h
  rcases h with rfl | rfl | rfl | rfl | rfl | rfl | rfl <;> exact ⟨_, rfl, by decide⟩

theorem mainVal_ok : ∀ c, mainVal c → IsVal mainOpts c := by
  rintro c rfl
  exact ⟨_, rfl, by decide⟩

/-- `c` with the settings of `es` added. -/
def addOpts (c : MainCfg) (es : List (Char × Option CStr)) : MainCfg :=
  { c with
    postprc := c.postprc || es.any fun e => e.1 == 'p' || e.1 == 'd'
    version := c.version || es.any fun e => e.1 == 'v'
    restart := c.restart || es.any fun e => e.1 == 'r'
    decomp := c.decomp || es.any fun e => e.1 == 'd'
    examine := c.examine || es.any fun e => e.1 == 'e'
    prior := (es.filterMap fun e => if e.1 = 'l' then e.2 else none).getLast?.or c.prior
    paraName := c.paraName || es.any fun e => e.1 == 'n'
    postsample := c.postsample || es.any fun e => e.1 == 's' }

theorem fold_main (es : List (Char × Option CStr)) (c : MainCfg)
    (h : ∀ e ∈ es, mainFlag e.1 ∧ e.2 = none ∨ mainVal e.1 ∧ ∃ v, e.2 = some v ∧ v.length < 256) :
    foldSteps mainSwitch es c = .ok (addOpts c es) := by
  induction es generalizing c with
  | nil => simp [foldSteps, addOpts]
  | cons e es ih =>
    have ih' := fun c => ih c (fun x hx => h x (by simp [hx]))
    obtain ⟨a, o⟩ := e
    rcases h (a, o) (by simp) with ⟨h1, h2⟩ | ⟨h1, v, h2, h3⟩
    · simp only at h2
      subst h2
      simp only [mainFlag, List.mem_cons, List.not_mem_nil, or_false] at h1
      rcases h1 with rfl | rfl | rfl | rfl | rfl | rfl | rfl <;>
        · simp only [foldSteps, mainSwitch, Res.ok_bind, ih']
          simp [addOpts]
    · simp only at h2
      simp only [mainVal] at h1
      subst h1 h2
      simp only [foldSteps, mainSwitch, copyStr, h3, if_true, Res.ok_bind, ih']
      simp [addOpts, List.getLast?_cons]

theorem mainFiles_eq (c : MainCfg) (argv : List CStr) (i : ℕ) : mainFiles c argv i =
    match argv.drop i with
    | [] => .exit
    | p :: rest => copyStr 256 p >>= fun p => copyStr 256 (rest.getD 0 []) >>= fun l =>
        copyStr 256 (rest.getD 1 []) >>= fun d => .ok { c with param := p, optsLine := l, optsCon := d } := by
  unfold mainFiles
  cases e : argv.drop i with
  | nil =>
    rw [if_neg (by simpa using e)]
  | cons p rest =>
    have hl : argv.length - i = rest.length + 1 := by
      have := congrArg List.length e
      simpa using this
    have hg : ∀ k x, (p :: rest)[k]? = some x → Res.get argv (i + k) = .ok x := by
      intro k x hx
      rw [Res.get_eq_ok, ← List.getElem?_drop, e, hx]
    rw [if_pos (by omega), show Res.get argv i = .ok p from hg 0 p rfl]
    simp only [Res.ok_bind]
    congr 1
    funext p'
    match rest, hl, hg with
    | [], hl, hg =>
      rw [if_neg (by simp at hl; omega), if_neg (by simp at hl; omega)]
      rfl
    | [a], hl, hg =>
      rw [if_pos (by simp at hl; omega), if_neg (by simp at hl; omega), hg 1 a rfl]
      rfl
    | a :: b :: l, hl, hg =>
      rw [if_pos (by simp at hl; omega), if_pos (by simp at hl; omega), hg 1 a rfl, hg 2 b rfl]
      rfl

theorem addOpts_asked (es : List (Char × Option CStr)) (p : CStr) (rest : List CStr) :
    { addOpts {} es with param := p, optsLine := rest.getD 0 [], optsCon := rest.getD 1 [] } = asked es (p :: rest) := by
  simp [addOpts, asked]

theorem getD_lt {ps : List CStr} (h : ∀ a ∈ ps, a.length < 256) (k : ℕ) : (ps.getD k []).length < 256 := by
  by_cases hk : k < ps.length
  · rw [List.getD_eq_getElem _ _ hk]
    exact h _ (List.getElem_mem hk)
  · rw [List.getD_eq_default _ _ (by omega)]
    simp

section
variable {args : List CStr} {es : List (Char × Option CStr)} {ps : List CStr} (h : CmdLine mainFlag mainVal args es ps)
include h

/-- C87 (partial): a command line that follows the usual convention, options before, between or behind the file
names, grouped or not, is understood as written: every option asked for is set and no other, the last `-l` names the
prior file, the first name is the parameter file, the second and third are the option files of the sampler.
Partial: arguments must be shorter than 256 characters (`C87_fails_long`), and no argument is `--`
(`C87_fails_dashes`). -/
theorem C87_any_order_partial (prog : CStr) (hl : ∀ a ∈ args, a.length < 256) (hp : ps ≠ []) :
    mainArgs (prog :: args) = .ok (asked es ps) := by
  obtain ⟨argv, i, h1, h2⟩ := loop_end (step := mainSwitch) (by decide) mainFlag_ok mainVal_ok h prog
  obtain ⟨h3, h4⟩ := cmdline_events h hl
  unfold mainArgs
  rw [h2 _ _ (by have := cmdline_length h; simp; omega), fold_main es {} h3]
  simp only [Res.ok_bind]
  rw [mainFiles_eq, h1]
  obtain ⟨p, rest, rfl⟩ := List.exists_cons_of_ne_nil hp
  have hr : ∀ a ∈ rest, a.length < 256 := fun a ha => h4 a (by simp [ha])
  simp only [copyStr]
  rw [if_pos (h4 p (by simp)), if_pos (getD_lt hr 0), if_pos (getD_lt hr 1)]
  simp only [Res.ok_bind]
  rw [addOpts_asked]

/-- C87: without a name the program stops with its message. -/
theorem C87_no_file (prog : CStr) (hl : ∀ a ∈ args, a.length < 256) (hp : ps = []) :
    mainArgs (prog :: args) = .exit := by
  obtain ⟨argv, i, h1, h2⟩ := loop_end (step := mainSwitch) (by decide) mainFlag_ok mainVal_ok h prog
  obtain ⟨h3, h4⟩ := cmdline_events h hl
  unfold mainArgs
  rw [h2 _ _ (by have := cmdline_length h; simp; omega), fold_main es {} h3]
  simp only [Res.ok_bind]
  rw [mainFiles_eq, h1, hp]

/-- C87: a letter that is no option stops the program, wherever it stands; `:` is no option but is let through
(`C87_fails_colon`). -/
theorem C87_unknown (prog : CStr) (hl : ∀ a ∈ args, a.length < 256) (gs : List Char) (hg : ∀ x ∈ gs, mainFlag x)
    (b : Char) (hb : ¬ mainFlag b ∧ ¬ mainVal b ∧ b ≠ ':') (bs : CStr) (hw : gs ++ b :: bs ≠ ['-'])
    (tail : List CStr) : mainArgs (prog :: (args ++ ('-' :: (gs ++ b :: bs)) :: tail)) = .exit := by
  obtain ⟨h3, h4⟩ := cmdline_events h hl
  unfold mainArgs
  rw [loop_bad (step := mainSwitch) (by decide) mainFlag_ok mainVal_ok h prog gs hg b ?_ bs hw tail _ _
    (by have := cmdline_length h; simp; omega), fold_main _ {} ?_]
  · rfl
  · intro e he
    rcases List.mem_append.1 he with he | he
    · exact h3 e he
    · obtain ⟨x, hx, rfl⟩ := List.mem_map.1 he
      exact Or.inl ⟨hg x hx, rfl⟩
  · obtain ⟨h5, h6, h7⟩ := hb
    simp only [mainFlag, mainVal, List.mem_cons, List.not_mem_nil, or_false, not_or] at h5 h6
    have : mainOpts = ['p', 'v', 'r', 'd', 'e', 'l', ':', 'n', 's'] := by decide
    rw [this]
    simp only [List.mem_cons, List.not_mem_nil, or_false, not_or]
    exact ⟨h5.1, h5.2.1, h5.2.2.1, h5.2.2.2.1, h5.2.2.2.2.1, h6, h7, h5.2.2.2.2.2.1, h5.2.2.2.2.2.2⟩

/-- C87: `-l` at the end, without its file, stops the program. -/
theorem C87_missing (prog : CStr) (hl : ∀ a ∈ args, a.length < 256) (gs : List Char) (hg : ∀ x ∈ gs, mainFlag x) :
    mainArgs (prog :: (args ++ ['-' :: (gs ++ ['l'])])) = .exit := by
  obtain ⟨h3, h4⟩ := cmdline_events h hl
  unfold mainArgs
  rw [loop_missing (step := mainSwitch) (by decide) mainFlag_ok mainVal_ok h prog gs hg 'l' rfl _ _
    (by have := cmdline_length h; simp; omega), fold_main _ {} ?_]
  · rfl
  · intro e he
    rcases List.mem_append.1 he with he | he
    · exact h3 e he
    · obtain ⟨x, hx, rfl⟩ := List.mem_map.1 he
      exact Or.inl ⟨hg x hx, rfl⟩

/-- C87 fails with `--`: the names in front of it are forgotten; the parameter file is the first name behind it. -/
theorem C87_fails_dashes (prog : CStr) (tail : List CStr) (hl : ∀ a ∈ args ++ tail, a.length < 256) :
    mainArgs (prog :: (args ++ ['-', '-'] :: tail)) = if tail = [] then .exit else .ok (asked es tail) := by
  obtain ⟨argv, i, h1, h2⟩ := loop_dashes (step := mainSwitch) (by decide) mainFlag_ok mainVal_ok h prog tail
  obtain ⟨h3, h4⟩ := cmdline_events h (fun a ha => hl a (by simp [ha]))
  unfold mainArgs
  rw [h2 _ _ (by have := cmdline_length h; simp; omega), fold_main es {} h3]
  simp only [Res.ok_bind]
  rw [mainFiles_eq, h1]
  cases tail with
  | nil => rfl
  | cons p rest =>
    have hr : ∀ a ∈ rest, a.length < 256 := fun a ha => hl a (by simp [ha])
    simp only [copyStr, reduceCtorEq, if_false]
    rw [if_pos (hl p (by simp)), if_pos (getD_lt hr 0), if_pos (getD_lt hr 1)]
    simp only [Res.ok_bind]
    rw [addOpts_asked]

/-- C87 fails for long names: a parameter file whose name has 256 characters or more is written past the end of its
array. -/
theorem C87_fails_long (prog p : CStr) (rest : List CStr) (hp : ps = p :: rest) (h256 : 256 ≤ p.length)
    (hv : ∀ e ∈ es, ∀ v, e.2 = some v → v.length < 256) : mainArgs (prog :: args) = .ub := by
  obtain ⟨argv, i, h1, h2⟩ := loop_end (step := mainSwitch) (by decide) mainFlag_ok mainVal_ok h prog
  have h3 : ∀ e ∈ es, mainFlag e.1 ∧ e.2 = none ∨ mainVal e.1 ∧ ∃ v, e.2 = some v ∧ v.length < 256 := by
    intro e he
    obtain ⟨n, hn⟩ : ∃ n, ∀ a ∈ args, a.length < n := by
      refine ⟨(args.map List.length).sum + 1, fun a ha => ?_⟩
      have := List.le_sum_of_mem (List.mem_map_of_mem (f := List.length) ha)
      omega
    rcases (cmdline_events h hn).1 e he with h | ⟨h, v, h', _⟩
    · exact Or.inl h
    · exact Or.inr ⟨h, v, h', hv e he v h'⟩
  unfold mainArgs
  rw [h2 _ _ (by have := cmdline_length h; simp; omega), fold_main es {} h3]
  simp only [Res.ok_bind]
  rw [mainFiles_eq, h1, hp]
  simp only [copyStr]
  rw [if_neg (by omega)]
  rfl

end

/-- C87 fails for `-:`: no message, the program goes on as if the argument were not there. -/
theorem C87_fails_colon : mainArgs ["mica2".toList, "-:".toList, "param".toList] =
    mainArgs ["mica2".toList, "param".toList] := by decide +kernel

/-- The manual's `./mica2 param/param -d` (docs/decomp.rst), and a mixed line. -/
example : CmdLine mainFlag mainVal ["param/param".toList, "-d".toList] [('d', none)] ["param/param".toList] :=
  .name _ (by decide) (.flags 'd' [] (by simp [mainFlag]) .nil)

example : CmdLine mainFlag mainVal ["-nl".toList, "prior.txt".toList, "param".toList, "-r".toList, "OPTIONS".toList]
    [('n', none), ('l', some "prior.txt".toList), ('r', none)] ["param".toList, "OPTIONS".toList] :=
  .apart (flag := mainFlag) (val := mainVal) ['n'] (by simp [mainFlag]) 'l' rfl "prior.txt".toList
    (.name "param".toList (by decide) (.flags 'r' [] (by simp [mainFlag]) (.name "OPTIONS".toList (by decide) .nil)))

example : mainArgs ["mica2".toList, "param/param".toList, "-d".toList] =
    .ok { postprc := true, decomp := true, param := "param/param".toList } := by decide +kernel

end Mica
