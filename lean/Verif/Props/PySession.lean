import Verif.Model.PySession
import Verif.Model.SampleText
import Verif.Props.RunPlan

/-!
# C111: `prepare` and `restart`; C112: calls of an object do not depend on earlier calls
-/

namespace Mica

/-! ## Names -/

theorem restartName_inj {i j : ℕ} (h : restartName i = restartName j) : i = j := by
  unfold restartName at h
  exact dec_inj (List.cons_injective (List.append_cancel_left h))

theorem restart_ne_snap (i j : ℕ) (z : ℤ) : restartName i ≠ snapName j z := by
  intro h
  unfold restartName snapName at h
  have h := List.cons_injective (List.append_cancel_left h)
  exact dec_no (n := i) (by rw [h]; simp)

theorem restart_ne_sample (i j : ℕ) : restartName i ≠ sampleName j := by
  intro h
  unfold restartName sampleName at h
  have := congrArg List.head? h
  revert this; simp

theorem decZ_nat (n : ℕ) : decZ (n : ℤ) = dec n := rfl

/-! ## C111 -/

/-- The loop with a fixed number of steps, all snapshots there. -/
theorem prepareLoop_ok (k : ℕ) : ∀ (i : ℕ) (n : ℤ) (d : DataDir),
    (∀ j, i ≤ j → j < i + k → d (snapName j n) ≠ none) →
    ∃ d', prepareLoop i k (some n) d = (d', true) ∧
      (∀ j, i ≤ j → j < i + k → d' (restartName j) = d (snapName j n)) ∧
      ∀ x, (∀ j, i ≤ j → j < i + k → x ≠ restartName j) → d' x = d x := by
  induction k with
  | zero => exact fun i n d _ => ⟨d, rfl, fun j h1 h2 => by omega, fun _ _ => rfl⟩
  | succ k ih =>
    intro i n d h
    have hd : ∀ j, d.copy (snapName i n) (restartName i) (snapName j n) = d (snapName j n) := fun j => by
      unfold DataDir.copy
      rw [if_neg (restart_ne_snap i j n).symm]
    obtain ⟨d', e, h1, h2⟩ := ih (i + 1) n (d.copy (snapName i n) (restartName i)) fun j a b => by
      rw [hd]; exact h j (by omega) (by omega)
    refine ⟨d', ?_, fun j a b => ?_, fun x hx => ?_⟩
    · simp only [prepareLoop, if_neg (h i (by omega) (by omega)), e]
    · rcases Nat.eq_or_lt_of_le a with rfl | a
      · rw [h2 _ fun j a b => fun e => by have := restartName_inj e; omega]
        simp [DataDir.copy]
      · rw [h1 j (by omega) (by omega), hd]
    · rw [h2 x fun j a b => hx j (by omega) (by omega)]
      unfold DataDir.copy
      rw [if_neg (hx i (by omega) (by omega))]

/-- The loop with a fixed number of steps, a snapshot missing. -/
theorem prepareLoop_missing (k : ℕ) : ∀ (i : ℕ) (n : ℤ) (d : DataDir),
    (∃ j, i ≤ j ∧ j < i + k ∧ d (snapName j n) = none) → (prepareLoop i k (some n) d).2 = false := by
  induction k with
  | zero => rintro i n d ⟨j, h1, h2, -⟩; omega
  | succ k ih =>
    rintro i n d ⟨j, h1, h2, h3⟩
    simp only [prepareLoop]
    by_cases h : d (snapName i n) = none
    · simp [h]
    · rw [if_neg h]
      refine ih (i + 1) n _ ⟨j, ?_, by omega, ?_⟩
      · rcases Nat.eq_or_lt_of_le h1 with rfl | h1
        · exact absurd h3 h
        · omega
      · unfold DataDir.copy
        rw [if_neg (restart_ne_snap i j n).symm]
        exact h3

theorem fmt6_no_newline (x : ℝ) : '\n' ∉ fmt6 x := by
  have hdig : ∀ n : ℕ, '\n' ∉ Nat.toDigits 10 n := fun n hc => by
    have := Nat.isDigit_of_mem_toDigits (b := 10) (by norm_num) (by norm_num) hc
    revert this; decide
  unfold fmt6
  simp only [List.mem_append, List.mem_cons, not_or]
  refine ⟨?_, hdig _, by decide, ?_, hdig _⟩
  · split <;> simp
  · exact fun h => absurd (List.eq_of_mem_replicate h) (by decide)

/-- A row of the sample file has one newline, at its end. -/
theorem particle_newline (p : List ℝ) : ((particleText p).filter (· == '\n')).length = 1 ∧ ∃ l, particleText p = l ++ ['\n'] := by
  have hnone : ∀ x : List Char, '\n' ∉ x → x.filter (· == '\n') = [] := by
    intro x hx
    refine List.filter_eq_nil_iff.2 fun a ha h => hx ?_
    simp only [beq_iff_eq] at h
    exact h ▸ ha
  refine ⟨?_, _, rfl⟩
  unfold particleText
  rw [List.filter_append, hnone, List.nil_append]
  · rfl
  · simp only [List.mem_flatten, List.mem_map, not_exists, not_and]
    rintro l ⟨x, -, rfl⟩ h
    rcases List.mem_append.1 h with h | h
    · exact fmt6_no_newline x h
    · revert h; decide

theorem newlines_sample (ps : List (List ℝ)) : ((sampleText ps).filter (· == '\n')).length = ps.length + 1 := by
  unfold sampleText
  rw [List.filter_cons_of_neg (by decide), List.filter_cons_of_neg (by decide), List.filter_cons_of_pos (by decide)]
  simp only [List.length_cons, Nat.add_right_cancel_iff]
  induction ps with
  | nil => rfl
  | cons p ps ih =>
    rw [List.map_cons, List.flatten_cons, List.filter_append, List.length_append, (particle_newline p).1, ih, List.length_cons]
    omega

/-- The sample file has one line more than there are samples. -/
theorem pyLines_sample (ps : List (List ℝ)) : pyLines (sampleText ps) = ps.length + 1 := by
  have hrow := particle_newline
  have hcount := newlines_sample ps
  have hlast : (sampleText ps).getLast?.getD '\n' = '\n' := by
    unfold sampleText
    rcases List.eq_nil_or_concat ps with rfl | ⟨qs, p, rfl⟩
    · rfl
    · obtain ⟨l, hl⟩ := (hrow p).2
      simp only [List.concat_eq_append, List.map_append, List.map_cons, List.map_nil, List.flatten_append, List.flatten_cons,
        List.flatten_nil, List.append_nil, hl]
      rw [← List.append_assoc, ← List.cons_append, ← List.cons_append, ← List.cons_append, List.getLast?_concat]
      rfl
  unfold pyLines
  rw [hcount, if_pos hlast]

/-- **C111** (partial: all numbers of components have the same number of samples, `n`, as after a run that ended by
itself).  `prepare()` succeeds if the snapshots taken after the last save are there; then for each number of components
the file `restart_dnest1d.txt_i` holds that snapshot, and no other file has changed. -/
theorem C111_prepare_partial (low upp n : ℕ) (hl : low ≤ upp) (d : DataDir) (ps : ℕ → List (List ℝ))
    (hsample : ∀ i, low ≤ i → i ≤ upp → d (sampleName i) = some (sampleText (ps i)) ∧ (ps i).length = n)
    (hsnap : ∀ i, low ≤ i → i ≤ upp → d (OutFile.snapshotLine (some i) n).name ≠ none) :
    ∃ d', pyPrepare low upp none d = (d', true) ∧
      (∀ i, low ≤ i → i ≤ upp → d' (restartName i) = d (OutFile.snapshotLine (some i) n).name) ∧
      ∀ x, (∀ i, low ≤ i → i ≤ upp → x ≠ restartName i) → d' x = d x := by
  have hname : ∀ i, (OutFile.snapshotLine (some i) n).name = snapName i n := fun i => rfl
  simp only [hname] at hsnap ⊢
  obtain ⟨d', e, h1, h2⟩ := prepareLoop_ok (upp + 1 - low) low n d fun j a b => hsnap j a (by omega)
  refine ⟨d', ?_, fun i a b => h1 i a (by omega), fun x hx => h2 x fun j a b => hx j a (by omega)⟩
  unfold pyPrepare
  obtain ⟨k, hk⟩ : ∃ k, upp + 1 - low = k + 1 := ⟨upp - low, by omega⟩
  rw [← e, hk]
  obtain ⟨hs, hn⟩ := hsample low (Nat.le_refl _) hl
  simp only [prepareLoop, hs, Option.map_some, pyLines_sample, hn]
  rw [show (((n + 1 : ℕ) : ℤ) - 1) = (n : ℤ) by push_cast; ring]

/-- **C111** (`prepare(last_steps)`).  With the number of steps given, snapshots after that many saves are put in place; if
one of them does not exist an error is raised. -/
theorem C111_steps (low upp n : ℕ) (d : DataDir) :
    ((∀ i, low ≤ i → i ≤ upp → d (OutFile.snapshotLine (some i) n).name ≠ none) →
      ∃ d', pyPrepare low upp (some n) d = (d', true) ∧
        (∀ i, low ≤ i → i ≤ upp → d' (restartName i) = d (OutFile.snapshotLine (some i) n).name) ∧
        ∀ x, (∀ i, low ≤ i → i ≤ upp → x ≠ restartName i) → d' x = d x) ∧
    ((∃ i, low ≤ i ∧ i ≤ upp ∧ d (OutFile.snapshotLine (some i) n).name = none) → (pyPrepare low upp (some n) d).2 = false) := by
  have hname : ∀ i, (OutFile.snapshotLine (some i) n).name = snapName i n := fun i => rfl
  simp only [hname]
  constructor
  · intro h
    obtain ⟨d', e, h1, h2⟩ := prepareLoop_ok (upp + 1 - low) low n d fun j a b => h j a (by omega)
    exact ⟨d', e, fun i a b => h1 i a (by omega), fun x hx => h2 x fun j a b => hx j a (by omega)⟩
  · rintro ⟨i, a, b, h⟩
    exact prepareLoop_missing _ _ _ _ ⟨i, a, by omega, h⟩

/-- **C111, the rest is false.** The number of steps is taken from the samples of the *first* number of components and kept:
for the others it is the snapshot after that many saves that is put in place, not their last; if there is none, an error is
raised although they have snapshots. -/
theorem C111_first_only (low upp : ℕ) (hl : low ≤ upp) (d : DataDir) (ps : List (List ℝ))
    (hsample : d (sampleName low) = some (sampleText ps)) :
    pyPrepare low upp none d = pyPrepare low upp (some ps.length) d := by
  unfold pyPrepare
  obtain ⟨k, hk⟩ : ∃ k, upp + 1 - low = k + 1 := ⟨upp - low, by omega⟩
  rw [hk]
  simp only [prepareLoop, hsample, Option.map_some, pyLines_sample]
  rw [show (((ps.length + 1 : ℕ) : ℤ) - 1) = (ps.length : ℤ) by push_cast; ring]

/-- **C111, the rest is false: interrupted runs.** A row that was being written when the run was interrupted is counted as a save:
`prepare()` looks for a snapshot after the last one. -/
theorem C111_cut (low upp : ℕ) (hl : low ≤ upp) (d : DataDir) (ps : List (List ℝ)) (rest : List Char) (h0 : rest ≠ []) (h1 : '\n' ∉ rest)
    (hsample : d (sampleName low) = some (sampleText ps ++ rest)) :
    pyPrepare low upp none d = pyPrepare low upp (some (ps.length + 1 : ℕ)) d := by
  have hc : pyLines (sampleText ps ++ rest) = ps.length + 2 := by
    have h2 : ((sampleText ps).filter (· == '\n')).length = ps.length + 1 := newlines_sample ps
    have h3 : rest.filter (· == '\n') = [] := List.filter_eq_nil_iff.2 fun a ha h => h1 (by
      simp only [beq_iff_eq] at h
      exact h ▸ ha)
    have hne : ¬ rest.getLast h0 = '\n' := fun h => h1 (h ▸ List.getLast_mem h0)
    unfold pyLines
    rw [List.filter_append, h3, List.append_nil, h2, List.getLast?_append_of_ne_nil _ h0, List.getLast?_eq_some_getLast h0, Option.getD_some,
      if_neg hne]
  unfold pyPrepare
  obtain ⟨k, hk⟩ : ∃ k, upp + 1 - low = k + 1 := ⟨upp - low, by omega⟩
  rw [hk]
  simp only [prepareLoop, hsample, Option.map_some, hc]
  push_cast
  rw [show (ps.length : ℤ) + 2 - 1 = ps.length + 1 by ring]

/-- **C111, the rest is false.** In the modes `pmap`, `vmap`, `mmap` the snapshots do not have the number of components in
their names; `prepare` always raises an error, whatever the number of steps. -/
theorem C111_other_modes (low upp : ℕ) (hl : low ≤ upp) (d : DataDir)
    (hfiles : ∀ x, d x ≠ none → ∃ f : OutFile, f.fromMode false ∧ x = f.name) (last : Option ℕ)
    (hsample : ∃ ps, d (sampleName low) = some (sampleText ps)) :
    (pyPrepare low upp (last.map fun n : ℕ => (n : ℤ)) d).2 = false := by
  have hno : ∀ i n : ℕ, d (OutFile.snapshotLine (some i) n).name = none := by
    intro i n
    by_contra h
    obtain ⟨f, hf, e⟩ := hfiles _ h
    have hs := same_std e
    have ht : (OutFile.snapshotLine (some i) n).tail = f.tail := by
      rw [name_eq, name_eq, ← std_head f, ← std_head (OutFile.snapshotLine _ n), hs] at e
      exact List.append_cancel_left e
    cases f with
    | snapshotLine o k =>
      cases o with
      | none =>
        simp only [OutFile.tail] at ht
        exact dec_no (n := k) (by rw [← ht]; simp)
      | some m => simp [OutFile.fromMode] at hf
    | sampler o g => cases o <;> simp [OutFile.std] at hs
    | status b => cases b <;> simp [OutFile.std] at hs
    | _ => simp [OutFile.std] at hs
  cases last with
  | some n => exact (C111_steps low upp n d).2 ⟨low, Nat.le_refl _, hl, hno low n⟩
  | none =>
    obtain ⟨ps, hps⟩ := hsample
    rw [Option.map_none, C111_first_only low upp hl d ps hps]
    exact (C111_steps low upp _ d).2 ⟨low, Nat.le_refl _, hl, hno low _⟩

/-! ## C112 -/

theorem setArgv_setArgv (a b c e f a' b' c' e' f' : Bool) (m : MainCfg) :
    setArgv a b c e f (setArgv a' b' c' e' f' m) = setArgv a b c e f m := rfl

/-- Only the five flags change. -/
theorem flagsAfter_form (mode : Mode) (h : List PyCall) : ∃ a b c e f, flagsAfter mode h = setArgv a b c e f {} := by
  unfold flagsAfter
  suffices ∀ m : MainCfg, (∃ a b c e f, m = setArgv a b c e f {}) →
      ∃ a b c e f, h.foldl (fun m c => PyCall.flags mode c m) m = setArgv a b c e f {} from
    this {} ⟨false, false, false, false, false, rfl⟩
  induction h with
  | nil => exact fun m hm => hm
  | cons x h ih =>
    rintro m ⟨a, b, c, e, f, rfl⟩
    refine ih _ ?_
    cases x <;> simp only [PyCall.flags, setArgv_setArgv]
    · exact ⟨_, _, _, _, _, rfl⟩
    · exact ⟨_, _, _, _, _, rfl⟩
    · split <;> exact ⟨_, _, _, _, _, rfl⟩
    · exact ⟨_, _, _, _, _, rfl⟩
    · split <;> exact ⟨_, _, _, _, _, rfl⟩

theorem flagsAfter_runs (mode : Mode) (h : List PyCall) (k : ℕ) :
    flagsAfter mode (h ++ List.replicate k .run) = flagsAfter mode h := by
  unfold flagsAfter
  rw [List.foldl_append]
  generalize h.foldl _ _ = m
  induction k with
  | zero => rfl
  | succ k ih => rw [List.replicate_succ, List.foldl_cons]; exact ih

/-- **C112** (partial: not `run` behind one of the other calls).  What a call does does not depend on the calls before
it. -/
theorem C112_history_partial (mode : Mode) (dir : CStr) (low diff : ℕ) (h : List PyCall) (c : PyCall)
    (hc : c = .run → ∀ x ∈ h, x = .run) :
    c.acts mode dir low diff (flagsAfter mode h) = c.acts mode dir low diff {} := by
  by_cases hr : c = .run
  · have : h = [] ++ List.replicate h.length .run := by
      rw [List.nil_append]
      exact List.eq_replicate_iff.2 ⟨rfl, hc hr⟩
    rw [this, flagsAfter_runs]
    rfl
  · obtain ⟨a, b, d, e, f, hm⟩ := flagsAfter_form mode h
    rw [hm]
    cases c with
    | run => exact absurd rfl hr
    | _ => simp only [PyCall.acts, setArgv_setArgv]

/-- The options of the program that stand for a call. -/
def PyCall.opts : PyCall → MainCfg
  | .run => {}
  | .postRun => { postprc := true }
  | .decompose => { postprc := true, decomp := true }
  | .restart => { restart := true }
  | .paraNames => { paraName := true }

/-- **C112** (partial: `restart` and `print_para_names` not in the mode `vmap`; `decompose` and `print_para_names` of `nmap`
only print a message).  A call as the first of a session, or behind any calls except for `run`, does what the program does
when it is called with the option of that name: none, `-p`, `-d`, `-r`, `-n`. -/
theorem C112_program_partial (mode : Mode) (dir : CStr) (low diff : ℕ) (c : PyCall)
    (hv : mode = .vmap → c ≠ .restart ∧ c ≠ .paraNames) (hn : mode = .nmap → c ≠ .decompose ∧ c ≠ .paraNames) :
    c.acts mode dir low diff {} = runActs mode dir c.opts low diff := by
  have hcon : ∀ m m' : MainCfg, m.restart = m'.restart → m.paraName = m'.paraName → ∀ p, mcCon dir m p = mcCon dir m' p := by
    intro m m' h1 h2 p
    unfold mcCon
    rw [h1, h2]
  have hb : ∀ x : Res (List Act), (x >>= fun b => Res.ok b) = x := by
    intro x
    cases x <;> rfl
  cases c <;> cases mode <;> simp at hv hn <;>
    simp only [PyCall.acts, PyCall.opts, runActs, beginRun, pyLine, setArgv, reduceCtorEq, and_true, and_self,
      or_false, or_true, ne_eq, not_true_eq_false, not_false_eq_true, if_true, if_false, and_false, Res.ok_bind, hb,
      List.nil_append, List.append_nil, Bool.or_self, Bool.false_eq_true]
  all_goals
    rw [hcon _ { restart := true } rfl rfl]
    try rfl

theorem mcLine_eq (mode : Mode) (hm : mode ≠ .nmap) (dir : CStr) (m : MainCfg) (p : Bool) (low diff : ℕ)
    (hd : ShortDir dir low diff) (h1 : 1 ≤ diff) :
    mcLine mode dir m p low diff = .ok (((List.range' low (if mode = .mmap then 1 else diff)).flatMap fun n =>
      .names (some n) :: (if m.paraName then [] else
        stageActs dir (some n) (lineFile mode dir n) m.restart p "1d".toList (postfixC n)) ++
      afterActs m (splits mode n) n) ++ if m.paraName then [] else [.evidence false]) := by
  unfold mcLine
  rw [lineLoop_eq mode hm]
  · rfl
  · intro n ha hb
    refine hd.2 n ha ?_
    split at hb <;> omega

/-- What `run` does with flags `m`. -/
theorem run_acts (mode : Mode) (dir : CStr) (m : MainCfg) (low diff : ℕ) (hd : ShortDir dir low diff) (h1 : 1 ≤ diff) :
    PyCall.run.acts mode dir low diff m = .ok (
      (if mode = .vmap then [] else stageActs dir none (conFile dir) m.restart m.postprc [] [] ++ [.summary none, .recon none] ++
        if m.paraName then [] else [.evidence true]) ++
      (if mode = .nmap then [] else ((List.range' low (if mode = .mmap then 1 else diff)).flatMap fun n =>
        .names (some n) :: (if m.paraName then [] else
          stageActs dir (some n) (lineFile mode dir n) m.restart m.postprc "1d".toList (postfixC n)) ++
        afterActs m (splits mode n) n) ++ if m.paraName then [] else [.evidence false])) := by
  unfold PyCall.acts pyLine
  simp only
  rw [mcCon_eq dir hd.1]
  by_cases hn : mode = .nmap
  · subst hn; simp
  · rw [if_neg hn, if_neg hn, mcLine_eq mode hn dir m m.postprc low diff hd h1]
    split <;> simp

/-- The flags behind a call and any number of `run`s. -/
theorem flagsAfter_call (mode : Mode) (h : List PyCall) (c : PyCall) (k : ℕ) :
    flagsAfter mode (h ++ c :: List.replicate k .run) = c.flags mode (flagsAfter mode h) := by
  rw [show h ++ c :: List.replicate k .run = (h ++ [c]) ++ List.replicate k .run by simp, flagsAfter_runs]
  unfold flagsAfter
  rw [List.foldl_append]
  rfl

/-- **C112, the rest is false.** `run` behind `post_run` or `decompose` (in between only calls of `run`) samples
nothing. -/
theorem C112_run_after_post (mode : Mode) (dir : CStr) (low diff : ℕ) (hd : ShortDir dir low diff) (h1 : 1 ≤ diff)
    (h : List PyCall) (k : ℕ) (c : PyCall) (hc : c = .postRun ∨ (c = .decompose ∧ mode ≠ .nmap)) :
    ∃ l, PyCall.run.acts mode dir low diff (flagsAfter mode (h ++ c :: List.replicate k .run)) = .ok l ∧
      l.filterMap Act.sampled = [] := by
  refine ⟨_, run_acts mode dir _ low diff hd h1, ?_⟩
  have hp : (flagsAfter mode (h ++ c :: List.replicate k .run)).postprc = true := by
    rw [flagsAfter_call]
    rcases hc with rfl | ⟨rfl, hc⟩
    · rfl
    · simp [PyCall.flags, hc, setArgv]
  rw [hp]
  simp only [List.filterMap_append, List.filterMap_cons, List.filterMap_nil, filterMap_stages,
    apply_ite (List.filterMap Act.sampled), stage_sampled, after_sampled, Act.sampled]
  simp

/-- **C112, the rest is false.** `run` behind `print_para_names` samples the continuum only, and writes no evidence. -/
theorem C112_run_after_names (mode : Mode) (hm : mode ≠ .nmap) (dir : CStr) (low diff : ℕ) (hd : ShortDir dir low diff)
    (h1 : 1 ≤ diff) (h : List PyCall) (k : ℕ) :
    ∃ l, PyCall.run.acts mode dir low diff (flagsAfter mode (h ++ .paraNames :: List.replicate k .run)) = .ok l ∧
      l.filterMap Act.sampled = (if mode = .vmap then [] else [none]) ∧ l.filterMap Act.evid = [] := by
  refine ⟨_, run_acts mode dir _ low diff hd h1, ?_, ?_⟩
  all_goals
    rw [flagsAfter_call]
    simp only [PyCall.flags, if_neg hm, setArgv]
  · simp only [List.filterMap_append, List.filterMap_cons, List.filterMap_nil, filterMap_stages,
      apply_ite (List.filterMap Act.sampled), stage_sampled, after_sampled, Act.sampled]
    cases mode <;> simp
  · simp only [List.filterMap_append, List.filterMap_cons, List.filterMap_nil, filterMap_stages,
      apply_ite (List.filterMap Act.evid), stage_evid, after_evid, Act.evid]
    cases mode <;> simp

/-- **C112, the rest is false.** `run` behind `restart` goes on from snapshots in all stages, also in the continuum stage,
which `restart` itself does not sample. -/
theorem C112_run_after_restart (mode : Mode) (dir : CStr) (low diff : ℕ) (hd : ShortDir dir low diff)
    (h1 : 1 ≤ diff) (h : List PyCall) (k : ℕ) :
    ∃ l, PyCall.run.acts mode dir low diff (flagsAfter mode (h ++ .restart :: List.replicate k .run)) = .ok l ∧
      l.filterMap Act.loaded = (if mode = .vmap then [] else [none]) ++ lineStages mode low diff := by
  refine ⟨_, run_acts mode dir _ low diff hd h1, ?_⟩
  rw [flagsAfter_call, lineStages_eq]
  obtain ⟨m, hm⟩ : ∃ m, m = PyCall.restart.flags mode (flagsAfter mode h) := ⟨_, rfl⟩
  have h2 : m.restart = true := by rw [hm]; rfl
  have h3 : m.postprc = false := by rw [hm]; rfl
  have h4 : m.paraName = false := by rw [hm]; rfl
  rw [← hm]
  simp only [List.filterMap_append, List.filterMap_cons, List.filterMap_nil, filterMap_stages,
    apply_ite (List.filterMap Act.loaded), stage_loaded, after_loaded, Act.loaded, h2, h3, h4]
  cases mode <;> simp [flatMap_some]

/-- **C112, the rest is false.** In the mode `vmap`, whose data have no continuum, `restart` and `print_para_names` begin
with the continuum stage, `print_para_names` even samples it; the program with `-r` or `-n` does not. -/
theorem C112_vmap (dir : CStr) (low diff : ℕ) (hd : ShortDir dir low diff) (h1 : 1 ≤ diff) :
    (∃ l l', PyCall.restart.acts .vmap dir low diff {} = .ok l ∧ runActs .vmap dir PyCall.restart.opts low diff = .ok l' ∧
      none ∈ l.filterMap Act.drawn ∧ none ∉ l'.filterMap Act.drawn) ∧
    ∃ l l', PyCall.paraNames.acts .vmap dir low diff {} = .ok l ∧ runActs .vmap dir PyCall.paraNames.opts low diff = .ok l' ∧
      none ∈ l.filterMap Act.sampled ∧ none ∉ l'.filterMap Act.sampled := by
  have hcon : ∀ (m : MainCfg) (p : Bool), ∃ a, mcCon dir m p = .ok a ∧ a.filterMap Act.drawn = [none] ∧
      a.filterMap Act.sampled = if p then [] else [none] := by
    intro m p
    refine ⟨_, mcCon_eq dir hd.1 m p, ?_, ?_⟩
    · simp only [List.filterMap_append, List.filterMap_cons, List.filterMap_nil,
        apply_ite (List.filterMap Act.drawn), stage_drawn, Act.drawn]
      simp
    · simp only [List.filterMap_append, List.filterMap_cons, List.filterMap_nil,
        apply_ite (List.filterMap Act.sampled), stage_sampled, Act.sampled]
      simp
  have hline : ∀ m : MainCfg, ∃ b, pyLine .vmap dir m low diff = .ok b := fun m =>
    ⟨_, mcLine_eq .vmap (by decide) dir m m.postprc low diff hd h1⟩
  constructor
  · obtain ⟨l', hl', hd'⟩ := C89_posterior .vmap dir PyCall.restart.opts low diff hd h1 ⟨rfl, rfl, fun h => h⟩
    obtain ⟨a, ha, ha', -⟩ := hcon (setArgv true false true false false {}) true
    obtain ⟨b, hb⟩ := hline (setArgv false false true false false {})
    refine ⟨a ++ b, l', ?_, hl', ?_, ?_⟩
    · have e : PyCall.restart.acts .vmap dir low diff {} = (mcCon dir (setArgv true false true false false {}) true >>= fun a =>
          pyLine .vmap dir (setArgv false false true false false {}) low diff >>= fun b => .ok (a ++ b)) := rfl
      rw [e, ha, hb]
      rfl
    · rw [List.filterMap_append, ha']
      simp
    · rw [hd', lineStages_eq]
      simp [PyCall.opts]
  · obtain ⟨l', hl', hd'⟩ := C89_sampled .vmap dir PyCall.paraNames.opts low diff hd h1 ⟨rfl, rfl, fun h => h⟩
    obtain ⟨a, ha, -, ha'⟩ := hcon (setArgv false false false true false {}) false
    obtain ⟨b, hb⟩ := hline (setArgv false false false true false {})
    refine ⟨a ++ b, l', ?_, hl', ?_, ?_⟩
    · have e : PyCall.paraNames.acts .vmap dir low diff {} = (mcCon dir (setArgv false false false true false {}) false >>= fun a =>
          pyLine .vmap dir (setArgv false false false true false {}) low diff >>= fun b => .ok (a ++ b)) := rfl
      rw [e, ha, hb]
      rfl
    · rw [List.filterMap_append, ha']
      simp
    · rw [hd', lineStages_eq]
      simp [PyCall.opts]

/-- Stages whose sampler state is read, with the file. -/
def Act.loadFile : Act → Option (Option ℕ × CStr)
  | .load st f => some (st, f)
  | _ => none

/-- **C111.** `restart` of `gmodel` takes the sampler states from the files `restart_dnest1d.txt_i` that `prepare` has put in
place, one for each number of components. -/
theorem C111_restart (dir : CStr) (low diff : ℕ) (hd : ShortDir dir low diff) (h1 : 1 ≤ diff) (h : List PyCall) :
    ∃ l, PyCall.restart.acts .gmodel dir low diff (flagsAfter .gmodel h) = .ok l ∧
      l.filterMap Act.loadFile = (List.range' low diff).map fun i => (some i, dir ++ "/data/".toList ++ restartName i) := by
  rw [C112_history_partial .gmodel dir low diff h .restart (by simp)]
  rw [C112_program_partial .gmodel dir low diff .restart (by simp) (by simp)]
  refine ⟨_, run_eq .gmodel dir _ low diff hd h1 ⟨rfl, rfl, fun h => h⟩, ?_⟩
  have hfile : ∀ i, lineFile .gmodel dir i = dir ++ "/data/".toList ++ restartName i := by
    intro i
    have : "/data/restart_dnest1d.txt".toList = "/data/".toList ++ "restart_dnest1d.txt".toList := by decide +kernel
    have hp : postfixC i = '_' :: dec i := rfl
    unfold lineFile restartName
    rw [this, if_pos rfl, hp]
    simp only [List.append_assoc]
  have hstage : ∀ (st : Option ℕ) (file : CStr) (r p : Bool) (tag x : CStr),
      (stageActs dir st file r p tag x).filterMap Act.loadFile = if r && !p then [(st, file)] else [] := by
    intro st file r p tag x
    cases r <;> cases p <;> rfl
  have hafter : ∀ (m : MainCfg) (d : Bool) (n : ℕ), (afterActs m d n).filterMap Act.loadFile = [] := by
    intro m d n
    unfold afterActs; cases m.paraName <;> cases m.postsample <;> cases d <;> cases m.decomp <;> rfl
  obtain ⟨m, hm⟩ : ∃ m, m = PyCall.restart.opts := ⟨_, rfl⟩
  have h2 : m.restart = true := by rw [hm]; rfl
  have h3 : m.postprc = false := by rw [hm]; rfl
  have h4 : m.paraName = false := by rw [hm]; rfl
  rw [← hm]
  simp only [List.filterMap_append, List.filterMap_cons, List.filterMap_nil, filterMap_stages,
    apply_ite (List.filterMap Act.loadFile), hstage, hafter, Act.loadFile, h2, h3, h4, hfile]
  simp
  generalize List.range' low diff = l
  induction l with
  | nil => rfl
  | cons a l ih => simp [ih]

/-! ### The hypotheses are met -/

/-- A directory after a run of one and two components, two samples each, snapshots after each save. -/
def dataDirEx : DataDir := fun x =>
  if x = sampleName 1 ∨ x = sampleName 2 then some "# \n1.000000 \n2.000000 \n".toList
  else if x = snapName 1 1 then some "a".toList
  else if x = snapName 1 2 then some "b".toList
  else if x = snapName 2 1 then some "c".toList
  else if x = snapName 2 2 then some "d".toList
  else none

theorem sampleText_ex : sampleText [[1], [2]] = "# \n1.000000 \n2.000000 \n".toList := by
  have h1 : micro 1 = 1000000 := by unfold micro; norm_num [Nat.floor_eq_iff]
  have h2 : micro 2 = 2000000 := by unfold micro; norm_num [Nat.floor_eq_iff]
  have d1 : Nat.toDigits 10 1 = ['1'] := by decide
  have d2 : Nat.toDigits 10 2 = ['2'] := by decide
  have d0 : Nat.toDigits 10 0 = ['0'] := by decide
  simp [sampleText, particleText, fmt6, h1, h2, d1, d2, d0, List.replicate]
  norm_num

example : ∃ d', pyPrepare 1 2 none dataDirEx = (d', true) ∧ d' (restartName 1) = some "b".toList ∧
    d' (restartName 2) = some "d".toList := by
  have hs : ∀ i, 1 ≤ i → i ≤ 2 → dataDirEx (OutFile.snapshotLine (some i) 2).name =
      some (if i = 1 then "b".toList else "d".toList) := by
    intro i h1 h2
    have : i = 1 ∨ i = 2 := by omega
    rcases this with rfl | rfl <;> decide +kernel
  obtain ⟨d', h, h1, -⟩ := C111_prepare_partial 1 2 2 (by omega) dataDirEx (fun _ => [[1], [2]])
    (fun i h1 h2 => by
      have : i = 1 ∨ i = 2 := by omega
      refine ⟨?_, rfl⟩
      rw [sampleText_ex]
      rcases this with rfl | rfl <;> decide +kernel)
    (fun i h1 h2 => by rw [hs i h1 h2]; simp)
  refine ⟨d', h, ?_, ?_⟩
  · rw [h1 1 (by omega) (by omega), hs 1 (by omega) (by omega)]; rfl
  · rw [h1 2 (by omega) (by omega), hs 2 (by omega) (by omega)]; rfl

/-- The run of two components was stopped after its first save: there is no snapshot after two saves, and no error-free
`prepare()`, although the snapshot after the first save is there. -/
example : (pyPrepare 1 2 none fun x => if x = snapName 2 2 then none else dataDirEx x).2 = false := by
  rw [C111_first_only 1 2 (by omega) _ [[1], [2]] (by rw [sampleText_ex]; decide +kernel)]
  exact (C111_steps 1 2 2 _).2 ⟨2, by omega, by omega, by decide +kernel⟩

/-- A third row cut short: snapshot 3 is looked for, which is not there. -/
example : (pyPrepare 1 2 none fun x => if x = sampleName 1 then some (sampleText [[1], [2]] ++ "  0.5".toList) else dataDirEx x).2 = false := by
  rw [C111_cut 1 2 (by omega) _ [[1], [2]] "  0.5".toList (by decide) (by decide) (by simp)]
  exact (C111_steps 1 2 3 _).2 ⟨1, by omega, by omega, by decide +kernel⟩

/-- The run of one component was stopped after its first save, that of two components was not: two components go on from
the snapshot after the first save. -/
example : ∃ d', pyPrepare 1 2 (some (1 : ℕ)) dataDirEx = (d', true) ∧ d' (restartName 2) = some "c".toList := by
  obtain ⟨d', h, h1, -⟩ := (C111_steps 1 2 1 dataDirEx).1 fun i h1 h2 => by
    have : i = 1 ∨ i = 2 := by omega
    rcases this with rfl | rfl <;> decide +kernel
  exact ⟨d', h, by rw [h1 2 (by omega) (by omega)]; decide +kernel⟩

example : ∃ l, PyCall.run.acts .gmodel "./".toList 1 3 (flagsAfter .gmodel ([.run] ++ .postRun :: List.replicate 0 .run)) = .ok l ∧
    l.filterMap Act.sampled = [] := by
  refine C112_run_after_post .gmodel "./".toList 1 3 ⟨by decide, fun n h1 h2 => ?_⟩ (by omega) [.run] 0 .postRun (.inl rfl)
  have : n = 1 ∨ n = 2 ∨ n = 3 := by omega
  rcases this with rfl | rfl | rfl <;> decide +kernel

end Mica
