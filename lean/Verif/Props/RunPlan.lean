import Verif.Proof.RunPlan
import Verif.Proof.OutFile
import Verif.Props.CmdLine

/-!
# C89 (what is run), C90 (file names)
-/

namespace Mica

/-- Stages that are sampled. -/
def Act.sampled : Act → Option (Option ℕ)
  | .sample st _ _ => some st
  | _ => none

/-- Stages whose sampler state is read from a snapshot. -/
def Act.loaded : Act → Option (Option ℕ)
  | .load st _ => some st
  | _ => none

/-- Stages whose posterior sample is drawn. -/
def Act.drawn : Act → Option (Option ℕ)
  | .posterior st _ _ => some st
  | _ => none

/-- Stages with reconstructed light curves. -/
def Act.reconned : Act → Option (Option ℕ)
  | .recon st => some st
  | _ => none

/-- Stages with light curves of single components. -/
def Act.split : Act → Option (Option ℕ)
  | .decomp st => some st
  | _ => none

/-- Stages whose parameter names are written. -/
def Act.named : Act → Option (Option ℕ)
  | .names st => some st
  | _ => none

/-- Which evidence files are written. -/
def Act.evid : Act → Option Bool
  | .evidence b => some b
  | _ => none

/-- The directory name fits the arrays of the sampler, for all numbers of components that are run. -/
def ShortDir (dir : CStr) (low diff : ℕ) : Prop :=
  dir.length + 32 < 156 ∧ ∀ n, low ≤ n → n < low + diff → dir.length + 34 + (postfixC n).length < 156

/-- A run that does something, with flags as the command line gives them: `-d` includes `-p`. -/
def RealRun (m : MainCfg) : Prop := m.version = false ∧ m.examine = false ∧ (m.decomp = true → m.postprc = true)

/-- The line stages of a mode: one per number of components; mixture mode runs the smallest only. -/
def lineStages (mode : Mode) (low diff : ℕ) : List (Option ℕ) :=
  match mode with
  | .nmap => []
  | .mmap => [some low]
  | _ => (List.range' low diff).map some

/-- The parts of a run. -/
theorem run_eq (mode : Mode) (dir : CStr) (m : MainCfg) (low diff : ℕ) (hd : ShortDir dir low diff) (h1 : 1 ≤ diff)
    (hm : RealRun m) : runActs mode dir m low diff = .ok (
      (if (m.postprc = false ∧ mode ≠ .vmap) ∨ mode = .nmap then
        stageActs dir none (conFile dir) m.restart (m.restart || m.postprc) [] [] ++ [.summary none, .recon none] ++
          if m.paraName then [] else [.evidence true]
        else []) ++
      (if mode = .nmap then [] else
        ((List.range' low (if mode = .mmap then 1 else diff)).flatMap fun n =>
          .names (some n) :: (if m.paraName then [] else
            stageActs dir (some n) (lineFile mode dir n) m.restart m.postprc "1d".toList (postfixC n)) ++
          afterActs m (splits mode n) n) ++ if m.paraName then [] else [.evidence false])) := by
  obtain ⟨h2, h3, h4⟩ := hm
  have e1 : ((m.postprc = false ∧ m.decomp = false ∧ mode ≠ .vmap) ∨ mode = .nmap) =
      ((m.postprc = false ∧ mode ≠ .vmap) ∨ mode = .nmap) := by
    have : m.postprc = false → m.decomp = false := by
      intro h
      cases hd : m.decomp
      · rfl
      · rw [h4 hd] at h; cases h
    apply propext
    constructor
    · rintro (⟨a, b, c⟩ | h)
      · exact Or.inl ⟨a, c⟩
      · exact Or.inr h
    · rintro (⟨a, c⟩ | h)
      · exact Or.inl ⟨a, this a, c⟩
      · exact Or.inr h
  have e2 : (if ((m.postprc = false ∧ m.decomp = false ∧ mode ≠ .vmap) ∧ m.restart) then false
      else m.postprc) = m.postprc := by
    split
    · rename_i h; exact h.1.1.symm
    · rfl
  have e3 : (if m.restart then true else m.postprc) = (m.restart || m.postprc) := by cases m.restart <;> rfl
  have hk : ∀ n, low ≤ n → n < low + (if mode = .mmap then 1 else diff) → dir.length + 34 + (postfixC n).length < 156 := by
    intro n ha hb
    refine hd.2 n ha ?_
    split at hb <;> omega
  unfold runActs beginRun
  rw [if_neg (by simp [h2, h3]), e2, e3]
  simp only [e1]
  rw [mcCon_eq dir hd.1]
  by_cases hn : mode = .nmap
  · simp [hn]
  · simp only [if_neg hn, mcLine, lineLoop_eq mode hn dir m m.postprc _ low hk, Res.ok_bind]
    split <;> simp

/-! ### What the parts contain -/

section
variable (dir : CStr) (st : Option ℕ) (file : CStr) (r p : Bool) (tag x : CStr)

theorem stage_sampled : (stageActs dir st file r p tag x).filterMap Act.sampled = if p then [] else [st] := by
  cases r <;> cases p <;> rfl
theorem stage_loaded : (stageActs dir st file r p tag x).filterMap Act.loaded = if r && !p then [st] else [] := by
  cases r <;> cases p <;> rfl
theorem stage_drawn : (stageActs dir st file r p tag x).filterMap Act.drawn = [st] := by
  cases r <;> cases p <;> rfl
theorem stage_reconned : (stageActs dir st file r p tag x).filterMap Act.reconned = [] := by
  cases r <;> cases p <;> rfl
theorem stage_split : (stageActs dir st file r p tag x).filterMap Act.split = [] := by
  cases r <;> cases p <;> rfl
theorem stage_named : (stageActs dir st file r p tag x).filterMap Act.named = [] := by
  cases r <;> cases p <;> rfl
theorem stage_evid : (stageActs dir st file r p tag x).filterMap Act.evid = [] := by
  cases r <;> cases p <;> rfl
end

section
variable (m : MainCfg) (d : Bool) (n : ℕ)
theorem after_sampled : (afterActs m d n).filterMap Act.sampled = [] := by
  unfold afterActs; cases m.paraName <;> cases m.postsample <;> cases d <;> cases m.decomp <;> rfl
theorem after_loaded : (afterActs m d n).filterMap Act.loaded = [] := by
  unfold afterActs; cases m.paraName <;> cases m.postsample <;> cases d <;> cases m.decomp <;> rfl
theorem after_drawn : (afterActs m d n).filterMap Act.drawn = [] := by
  unfold afterActs; cases m.paraName <;> cases m.postsample <;> cases d <;> cases m.decomp <;> rfl
theorem after_named : (afterActs m d n).filterMap Act.named = [] := by
  unfold afterActs; cases m.paraName <;> cases m.postsample <;> cases d <;> cases m.decomp <;> rfl
theorem after_evid : (afterActs m d n).filterMap Act.evid = [] := by
  unfold afterActs; cases m.paraName <;> cases m.postsample <;> cases d <;> cases m.decomp <;> rfl
theorem after_reconned : (afterActs m d n).filterMap Act.reconned =
    if m.paraName || m.postsample then [] else [some n] := by
  unfold afterActs; cases m.paraName <;> cases m.postsample <;> cases d <;> cases m.decomp <;> rfl
theorem after_split : (afterActs m d n).filterMap Act.split =
    if m.paraName || m.postsample then [] else if d && m.decomp then [some n] else [] := by
  unfold afterActs; cases m.paraName <;> cases m.postsample <;> cases d <;> cases m.decomp <;> rfl
end

theorem lineStages_eq (mode : Mode) (low diff : ℕ) : lineStages mode low diff =
    if mode = .nmap then [] else (List.range' low (if mode = .mmap then 1 else diff)).map some := by
  cases mode <;> simp [lineStages]

theorem filterMap_stages {β : Type} (f : Act → Option β) (g : ℕ → List Act) (l : List ℕ) :
    (l.flatMap g).filterMap f = l.flatMap fun n => (g n).filterMap f := by
  induction l with
  | nil => rfl
  | cons a l ih => simp [ih]

theorem flatMap_some (l : List ℕ) : (l.flatMap fun n => [some n]) = l.map some := by
  induction l with
  | nil => rfl
  | cons a l ih => simp [ih]

section
variable (mode : Mode) (dir : CStr) (m : MainCfg) (low diff : ℕ) (hd : ShortDir dir low diff) (h1 : 1 ≤ diff)
  (hm : RealRun m)
include hd h1 hm

/-- C89: which stages are sampled.  The continuum stage: unless the mode has none, and with none of `-p`, `-d`, `-r`.
The line stages: with none of `-p`, `-d`, `-n`.  Each at most once, the continuum first, the numbers of components
in order. -/
theorem C89_sampled : ∃ l, runActs mode dir m low diff = .ok l ∧ l.filterMap Act.sampled =
    (if mode ≠ .vmap ∧ m.postprc = false ∧ m.restart = false then [none] else []) ++
    (if m.postprc = false ∧ m.paraName = false then lineStages mode low diff else []) := by
  refine ⟨_, run_eq mode dir m low diff hd h1 hm, ?_⟩
  rw [lineStages_eq]
  simp only [List.filterMap_append, List.filterMap_cons, List.filterMap_nil, filterMap_stages,
    apply_ite (List.filterMap Act.sampled), stage_sampled, after_sampled, Act.sampled]
  cases m.postprc <;> cases m.restart <;> cases m.paraName <;> cases mode <;> simp [flatMap_some]

/-- C89: which stages go on from a snapshot: with `-r` (and none of `-p`, `-d`, `-n`) all line stages, never the
continuum. -/
theorem C89_resumed : ∃ l, runActs mode dir m low diff = .ok l ∧ l.filterMap Act.loaded =
    if m.restart = true ∧ m.postprc = false ∧ m.paraName = false then lineStages mode low diff else [] := by
  refine ⟨_, run_eq mode dir m low diff hd h1 hm, ?_⟩
  rw [lineStages_eq]
  simp only [List.filterMap_append, List.filterMap_cons, List.filterMap_nil, filterMap_stages,
    apply_ite (List.filterMap Act.loaded), stage_loaded, after_loaded, Act.loaded]
  cases m.postprc <;> cases m.restart <;> cases m.paraName <;> cases m.postsample <;> cases m.decomp <;> cases mode <;> simp [flatMap_some]

/-- C89: for which stages a posterior sample is drawn: every line stage unless `-n`; the continuum unless `-p`, `-d` or a
mode without continuum stage, in continuum mode always. -/
theorem C89_posterior : ∃ l, runActs mode dir m low diff = .ok l ∧ l.filterMap Act.drawn =
    (if (mode ≠ .vmap ∧ m.postprc = false) ∨ mode = .nmap then [none] else []) ++
    (if m.paraName = false then lineStages mode low diff else []) := by
  refine ⟨_, run_eq mode dir m low diff hd h1 hm, ?_⟩
  rw [lineStages_eq]
  simp only [List.filterMap_append, List.filterMap_cons, List.filterMap_nil, filterMap_stages,
    apply_ite (List.filterMap Act.drawn), stage_drawn, after_drawn, Act.drawn]
  cases m.postprc <;> cases m.restart <;> cases m.paraName <;> cases m.postsample <;> cases m.decomp <;> cases mode <;> simp [flatMap_some]

/-- C89: for which stages light curves are reconstructed: as for the posterior samples, lines not with `-s`. -/
theorem C89_reconstructed : ∃ l, runActs mode dir m low diff = .ok l ∧ l.filterMap Act.reconned =
    (if (mode ≠ .vmap ∧ m.postprc = false) ∨ mode = .nmap then [none] else []) ++
    (if m.paraName = false ∧ m.postsample = false then lineStages mode low diff else []) := by
  refine ⟨_, run_eq mode dir m low diff hd h1 hm, ?_⟩
  rw [lineStages_eq]
  simp only [List.filterMap_append, List.filterMap_cons, List.filterMap_nil, filterMap_stages,
    apply_ite (List.filterMap Act.reconned), stage_reconned, after_reconned, Act.reconned]
  cases m.postprc <;> cases m.restart <;> cases m.paraName <;> cases m.postsample <;> cases m.decomp <;> cases mode <;> simp [flatMap_some]

/-- C89: the file of parameter names is written for every line stage, whatever the flags. -/
theorem C89_names : ∃ l, runActs mode dir m low diff = .ok l ∧ l.filterMap Act.named =
    lineStages mode low diff := by
  refine ⟨_, run_eq mode dir m low diff hd h1 hm, ?_⟩
  rw [lineStages_eq]
  simp only [List.filterMap_append, List.filterMap_cons, List.filterMap_nil, filterMap_stages,
    apply_ite (List.filterMap Act.named), stage_named, after_named, Act.named]
  cases m.postprc <;> cases m.restart <;> cases m.paraName <;> cases m.postsample <;> cases m.decomp <;> cases mode <;> simp [flatMap_some]

/-- C89: the evidence files: both unless `-n`, the one of the continuum only if that stage is run. -/
theorem C89_evidence : ∃ l, runActs mode dir m low diff = .ok l ∧ l.filterMap Act.evid =
    (if ((mode ≠ .vmap ∧ m.postprc = false) ∨ mode = .nmap) ∧ m.paraName = false then [true] else []) ++
    (if mode ≠ .nmap ∧ m.paraName = false then [false] else []) := by
  refine ⟨_, run_eq mode dir m low diff hd h1 hm, ?_⟩
  simp only [List.filterMap_append, List.filterMap_cons, List.filterMap_nil, filterMap_stages,
    apply_ite (List.filterMap Act.evid), stage_evid, after_evid, Act.evid]
  cases m.postprc <;> cases m.restart <;> cases m.paraName <;> cases mode <;> simp

/-- C89: single components are written with `-d` only, for the stages of at least two components in the two modes with
one response function per component, always in mixture mode, never with a virtual continuum. -/
theorem C89_decomposed : ∃ l, runActs mode dir m low diff = .ok l ∧ ∀ st, st ∈ l.filterMap Act.split ↔
    m.decomp = true ∧ m.paraName = false ∧ m.postsample = false ∧ st ∈ lineStages mode low diff ∧
    (mode = .mmap ∨ (mode = .gmodel ∨ mode = .pmap) ∧ ∃ n, st = some n ∧ 2 ≤ n) := by
  refine ⟨_, run_eq mode dir m low diff hd h1 hm, fun st => ?_⟩
  rw [lineStages_eq]
  simp only [List.filterMap_append, List.filterMap_cons, List.filterMap_nil, filterMap_stages,
    apply_ite (List.filterMap Act.split), stage_split, after_split, Act.split]
  cases m.postprc <;> cases m.restart <;> cases m.paraName <;> cases m.postsample <;> cases m.decomp <;> cases mode <;>
    simp [splits]
  all_goals
    constructor
    · rintro ⟨a, ha, h2, rfl⟩
      exact ⟨⟨a, ha, rfl⟩, a, rfl, h2⟩
    · rintro ⟨⟨a, ha, rfl⟩, n, hn, h2⟩
      obtain rfl := Option.some.inj hn
      exact ⟨a, ha, h2, rfl⟩

/-- C89: a stage that goes on from a snapshot puts its own snapshots under the same name. -/
theorem C89_same_snapshot : ∃ l, runActs mode dir m low diff = .ok l ∧
    ∀ st f, Act.load st f ∈ l → ∃ s, Act.sample st f s ∈ l := by
  refine ⟨_, run_eq mode dir m low diff hd h1 hm, fun st f h => ?_⟩
  have key : ∀ (dir : CStr) (st' : Option ℕ) (file : CStr) (r p : Bool) (tag x : CStr),
      Act.load st f ∈ stageActs dir st' file r p tag x → ∃ s, Act.sample st f s ∈ stageActs dir st' file r p tag x := by
    intro dir st' file r p tag x
    cases r <;> cases p <;> simp [stageActs]
  have key2 : ∀ (b : Bool) (n : ℕ), Act.load st f ∉ afterActs m b n := by
    intro b n h
    have : st ∈ (afterActs m b n).filterMap Act.loaded := List.mem_filterMap.2 ⟨_, h, rfl⟩
    rw [after_loaded] at this
    cases this
  rcases List.mem_append.1 h with h | h
  · split at h
    · rename_i hc
      rw [if_pos hc]
      have : Act.load st f ∈ stageActs dir none (conFile dir) m.restart (m.restart || m.postprc) [] [] := by
        cases m.paraName <;> simpa using h
      obtain ⟨s, hs⟩ := key _ _ _ _ _ _ _ this
      exact ⟨s, List.mem_append_left _ (List.mem_append_left _ (List.mem_append_left _ hs))⟩
    · cases h
  · split at h
    · cases h
    · rename_i hc
      rw [if_neg hc]
      have : ∃ n ∈ List.range' low (if mode = .mmap then 1 else diff), m.paraName = false ∧ Act.load st f ∈
          stageActs dir (some n) (lineFile mode dir n) m.restart m.postprc "1d".toList (postfixC n) := by
        rcases List.mem_append.1 h with h | h
        · obtain ⟨n, hn, h⟩ := List.mem_flatMap.1 h
          refine ⟨n, hn, ?_⟩
          rcases List.mem_append.1 h with h | h
          · cases hp : m.paraName
            · simpa [hp] using h
            · simp [hp] at h
          · exact absurd h (key2 _ _)
        · cases hp : m.paraName <;> simp [hp] at h
      obtain ⟨n, hn, hp, h⟩ := this
      obtain ⟨s, hs⟩ := key _ _ _ _ _ _ _ h
      refine ⟨s, List.mem_append_right _ (List.mem_append_left _ (List.mem_flatMap.2 ⟨n, hn, ?_⟩))⟩
      rw [hp]
      exact List.mem_append_left _ (List.mem_cons_of_mem _ hs)

/-- C89 fails for an interrupted continuum stage: with `-r` it is never sampled, so it cannot be finished; in
continuum mode `-r` samples nothing at all. -/
theorem C89_fails_resume_con (hr : m.restart = true) : ∃ l, runActs mode dir m low diff = .ok l ∧
    none ∉ l.filterMap Act.sampled ∧ (mode = .nmap → l.filterMap Act.sampled = []) := by
  obtain ⟨l, h2, h3⟩ := C89_sampled mode dir m low diff hd h1 hm
  refine ⟨l, h2, ?_, ?_⟩
  · rw [h3, lineStages_eq]
    simp [hr]
  · rintro rfl
    rw [h3]
    simp [hr, lineStages]

end

/-- C89: with `-v` or `-e` nothing is run. -/
theorem C89_nothing (mode : Mode) (dir : CStr) (m : MainCfg) (low diff : ℕ) (h : m.version = true ∨ m.examine = true) :
    runActs mode dir m low diff = .ok [] := by
  unfold runActs
  rcases h with h | h <;> simp [h]

/-- C89: a run without options does, in this order, the continuum (sampling, posterior sample, summary, light curve,
evidence) and for every number of components the names, sampling, posterior sample, summary and light curves; the
evidences come last. -/
theorem C89_plain (dir : CStr) (low diff : ℕ) (hd : ShortDir dir low diff) (h1 : 1 ≤ diff) (param l c : CStr) :
    runActs .gmodel dir { param := param, optsLine := l, optsCon := c } low diff = .ok (
      [.sample none (dir ++ "/data/restart_dnest.txt".toList) (dir ++ "/data/".toList ++ "/sample".toList ++ ".txt".toList),
        .posterior none (dir ++ "/data/".toList ++ "/sample".toList ++ ".txt".toList)
          (dir ++ "/data/".toList ++ "/posterior_sample".toList ++ ".txt".toList),
        .summary none, .recon none, .evidence true] ++
      ((List.range' low diff).flatMap fun n =>
        [.names (some n), .sample (some n) (dir ++ "/data/restart_dnest1d.txt".toList ++ postfixC n)
            (dir ++ "/data/".toList ++ "/sample".toList ++ "1d".toList ++ ".txt".toList ++ postfixC n),
          .posterior (some n) (dir ++ "/data/".toList ++ "/sample".toList ++ "1d".toList ++ ".txt".toList ++ postfixC n)
            (dir ++ "/data/".toList ++ "/posterior_sample".toList ++ "1d".toList ++ ".txt".toList ++ postfixC n),
          .summary (some n), .recon (some n)]) ++ [.evidence false]) := by
  have hr : RealRun { param := param, optsLine := l, optsCon := c } := ⟨rfl, rfl, fun h => h⟩
  rw [run_eq _ _ _ _ _ hd h1 hr]
  have e1 : SFile.base .sample = "/sample".toList := rfl
  have e2 : SFile.base .post = "/posterior_sample".toList := rfl
  simp only [stageActs, conFile, lineFile, afterActs, dataDir, e1, e2, List.append_nil, Bool.or_self]
  generalize dir ++ "/data/".toList ++ "/sample".toList = a
  generalize dir ++ "/data/".toList ++ "/posterior_sample".toList = b
  generalize dir ++ "/data/restart_dnest.txt".toList = f
  generalize dir ++ "/data/restart_dnest1d.txt".toList = g
  generalize ".txt".toList = t
  generalize "1d".toList = o
  simp

/-- The flags that reach the run are those of the command line: `-d` includes `-p`. -/
theorem asked_realRun (es : List (Char × Option CStr)) (ps : List CStr) (hv : ∀ e ∈ es, e.1 ≠ 'v' ∧ e.1 ≠ 'e') :
    RealRun (asked es ps) := by
  refine ⟨?_, ?_, ?_⟩
  · simp only [asked, List.any_eq_false, beq_iff_eq]
    exact fun e he => (hv e he).1
  · simp only [asked, List.any_eq_false, beq_iff_eq]
    exact fun e he => (hv e he).2
  · simp only [asked, List.any_eq_true, beq_iff_eq, Bool.or_eq_true]
    rintro ⟨e, he, h⟩
    exact ⟨e, he, Or.inr h⟩

/-- C89 from the command line on: whatever the order of the arguments, a line with `-p` or `-d` in it (and neither
`-v` nor `-e`) never starts the sampler. -/
theorem C89_post_only {args : List CStr} {es : List (Char × Option CStr)} {ps : List CStr}
    (h : CmdLine mainFlag mainVal args es ps) (prog : CStr) (hl : ∀ a ∈ args, a.length < 256) (hp : ps ≠ [])
    (hv : ∀ e ∈ es, e.1 ≠ 'v' ∧ e.1 ≠ 'e') (hpd : ∃ e ∈ es, e.1 = 'p' ∨ e.1 = 'd')
    (mode : Mode) (dir : CStr) (low diff : ℕ) (hd : ShortDir dir low diff) (h1 : 1 ≤ diff) :
    ∃ m l, mainArgs (prog :: args) = .ok m ∧ runActs mode dir m low diff = .ok l ∧ l.filterMap Act.sampled = [] := by
  obtain ⟨l, h2, h3⟩ := C89_sampled mode dir (asked es ps) low diff hd h1 (asked_realRun es ps hv)
  refine ⟨_, l, C87_any_order_partial h prog hl hp, h2, ?_⟩
  have : (asked es ps).postprc = true := by
    simp only [asked, List.any_eq_true, beq_iff_eq, Bool.or_eq_true]
    exact hpd
  rw [h3, this]
  simp

example : ShortDir "./".toList 1 3 := by
  refine ⟨by decide, fun n h1 h2 => ?_⟩
  have : n = 1 ∨ n = 2 ∨ n = 3 := by omega
  rcases this with rfl | rfl | rfl <;> decide +kernel

/-! ## C90 -/

/-- C90: no two files a run writes have the same name: continuum and line stages, numbers of components, kinds of
files, snapshots and component light curves are kept apart. -/
theorem C90_distinct (numbered : Bool) (x y : OutFile) (hx : x.fromMode numbered) (hy : y.fromMode numbered)
    (h : x.name = y.name) : x = y := name_inj hx hy h

/-- C90: the names the sampler builds are those of `OutFile`. -/
theorem C90_sampler_names (dir file : CStr) (r p : Bool) (f : SFile) (n : ℕ) :
    sfName (dataDir dir) (meant file r p [] []) f = dir ++ "/data//".toList ++ (OutFile.sampler none f).name ∧
    sfName (dataDir dir) (meant file r p "1d".toList (postfixC n)) f =
      dir ++ "/data//".toList ++ (OutFile.sampler (some n) f).name := by
  have hf : f.base = '/' :: f.base.drop 1 := by cases f <;> decide
  have hs : "/data//".toList = "/data/".toList ++ ['/'] := by decide
  have h1 : "1d.txt".toList = "1d".toList ++ ".txt".toList := by decide
  have hp : postfixC n = '_' :: dec n := rfl
  constructor
  · unfold sfName OutFile.name meant dataDir
    rw [hs, hf]
    simp only [List.append_assoc, List.append_nil, List.cons_append, List.nil_append]
  · unfold sfName OutFile.name meant dataDir
    rw [hs, hf, h1, hp]
    simp only [List.append_assoc, List.cons_append, List.nil_append]

theorem sfNames_ub (sdir : CStr) (c : DnestCfg) (h : 156 ≤ sdir.length + 26 + c.tag.length + c.suffix.length) :
    sfNames sdir c SFile.all = .ub := by
  have h4 : ".txt".toList.length = 4 := by decide
  have h22 : (SFile.base .postInfo).length = 22 := by decide
  have hbad : ¬ (sfName sdir c .postInfo).length < 156 := by
    simp only [sfName, List.length_append, h4, h22]
    omega
  have step : ∀ (f : SFile) (l : List SFile), sfNames sdir c l = .ub → sfNames sdir c (f :: l) = .ub := by
    intro f l hl
    simp only [sfNames, copyStr]
    split
    · simp only [Res.ok_bind, hl]
    · rfl
  have last : sfNames sdir c [.postInfo, .limits] = .ub := by
    simp only [sfNames, copyStr, if_neg hbad]
    rfl
  exact step _ _ (step _ _ (step _ _ (step _ _ (step _ _ last))))

/-- C90: the continuum stage runs without writing past an array exactly when the directory name has at most 123
characters, although the program takes names of up to 255. -/
theorem C90_fits_con (dir : CStr) (m : MainCfg) (p : Bool) : mcCon dir m p = .ub ↔ 124 ≤ dir.length := by
  constructor
  · intro h
    by_contra hc
    rw [mcCon_eq dir (by omega)] at h
    cases h
  · intro h
    have hc := C88_con dir m.restart p
    unfold mcCon
    by_cases h23 : dir.length + 23 < 156
    · rw [if_pos h23] at hc
      obtain ⟨a, ha, ha'⟩ := Res.bind_eq_ok.1 hc
      have h6 : "/data/".toList.length = 6 := by decide
      rw [ha]
      simp only [Res.ok_bind, dnestActs, ha']
      rw [sampleDir_ok dir (by omega)]
      simp only [Res.ok_bind]
      rw [sfNames_ub]
      · rfl
      · simp only [meant, List.length_append, h6, List.length_nil]
        omega
    · rw [if_neg h23] at hc
      cases ha : conArgv dir m.restart p with
      | ok a =>
        rw [ha] at hc
        have hc' : dnestArgs a = .ub := hc
        simp only [Res.ok_bind, dnestActs, hc']
        rfl
      | ub => rfl
      | exit => rw [ha] at hc; cases hc
      | hang => rw [ha] at hc; cases hc

end Mica
