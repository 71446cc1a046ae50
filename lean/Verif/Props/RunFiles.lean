import Verif.Model.RunFiles
import Verif.Props.RunPlan

/-!
# C90: whose files are left at the end of a run
-/

namespace Mica

/-- The stage a part of a run belongs to; the evidence files belong to no single one. -/
def Act.stage : Act → Option (Option ℕ)
  | .load st _ => some st
  | .sample st _ _ => some st
  | .posterior st _ _ => some st
  | .summary st => some st
  | .recon st => some st
  | .decomp st => some st
  | .names st => some st
  | .evidence _ => none

/-- The stage whose results a file is meant for. -/
def OutFile.stage : OutFile → Option (Option ℕ)
  | .pcon => some none
  | .trendCon => some none
  | .sampler st _ => some st
  | .pall n => some (some n)
  | .trend n => some (some n)
  | .names n => some (some n)
  | .pline n _ => some (some n)
  | _ => none

/-- The stages that write a file, in the order in which they do. -/
def authors (f : CStr) (l : List Act) : List (Option ℕ) := l.filterMap fun a => if f ∈ a.writes then a.stage else none

theorem weights_other (x : OutFile) : x.name ≠ weightsName := by
  intro h
  have hp : x.head <+: weightsName := ⟨x.tail, by rw [← name_eq, h]⟩
  rw [← std_head] at hp
  have key : ∀ y ∈ OutFile.stds, y.head.isPrefixOf weightsName = false := by decide +kernel
  have := key _ (std_mem x)
  rw [← List.isPrefixOf_iff_prefix] at hp
  rw [hp] at this
  cases this

/-- Everything that is written is a file of the list or the file of weights. -/
theorem writes_out {a : Act} {f : CStr} (h : f ∈ a.writes) :
    f = weightsName ∨ ∃ y : OutFile, y.name = f ∧ y.fromMode true ∧ (y.stage = a.stage ∨ y.stage = none) := by
  cases a with
  | load _ _ => simp [Act.writes] at h
  | summary _ => simp [Act.writes] at h
  | sample st _ _ =>
    simp only [Act.writes, List.mem_map] at h
    obtain ⟨g, -, rfl⟩ := h
    exact .inr ⟨_, rfl, trivial, .inl rfl⟩
  | posterior st _ _ =>
    simp only [Act.writes, List.mem_cons, List.not_mem_nil, or_false] at h
    rcases h with rfl | rfl | rfl | rfl | rfl
    · exact .inr ⟨_, rfl, trivial, .inl rfl⟩
    · exact .inr ⟨_, rfl, trivial, .inl rfl⟩
    · exact .inl rfl
    · exact .inr ⟨_, rfl, trivial, .inr rfl⟩
    · exact .inr ⟨_, rfl, trivial, .inr rfl⟩
  | recon st =>
    cases st <;> simp only [Act.writes, List.mem_cons, List.not_mem_nil, or_false] at h <;> rcases h with rfl | rfl <;>
      exact .inr ⟨_, rfl, trivial, .inl rfl⟩
  | decomp st =>
    cases st <;> simp only [Act.writes, List.mem_map, List.not_mem_nil] at h
    obtain ⟨c, -, rfl⟩ := h
    exact .inr ⟨_, rfl, trivial, .inl rfl⟩
  | names st =>
    cases st <;> simp only [Act.writes, List.mem_cons, List.not_mem_nil, or_false] at h
    subst h
    exact .inr ⟨_, rfl, trivial, .inl rfl⟩
  | evidence b =>
    cases b <;> simp only [Act.writes, List.mem_cons, List.not_mem_nil, or_false] at h <;> subst h <;>
      exact .inr ⟨_, rfl, trivial, .inr rfl⟩

/-- **C90.** A file with the results of one stage is written by no other stage, in no run. -/
theorem C90_owned (x : OutFile) (st : Option ℕ) (hx : x.stage = some st) (l : List Act) :
    ∀ s ∈ authors x.name l, s = st := by
  intro s hs
  simp only [authors, List.mem_filterMap] at hs
  obtain ⟨a, -, ha⟩ := hs
  split at ha
  · rename_i hf
    rcases writes_out hf with e | ⟨y, e, hm, hy⟩
    · exact absurd e (weights_other x)
    · have hxm : x.fromMode true := by
        cases x <;> trivial
      obtain rfl := name_inj hm hxm e
      rcases hy with hy | hy
      · rw [← hy, hx] at ha
        exact (Option.some.inj ha).symm
      · rw [hy] at hx; cases hx
  · cases ha

/-- The file of weights is written by every stage that draws a posterior sample. -/
theorem authors_weights (l : List Act) : authors weightsName l = l.filterMap Act.drawn := by
  unfold authors
  congr 1
  funext a
  have no : ∀ x : OutFile, ¬ weightsName = x.name := fun x h => weights_other x h.symm
  cases a with
  | posterior st _ _ => simp [Act.writes, Act.stage, Act.drawn]
  | sample st _ _ => simp [Act.writes, Act.drawn, no]
  | recon st => cases st <;> simp [Act.writes, Act.drawn, no]
  | decomp st => cases st <;> simp [Act.writes, Act.drawn, weights_other]
  | names st => cases st <;> simp [Act.writes, Act.drawn, no]
  | evidence b => cases b <;> simp [Act.writes, Act.drawn, no]
  | _ => simp [Act.writes, Act.drawn]

/-- The posterior sample file of a stage is written by that stage alone, once for each time the sample is drawn. -/
theorem authors_post (st : Option ℕ) (l : List Act) :
    authors (OutFile.sampler st .post).name l = (l.filterMap Act.drawn).filter (· = st) := by
  have key : ∀ x : OutFile, x.fromMode true → ((OutFile.sampler st .post).name = x.name ↔ x = .sampler st .post) :=
    fun x hx => ⟨fun h => name_inj hx (b := true) (show OutFile.fromMode true _ from trivial) h.symm, fun h => by rw [h]⟩
  have wn := weights_other (.sampler st .post)
  have k' : ∀ x : OutFile, x.fromMode true → (x.name = (OutFile.sampler st .post).name ↔ x = .sampler st .post) :=
    fun x hx => eq_comm.trans (key x hx)
  rw [List.filter_filterMap]
  unfold authors
  congr 1
  funext a
  cases a with
  | posterior s _ _ =>
    have k1 := key (.sampler s .post) trivial
    have k2 := key (.sampler s .postInfo) trivial
    have k3 := key (.status s.isSome) trivial
    have k4 := key .options trivial
    simp only [Act.writes, Act.drawn, Act.stage, List.mem_cons, List.not_mem_nil, or_false, k1, k2, k3, k4, wn]
    by_cases h : s = st <;> simp [Option.filter, h]
  | sample s _ _ =>
    simp [Act.writes, Act.drawn, key _ (show OutFile.fromMode true (OutFile.sampler s _) from trivial)]
  | recon s =>
    cases s with
    | none => simp [Act.writes, Act.drawn, key .pcon trivial, key .trendCon trivial]
    | some n => simp [Act.writes, Act.drawn, key (.pall n) trivial, key (.trend n) trivial]
  | decomp s =>
    cases s with
    | none => simp [Act.writes, Act.drawn]
    | some n => simp [Act.writes, Act.drawn, k' (.pline n _) trivial]
  | names s =>
    cases s with
    | none => simp [Act.writes, Act.drawn]
    | some n => simp [Act.writes, Act.drawn, key (.names n) trivial]
  | evidence b => cases b <;> simp [Act.writes, Act.drawn, key .evidence trivial, key .evidenceCon trivial]
  | _ => simp [Act.writes, Act.drawn]

/-- **C90 fails for the file of weights**: all stages write the same `weights.txt`, one after the other. -/
theorem C90_fails_weights (mode : Mode) (dir : CStr) (m : MainCfg) (low diff : ℕ) (hd : ShortDir dir low diff)
    (h1 : 1 ≤ diff) (hm : RealRun m) : ∃ l, runActs mode dir m low diff = .ok l ∧ authors weightsName l =
      (if (mode ≠ .vmap ∧ m.postprc = false) ∨ mode = .nmap then [none] else []) ++
      (if m.paraName = false then lineStages mode low diff else []) := by
  obtain ⟨l, hl, h⟩ := C89_posterior mode dir m low diff hd h1 hm
  exact ⟨l, hl, by rw [authors_weights, h]⟩

/-- **C90 fails**: after a run of the line models without options the weights are those of the largest number of
components; those of the continuum and of the others are gone. -/
theorem C90_fails_last (dir : CStr) (m : MainCfg) (low diff : ℕ) (hd : ShortDir dir low diff) (h1 : 1 ≤ diff)
    (hm : RealRun m) (hp : m.postprc = false) (hn : m.paraName = false) :
    ∃ l, runActs .gmodel dir m low diff = .ok l ∧ none ∈ authors weightsName l ∧
      (∀ n, low ≤ n → n < low + diff → some n ∈ authors weightsName l) ∧
      (authors weightsName l).getLast? = some (some (low + diff - 1)) := by
  obtain ⟨l, hl, h⟩ := C90_fails_weights .gmodel dir m low diff hd h1 hm
  refine ⟨l, hl, ?_, ?_, ?_⟩
  · rw [h]; simp [hp]
  · intro n a b
    rw [h]
    simp only [hn, lineStages, if_true, List.mem_append, List.mem_map, List.mem_range'_1]
    exact .inr ⟨n, ⟨a, b⟩, rfl⟩
  · rw [h]
    obtain ⟨d, rfl⟩ : ∃ d, diff = d + 1 := ⟨diff - 1, by omega⟩
    simp [hn, lineStages, List.range'_concat]

/-- **C90.** In the same runs the posterior sample of every stage, and no other, is in the file named after it. -/
theorem C90_kept (dir : CStr) (m : MainCfg) (low diff : ℕ) (hd : ShortDir dir low diff) (h1 : 1 ≤ diff)
    (hm : RealRun m) (hp : m.postprc = false) (hn : m.paraName = false) :
    ∃ l, runActs .gmodel dir m low diff = .ok l ∧ authors (OutFile.sampler none .post).name l = [none] ∧
      ∀ n, low ≤ n → n < low + diff → authors (OutFile.sampler (some n) .post).name l = [some n] := by
  obtain ⟨l, hl, h⟩ := C89_posterior .gmodel dir m low diff hd h1 hm
  refine ⟨l, hl, ?_, ?_⟩
  · rw [authors_post, h]
    simp [hp, hn, lineStages]
    rintro _ x _ _ rfl h
    cases h
  · intro n a b
    rw [authors_post, h]
    simp only [hp, hn, lineStages, ne_eq, reduceCtorEq, not_false_eq_true, and_self, or_false, if_true, List.filter_append,
      List.filter_map, Function.comp_def, Option.some.injEq]
    have : (List.range' low diff).filter (fun x => decide (x = n)) = [n] := by
      rw [List.filter_eq, (List.nodup_range' (h := Nat.one_pos)).count, if_pos (List.mem_range'_1.2 ⟨a, b⟩)]
      rfl
    simp [this]

/-- A run with one and two components in a short directory. -/
example : ∃ l, runActs .gmodel "d".toList {} 1 2 = .ok l ∧ (authors weightsName l) = [none, some 1, some 2] := by
  have hd : ShortDir "d".toList 1 2 := by
    refine ⟨by decide, fun n a b => ?_⟩
    have : n = 1 ∨ n = 2 := by omega
    rcases this with rfl | rfl <;> decide
  obtain ⟨l, hl, h⟩ := C90_fails_weights .gmodel "d".toList {} 1 2 hd (by decide) ⟨rfl, rfl, fun h => by cases h⟩
  exact ⟨l, hl, by rw [h]; decide⟩

end Mica
