import Verif.Proof.HeapDec

/-!
# C99: allocated memory

Every block a run allocates is released exactly once, no pointer is used or released after that, and at
the end nothing is left.
-/

namespace Mica

/-- How many blocks a sequence of steps allocates. -/
def countMalloc (P : List Cmd) : ℕ := P.countP fun c => match c with | .malloc _ => true | _ => false

/-- How many times it releases a block other than one of the optional arrays of `dnest` (whose pointer may
be `NULL`). -/
def countFree (P : List Cmd) : ℕ :=
  P.countP fun c => match c with | .free p => !(p.head?.elim false fun x => x.1.static) | _ => false

/-- How many times it releases one of the optional arrays. -/
def countFreeOpt (P : List Cmd) : ℕ :=
  P.countP fun c => match c with | .free p => (p.head?.elim false fun x => x.1.static) | _ => false

/-- **The ledger balances**: whatever is allocated is released, reachable or lost; so nothing is counted
twice by `Heap`. -/
theorem C99_ledger (P : List Cmd) (h h' : Heap) (he : exec P h = .ok h') :
    h.live.card + h.lost.card + countMalloc P ≤ h'.live.card + h'.lost.card + countFree P + countFreeOpt P ∧
    h'.live.card + h'.lost.card + countFree P ≤ h.live.card + h.lost.card + countMalloc P := by
  induction P generalizing h with
  | nil =>
    simp only [exec, Res.ok.injEq] at he
    subst he
    simp [countMalloc, countFree, countFreeOpt]
  | cons c P ih =>
    simp only [exec] at he
    obtain ⟨h1, e1, e2⟩ := Res.bind_eq_ok.1 he
    have := ih h1 e2
    have hsplit : ∀ (L : Finset Ptr) (p : Ptr), (L.filter fun q => ¬ p <:+ q).card + (L.filter fun q => p <:+ q).card = L.card := by
      intro L p
      rw [add_comm, Finset.card_filter_add_card_filter_not]
    cases c with
    | malloc p =>
      simp only [Cmd.step] at e1
      split_ifs at e1 with hp
      simp only [Res.ok.injEq] at e1
      subst e1
      have h2 : (insert p (h.live.filter fun q => ¬ p <:+ q)).card = (h.live.filter fun q => ¬ p <:+ q).card + 1 := by
        rw [Finset.card_insert_of_notMem]
        simp
      have h3 := hsplit h.live p
      simp only [h2, Multiset.card_add, Finset.card_val] at this
      simp only [countMalloc, countFree, countFreeOpt, List.countP_cons] at this ⊢
      simp
      omega
    | free p =>
      simp only [Cmd.step] at e1
      split_ifs at e1 with hp hp2
      · simp only [Res.ok.injEq] at e1
        subst e1
        have h3 := hsplit h.live p
        have h4 : (h.live.filter fun q => p <:+ q) = insert p (h.live.filter fun q => p <:+ q ∧ q ≠ p) := by
          ext q
          simp only [Finset.mem_filter, Finset.mem_insert]
          constructor
          · rintro ⟨a, b⟩
            by_cases e : q = p
            · exact .inl e
            · exact .inr ⟨a, b, e⟩
          · rintro (rfl | ⟨a, b, -⟩)
            · exact ⟨hp, List.suffix_rfl⟩
            · exact ⟨a, b⟩
        rw [h4, Finset.card_insert_of_notMem (by simp)] at h3
        simp only [Multiset.card_add, Finset.card_val, Finset.filter_not] at this h3
        simp only [countMalloc, countFree, countFreeOpt, List.countP_cons] at this ⊢
        rcases Bool.eq_false_or_eq_true (p.head?.elim false fun x => x.1.static) with hs | hs <;> simp [hs] <;> omega
      · simp only [Res.ok.injEq] at e1
        subst e1
        simp only [countMalloc, countFree, countFreeOpt, List.countP_cons] at this ⊢
        simp [hp2.2]
        omega
    | use p =>
      simp only [Cmd.step] at e1
      split_ifs at e1 with hp
      simp only [Res.ok.injEq] at e1
      subst e1
      simpa [countMalloc, countFree, countFreeOpt, List.countP_cons] using this

/-- How the program calls the sampler: the three optional arrays are `NULL` (src/dnest_con.c:68,
src/dnest_line.c:213, src/dnest_pmap.c:121, src/dnest_vmap.c:131, src/dnest_mmap.c:180). -/
def MicaCalls (c : RunCfg) : Prop :=
  (c.callCon.range = false ∧ c.callCon.type = false ∧ c.callCon.info = false) ∧
  ∀ j, (c.call j).range = false ∧ (c.call j).type = false ∧ (c.call j).info = false

/-- Number of stages in which the line is decomposed. -/
def decStages (c : RunCfg) : ℕ :=
  if c.mode = .nmap ∨ c.paraName ∨ c.postsample then 0
  else (List.range (stages c)).countP fun j => decomposes c j

theorem card_linesLost (c : RunCfg) (h : c.mode ≠ .nmap) : (linesLost c).card = c.nset * decStages c := by
  have h1 : ∀ n, (∑ j ∈ Finset.range n, stageLost c j).card =
      c.nset * (if c.paraName ∨ c.postsample then 0 else (List.range n).countP fun j => decomposes c j) := by
    intro n
    induction n with
    | zero => simp
    | succ n ih =>
      rw [Finset.sum_range_succ, Multiset.card_add, ih, List.range_succ, List.countP_append, stageLost]
      cases c.paraName <;> cases c.postsample <;> cases hd : decomposes c n <;>
        simp [decLost, hd, Nat.mul_add]
  rw [linesLost, h1, decStages]
  simp [h]

/-- **C99, what holds.**  For every mode, every combination of flags, every number of data sets, lines,
numbers of components, particles, rounds, samples: the run never uses, releases twice, or releases without
having allocated, a block; at the end of the run the only blocks still reachable are the three parameter
arrays of the continuum and, on the root task, the dictionary of the parameter file; the only blocks lost
on the way are rows of `feall_max`, one per data set and stage in which the line is decomposed.  Missing from
the full claim: those three or four blocks and those rows are not released (`C99_never_released`,
`C99_decomp_leak`). -/
theorem C99_memory_partial (c : RunCfg) (hc : MicaCalls c) :
    ∃ h, exec (runAllH c) Heap.empty = .ok h ∧
      (∀ p, p ∈ h.live ↔ p = var .varParam ∨ p = var .varParamStd ∨ p = var .idxConPm ∨
        (c.root = true ∧ p = var .pardict)) ∧
      h.lost.card = c.nset * decStages c ∧
      ∀ p ∈ h.lost, ∃ i < c.nset, p = mem (var .feallMax) .feallMaxRow i := by
  obtain ⟨h, e, e1, e2, -⟩ := does_runAll c hc.1 hc.2 Heap.empty rfl (by simp [Heap.Clean, Heap.empty])
  refine ⟨h, e, ?_, ?_, ?_⟩
  · intro p
    rw [e1]
    simp [restList]
  · rw [e2]
    by_cases hn : c.mode = .nmap
    · simp [hn, decStages, Heap.empty]
    · simp [hn, card_linesLost c hn, Heap.empty]
  · intro p hp
    rw [e2] at hp
    by_cases hn : c.mode = .nmap
    · simp [hn, Heap.empty] at hp
    · simp only [hn, if_false, Heap.empty, zero_add, linesLost] at hp
      obtain ⟨j, -, hj⟩ := Multiset.mem_sum.1 hp
      unfold stageLost at hj
      split_ifs at hj
      · simpa [decLost] using hj
      · simp at hj

/-- **Without the decomposition nothing is lost.** -/
theorem C99_no_leak (c : RunCfg) (hc : MicaCalls c) (hd : c.decomp = false) :
    ∃ h, exec (runAllH c) Heap.empty = .ok h ∧ h.lost = 0 := by
  obtain ⟨h, e, -, e2, -⟩ := C99_memory_partial c hc
  refine ⟨h, e, ?_⟩
  have : decStages c = 0 := by
    unfold decStages
    split_ifs
    · rfl
    · simp [decomposes, hd]
  rw [this, Nat.mul_zero] at e2
  exact Multiset.card_eq_zero.1 e2

/-- **C99 fails with `-d`**: every decomposition loses one block per data set, for every number of data
sets (`output_decompose_line_parallel` releases `feall_max` but not its rows, src/line_decomp.c:342-358). -/
theorem C99_decomp_leak (c : RunCfg) (hc : MicaCalls c) (hn : c.mode = .gmodel) (hd : c.decomp = true)
    (hp : c.paraName = false) (hs : c.postsample = false) (hl : 2 ≤ c.low) :
    ∃ h, exec (runAllH c) Heap.empty = .ok h ∧ h.lost.card = c.nset * c.diff := by
  obtain ⟨h, e, -, e2, -⟩ := C99_memory_partial c hc
  refine ⟨h, e, ?_⟩
  rw [e2, decStages, if_neg (by simp [hn, hp, hs])]
  congr 1
  have h1 : stages c = c.diff := by simp [stages, hn]
  rw [h1]
  have : (List.range c.diff).countP (fun j => decomposes c j) = (List.range c.diff).length := by
    rw [List.countP_eq_length]
    intro j _
    simp [decomposes, hd, hn]
    omega
  rw [this, List.length_range]

/-- **C99 fails in every run**: at least three blocks are never released. -/
theorem C99_never_released (c : RunCfg) (hc : MicaCalls c) :
    ∃ h, exec (runAllH c) Heap.empty = .ok h ∧
      {var .varParam, var .varParamStd, var .idxConPm} ⊆ h.live := by
  obtain ⟨h, e, e1, -⟩ := C99_memory_partial c hc
  refine ⟨h, e, ?_⟩
  intro p hp
  rw [e1]
  simp only [Finset.mem_insert, Finset.mem_singleton] at hp
  tauto

/-- A call of the sampler by a program that gives the ranges of the parameters, or not. -/
def optCall (range : Bool) : Call where
  root := false
  range := range
  type := false
  info := false
  limits := false
  post := true
  restart := false
  optfile := false
  particles := 1
  rounds := []
  lastRestart := false
  levels := 0
  samples := 0

/-- Outcome of a sequence of steps from empty memory: `0` undefined, `1` fine, `2` otherwise. -/
def outcome (P : List Cmd) : ℕ :=
  match exec P Heap.empty with
  | .ub => 0
  | .ok _ => 1
  | _ => 2

theorem outcome_ub {P : List Cmd} (h : outcome P = 0) : exec P Heap.empty = .ub := by
  unfold outcome at h
  split at h <;> simp_all

theorem outcome_ok {P : List Cmd} (h : outcome P = 1) : ∃ s, exec P Heap.empty = .ok s := by
  unfold outcome at h
  split at h <;> simp_all

/-- **The sampler as a library**: a call that gives the optional array of parameter ranges followed by one
that does not releases the array of the first call twice, because `finalise` does not reset the pointer
(cdnest/dnest.c:1190-1201).  The other order, and giving it twice, are fine. -/
theorem C99_library_double_free :
    exec (dnestH (optCall true) [] [] [] ++ dnestH (optCall false) [] [] []) Heap.empty = .ub ∧
    (∃ h, exec (dnestH (optCall false) [] [] [] ++ dnestH (optCall true) [] [] []) Heap.empty = .ok h) ∧
    (∃ h, exec (dnestH (optCall true) [] [] [] ++ dnestH (optCall true) [] [] []) Heap.empty = .ok h) :=
  ⟨outcome_ub (by decide +kernel), outcome_ok (by decide +kernel), outcome_ok (by decide +kernel)⟩

/-- A run that meets the hypotheses: two data sets with one and two lines, two numbers of components,
decomposition, as root task. -/
def heapExample : RunCfg where
  root := true
  mode := .gmodel
  postprc := false
  decomp := true
  paraName := false
  postsample := false
  nset := 2
  nlset := fun i => i + 1
  gap := true
  gapData := fun i => i == 0
  lagStr := true
  low := 2
  diff := 2
  npCon := 3
  npAll := fun j => 9 + 3 * j
  sorted := fun _ => true
  psTask := fun _ => 4
  callCon := { optCall false with root := true, post := false, rounds := [⟨3, true, true, false⟩], levels := 2, samples := 3 }
  call := fun j => { optCall false with root := true, limits := true, post := false, restart := j == 1, optfile := true, rounds := [⟨2, false, false, true⟩], levels := 2, samples := 3 }

example : MicaCalls heapExample ∧ heapExample.mode = .gmodel ∧ heapExample.decomp = true ∧ 2 ≤ heapExample.low ∧
    heapExample.nset * heapExample.diff = 4 :=
  ⟨⟨⟨rfl, rfl, rfl⟩, fun _ => ⟨rfl, rfl, rfl⟩⟩, rfl, rfl, le_rfl, rfl⟩

/-- The model notices a block that is released twice. -/
example : exec (mallocs [var .argv] ++ frees [var .argv, var .argv]) Heap.empty = .ub :=
  outcome_ub (by decide +kernel)

end Mica
