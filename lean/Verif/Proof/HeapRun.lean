import Verif.Proof.HeapDnest

/-! # Memory of the stages of a run -/

namespace Mica

/-- Blocks that exist between `read_data`/`init` and `free_memory`. -/
def baseList (c : RunCfg) : List Ptr :=
  (if c.root then [var .pardict] else []) ++ [var .dataset] ++
  (List.range c.nset).flatMap (fun i => [mem (var .dataset) .conT i, mem (var .dataset) .conF i,
    mem (var .dataset) .conFe i, mem (var .dataset) .line i]) ++
  (List.range c.nset).flatMap (fun i => (List.range (c.nlset i)).flatMap fun j =>
    [mem (mem (var .dataset) .line i) .lineT j, mem (mem (var .dataset) .line i) .lineF j,
      mem (mem (var .dataset) .line i) .lineFe j]) ++
  [var .fluxMinmax] ++
  (List.range c.nset).flatMap (fun i => [mem (var .fluxMinmax) .fluxRow i]) ++
  [var .alldata] ++
  (List.range c.nset).flatMap (fun i => [mem (var .alldata) .allT i, mem (var .alldata) .allF i,
    mem (var .alldata) .allFe i]) ++
  [var .widthPrior, var .PNmat, var .PSmat, var .PCmat, var .IPCmat, var .USmat, var .USmatT,
    var .ASmat, var .Tmat1, var .Tmat2, var .workspace, var .workspaceIpiv, var .workspaceInv,
    var .varParam, var .varParamStd, var .idxConPm, var .logzArr] ++
  (if c.gap then [var .gapCenter, var .gapWidth] else []) ++
  (if c.root then [var .pbMica] else [])

theorem grow_base (c : RunCfg) : Grow ∅ 0 1 [] (readH c ++ initH c) (baseList c) 0 := by
  have e : readH c ++ initH c =
      mallocs (if c.root then [var .pardict] else []) ++ mallocs [var .dataset] ++
      forN c.nset (fun i => mallocs [mem (var .dataset) .conT i, mem (var .dataset) .conF i,
        mem (var .dataset) .conFe i, mem (var .dataset) .line i]) ++
      forN c.nset (fun i => forN (c.nlset i) fun j => mallocs [mem (mem (var .dataset) .line i) .lineT j,
        mem (mem (var .dataset) .line i) .lineF j, mem (mem (var .dataset) .line i) .lineFe j]) ++
      mallocs [var .fluxMinmax] ++
      forN c.nset (fun i => mallocs [mem (var .fluxMinmax) .fluxRow i]) ++
      mallocs [var .alldata] ++
      forN c.nset (fun i => mallocs [mem (var .alldata) .allT i, mem (var .alldata) .allF i,
        mem (var .alldata) .allFe i]) ++
      mallocs [var .widthPrior, var .PNmat, var .PSmat, var .PCmat, var .IPCmat, var .USmat, var .USmatT,
        var .ASmat, var .Tmat1, var .Tmat2, var .workspace, var .workspaceIpiv, var .workspaceInv,
        var .varParam, var .varParamStd, var .idxConPm, var .logzArr] ++
      mallocs (if c.gap then [var .gapCenter, var .gapWidth] else []) ++
      mallocs (if c.root then [var .pbMica] else []) ++
      whenC c.gap (forN c.nset fun i => uses [var .gapCenter, var .gapWidth] ++
        whenC (c.gapData i) ([.malloc (var .gapDt)] ++ uses [var .gapDt, mem (var .dataset) .conT i] ++
          [.free (var .gapDt)])) := by
    rw [readH, initH, mallocs_when, ← mallocs_when, ← mallocs_when, ← mallocs_when]
    simp only [List.append_assoc]
    rfl
  rw [e, show baseList c = baseList c ++ [] by simp]
  refine Grow.append0 ?_ ?_
  · unfold baseList
    refine Grow.append0 (Grow.append0 (Grow.append0 (Grow.append0 (Grow.append0 (Grow.append0 (Grow.append0
      (Grow.append0 (Grow.append0 (Grow.append0 ?_ ?_) ?_) ?_) ?_) ?_) ?_) ?_) ?_) ?_) ?_
    · exact Grow.mallocs (by cases c.root <;> hside) (by cases c.root <;> hside) (by cases c.root <;> hside)
    · exact Grow.mallocs (by hside) (by cases c.root <;> hside) (by hside)
    · refine Grow.loop (by hside) (by hside) ?_ (by hside)
      cases c.root <;> hside
    · refine Grow.loop2 (by hside) ?_ ?_ (by hside)
      · simp [mem, var]
        omega
      · intro i hi
        cases c.root <;> simp [var, mem, rank, Obj.rank, Ptr.plain, Obj.static, hi]
    · exact Grow.mallocs (by hside) (by cases c.root <;> hside) (by hside)
    · refine Grow.loop (by hside) (by hside) ?_ (by hside)
      cases c.root <;> hside
    · exact Grow.mallocs (by hside) (by cases c.root <;> hside) (by hside)
    · refine Grow.loop (by hside) (by hside) ?_ (by hside)
      cases c.root <;> hside
    · exact Grow.mallocs (by hside) (by cases c.root <;> hside) (by hside)
    · exact Grow.mallocs (by cases c.gap <;> hside) (by cases c.root <;> cases c.gap <;> hside)
        (by cases c.gap <;> hside)
    · exact Grow.mallocs (by cases c.root <;> hside) (by cases c.root <;> cases c.gap <;> hside)
        (by cases c.root <;> hside)
  · refine Grow.seg (Seg.when fun hg => Seg.forN0 fun i hi => Seg.append0 (Seg.uses ?_) (Seg.when fun _ => ?_))
    · simp [baseList, hg]
    · exact Seg.around (r' := 6) (A := [.gapDt]) (F := [.gapDt]) (by omega) (by simp)
        (by simp [Obj.rank, Obj.static]) (by simp) (by simp) (Seg.uses (by simp [baseList, mem, var, hi]))

/-- The blocks of `baseList` as a set. -/
abbrev baseSet (c : RunCfg) : Set Ptr := {p | p ∈ baseList c}

theorem seg_useData {c : RunCfg} {R : Set Ptr} {r : ℕ} (h : baseSet c ⊆ R) : Seg R r (useDataH c) 0 := by
  refine Seg.forN0 fun i hi => Seg.append0 (Seg.uses ?_) (Seg.forN0 fun j hj => Seg.uses ?_)
  · intro p hp
    refine h ?_
    simp only [List.mem_cons, List.not_mem_nil, or_false] at hp
    subst hp
    simp [baseList, mem, var, hi]
  · intro p hp
    refine h ?_
    simp only [List.mem_cons, List.not_mem_nil, or_false] at hp
    subst hp
    simp [baseList, mem, var, hi, hj]

/-- Blocks of `rangesNewH`. -/
def rangesList (np : ℕ) : List Ptr :=
  [var .parRange] ++ (List.range np).flatMap (fun i => [mem (var .parRange) .parRangeRow i]) ++
  [var .parFix, var .parFixVal]

theorem seg_usePrior {np : ℕ} {R : Set Ptr} {r : ℕ} (h : {p | p ∈ rangesList np} ⊆ R) :
    Seg R r (usePriorH np) 0 := by
  refine Seg.forN0 fun i hi => Seg.uses ?_
  intro p hp
  refine h ?_
  simp only [List.mem_cons, List.not_mem_nil, or_false] at hp
  rcases hp with rfl | rfl | rfl <;> simp [rangesList, mem, var, hi]

theorem grow_ranges {R : Set Ptr} {A : List Ptr} (np : ℕ) (hA : ∀ p ∈ A, p.getLast? ≠ some (.parRange, 0) ∧
    p ≠ var .parFix ∧ p ≠ var .parFixVal) :
    Grow R 2 3 A (rangesNewH np) (rangesList np) 0 := by
  have h1 : ∀ p : Ptr, p.getLast? = some (.parRange, 0) → p ∉ A := fun p h hp => (hA p hp).1 h
  refine Grow.append0 (Grow.append0 (Grow.mallocs (B := [var .parRange]) ?_ ?_ ?_) (Grow.loop
    (f := fun i => [mem (var .parRange) .parRangeRow i]) ?_ ?_ ?_ ?_)) (Grow.mallocs ?_ ?_ ?_)
  · hside
  · have := h1 (var .parRange) rfl
    simp only [var] at this
    simp [var, rank, Obj.rank, Ptr.plain, Obj.static, this]
  · hside
  · hside
  · hside
  · intro i hi
    have := h1 (mem (var .parRange) .parRangeRow i) rfl
    simp only [var, mem] at this
    simp [var, mem, rank, Obj.rank, Ptr.plain, Obj.static, this]
  · hside
  · hside
  · have g1 : var .parFix ∉ A := fun h => (hA _ h).2.1 rfl
    have g2 : var .parFixVal ∉ A := fun h => (hA _ h).2.2 rfl
    simp only [var] at g1 g2
    simp [var, mem, rank, Obj.rank, Ptr.plain, Obj.static, g1, g2]
  · hside

theorem rangesFree_eq (np : ℕ) : rangesFreeH np =
    frees ((List.range np).flatMap (fun i => [mem (var .parRange) .parRangeRow i]) ++
      [var .parRange, var .parFix, var .parFixVal]) := by
  rw [rangesFreeH, frees_append, ← frees_forN]
  rfl

theorem seg_dnestCon {c : RunCfg} (hr : c.callCon.range = false) (ht : c.callCon.type = false)
    (hi : c.callCon.info = false) : Seg (baseSet c) 2 (dnestConH c) 0 := by
  have h1 : Grow (baseSet c) 2 3 [] (rangesNewH c.npCon ++ mallocs [var .fptrset] ++ (usePriorH c.npCon ++
      uses [var .fptrset] ++ dnestH c.callCon (usePriorH c.npCon) (usePriorH c.npCon)
    (useDataH c ++ uses [var .workspace, var .idxConPm]))) (rangesList c.npCon ++ [var .fptrset] ++ []) 0 := by
    refine Grow.append0 (Grow.append0 (grow_ranges _ (by simp)) (Grow.mallocs ?_ ?_ ?_))
      (Grow.seg (Seg.append0 (Seg.append0 (seg_usePrior ?_) (Seg.uses ?_))
        (seg_dnest hr ht hi (seg_usePrior ?_) (seg_usePrior ?_) (Seg.append0 (seg_useData ?_) (Seg.uses ?_)))))
    · hside
    · simp [rangesList, var, mem, rank, Obj.rank, Ptr.plain, Obj.static]
    · hside
    · intro p hp; right; simp_all
    · simp
    · intro p hp; right; simp_all
    · intro p hp; right; simp_all
    · exact Set.subset_union_left
    · simp [baseList]
  have h2 := Seg.of_grow (F := [var .fptrset] ++ ((List.range c.npCon).flatMap (fun i => [mem (var .parRange) .parRangeRow i]) ++
      [var .parRange, var .parFix, var .parFixVal])) h1 (by omega) ?_ ?_ ?_
  · rw [frees_append, ← rangesFree_eq] at h2
    rw [dnestConH]
    simp only [List.append_assoc] at h2 ⊢
    exact h2
  · simp only [List.nodup_append, List.forall_mem_append, forall_flat]
    refine ⟨?_, ⟨nodup_loop ?_ ?_, ?_⟩, ?_⟩ <;> simp [var, mem]
  · intro p
    simp only [rangesList, List.mem_append, List.mem_cons, List.not_mem_nil, or_false, or_assoc]
    exact Iff.of_eq (by ac_rfl)
  · simp only [List.pairwise_append, List.forall_mem_append, forall_flat]
    refine ⟨?_, ⟨pairwise_loop ?_ ?_, ?_⟩, ?_⟩ <;> simp [var, mem]

/-- Blocks of `argvNewH`. -/
def argvList (n : ℕ) : List Ptr :=
  [var .argv] ++ (List.range n).flatMap (fun i => [mem (var .argv) .argvStr i])

theorem grow_argv {R : Set Ptr} (n : ℕ) : Grow R 1 2 [] (argvNewH n) (argvList n) 0 := by
  refine Grow.append0 (Grow.mallocs (B := [var .argv]) ?_ ?_ ?_) (Grow.loop
    (f := fun i => [mem (var .argv) .argvStr i]) ?_ ?_ ?_ ?_) <;> hside

theorem argvFree_eq (n : ℕ) : argvFreeH n =
    frees ((List.range n).flatMap (fun i => [mem (var .argv) .argvStr i]) ++ [var .argv]) := by
  rw [argvFreeH, frees_append, ← frees_forN]
  rfl

theorem seg_mcCon {c : RunCfg} (hr : c.callCon.range = false) (ht : c.callCon.type = false)
    (hi : c.callCon.info = false) : Seg (baseSet c) 1 (mcConH c) 0 := by
  have h1 : Grow (baseSet c) 1 2 [] (argvNewH 9 ++ dnestConH c ++ mallocs [var .bestCon, var .bestStdCon] ++
      (whenC c.root (mallocs [var .postModel, var .postSample] ++
        uses [var .postModel, var .postSample, var .bestCon, var .bestStdCon] ++
        frees [var .postModel, var .postSample]) ++
      uses [var .varParam, var .varParamStd] ++
      whenC c.root (mallocs [var .tcon, var .fcon, var .fecon, var .yq] ++
    forN c.nset (fun i => uses [var .bestCon, var .idxConPm, mem (var .dataset) .conT i] ++
      (mallocs [var .PEmat1, var .PEmat2] ++
      uses [var .USmat, var .PEmat1, var .PEmat2, var .tcon, var .fcon, var .fecon, var .yq] ++
      frees [var .PEmat1, var .PEmat2])) ++
    frees [var .tcon, var .fcon, var .fecon, var .yq]))) (argvList 9 ++ [] ++ [var .bestCon, var .bestStdCon] ++ []) 0 := by
    refine Grow.append0 (Grow.append0 (Grow.append0 (grow_argv _) (Grow.seg ?_)) (Grow.mallocs ?_ ?_ ?_))
      (Grow.seg (Seg.append0 (Seg.append0 (Seg.when fun _ => ?_) (Seg.uses ?_)) (Seg.when fun _ => ?_)))
    · exact (seg_dnestCon hr ht hi).mono Set.subset_union_left le_rfl
    · hside
    · simp [argvList, var, mem, rank, Obj.rank, Ptr.plain, Obj.static]
    · hside
    · exact Seg.around (r' := 6) (A := [.postModel, .postSample]) (F := [.postModel, .postSample]) (by omega) (by simp)
        (by simp [Obj.rank, Obj.static]) (by simp) (by simp) (Seg.uses (by simp))
    · simp [baseList]
    · refine Seg.around (r' := 3) (A := [.tcon, .fcon, .fecon, .yq]) (F := [.tcon, .fcon, .fecon, .yq]) (by omega) (by simp)
        (by simp [Obj.rank, Obj.static]) (by simp) (by simp) (Seg.forN0 fun i hi => Seg.append0 (Seg.uses ?_) ?_)
      · simp [baseList, mem, var, hi]
      · exact Seg.around (r' := 6) (A := [.PEmat1, .PEmat2]) (F := [.PEmat1, .PEmat2]) (by omega) (by simp)
          (by simp [Obj.rank, Obj.static]) (by simp) (by simp) (Seg.uses (by simp [baseList]))
  have h2 := Seg.of_grow (F := [var .bestCon, var .bestStdCon] ++
    ((List.range 9).flatMap (fun i => [mem (var .argv) .argvStr i]) ++ [var .argv])) h1 (by omega) ?_ ?_ ?_
  · rw [frees_append, ← argvFree_eq] at h2
    rw [mcConH, postConH]
    simp only [List.append_assoc] at h2 ⊢
    exact h2
  · simp only [List.nodup_append, List.forall_mem_append, forall_flat]
    refine ⟨?_, ⟨nodup_loop ?_ ?_, ?_⟩, ?_⟩ <;> simp [var, mem]
  · intro p
    simp only [argvList, List.mem_append, List.mem_cons, List.not_mem_nil, or_false, or_assoc]
    exact Iff.of_eq (by ac_rfl)
  · simp only [List.pairwise_append, List.forall_mem_append, forall_flat]
    refine ⟨?_, ⟨pairwise_loop ?_ ?_, ?_⟩, ?_⟩ <;> simp [var, mem]

end Mica
