import Verif.Proof.HeapRec

/-! # Memory of the decomposition and of a whole run -/

namespace Mica

/-- The blocks the decomposition does not release. -/
def decLost (n : ℕ) : List Ptr :=
  (List.range n).flatMap fun i => [mem (var .feallMax) .feallMaxRow i]

set_option maxHeartbeats 1000000 in
theorem seg_outDec {c : RunCfg} {j : ℕ} : Seg (lineSet c) 2 (outDecH c j) (decLost c.nset : Multiset Ptr) := by
  have h1 : Grow (lineSet c) 2 3 [] (mallocs (if c.root then [var .psAll] else []) ++ mallocs [var .psTask] ++
      (whenC c.root (uses [var .psAll]) ++ uses [var .psTask]) ++
      mallocs [var .nall, var .tall, var .fall, var .feall, var .feallMax, var .fallBest, var .fallStd,
        var .ntall] ++
      forN c.nset (fun i => mallocs [mem (var .nall) .nallRow i]) ++
      forN c.nset (fun i => mallocs [mem (var .tall) .tallRow i, mem (var .fall) .fallRow i,
        mem (var .feall) .feallRow i, mem (var .feallMax) .feallMaxRow i, mem (var .fallBest) .fallBestRow i,
        mem (var .fallStd) .fallStdRow i]) ++
      mallocs [var .yq, var .feallMaxBuf, var .fallBestBuf, var .fallStdBuf] ++
      forN c.nset (fun i => mallocs [mem (var .feallMaxBuf) .feallMaxBufRow i,
        mem (var .fallBestBuf) .fallBestBufRow i, mem (var .fallStdBuf) .fallStdBufRow i]) ++
      (useDataH c ++
      forN (c.low + j) (fun _ => forN (c.psTask j) fun _ => whenC c.root (uses [var .pbMica]) ++
        forN c.nset fun i =>
        mallocs ([.fqAll, .PEmat1, .PEmat2, .PEmat3, .PEmat4].map var) ++
          (uses ([.fqAll, .PEmat1, .PEmat2, .PEmat3, .PEmat4].map var) ++
          uses [var .USmat, var .workspace, mem (var .fall) .fallRow i,
          mem (var .fallBest) .fallBestRow i, mem (var .feallMax) .feallMaxRow i]) ++
          frees ([.PEmat1, .PEmat2, .PEmat3, .PEmat4, .fqAll].map var))))
      ((if c.root then [var .psAll] else []) ++ [var .psTask] ++ [] ++
        [var .nall, var .tall, var .fall, var .feall, var .feallMax, var .fallBest, var .fallStd,
        var .ntall] ++
        (List.range c.nset).flatMap (fun i => [mem (var .nall) .nallRow i]) ++
        (List.range c.nset).flatMap (fun i => [mem (var .tall) .tallRow i, mem (var .fall) .fallRow i,
        mem (var .feall) .feallRow i, mem (var .feallMax) .feallMaxRow i, mem (var .fallBest) .fallBestRow i,
        mem (var .fallStd) .fallStdRow i]) ++
        [var .yq, var .feallMaxBuf, var .fallBestBuf, var .fallStdBuf] ++
        (List.range c.nset).flatMap (fun i => [mem (var .feallMaxBuf) .feallMaxBufRow i,
        mem (var .fallBestBuf) .fallBestBufRow i, mem (var .fallStdBuf) .fallStdBufRow i]) ++ []) 0 := by
    refine Grow.append0 (Grow.append0 (Grow.append0 (Grow.append0 (Grow.append0 (Grow.append0 (Grow.append0
      (Grow.append0 (Grow.mallocs ?_ ?_ ?_) (Grow.mallocs ?_ ?_ ?_)) (Grow.seg (Seg.append0 (Seg.when fun h => Seg.uses ?_)
      (Seg.uses ?_)))) (Grow.mallocs ?_ ?_ ?_)) (Grow.loop ?_ ?_ ?_ ?_)) (Grow.loop ?_ ?_ ?_ ?_)) (Grow.mallocs ?_ ?_ ?_))
      (Grow.loop ?_ ?_ ?_ ?_)) (Grow.seg (Seg.append0 (seg_useData ?_) (Seg.forN0 fun _ _ => Seg.forN0 fun _ _ =>
        Seg.append0 (Seg.when fun h => Seg.uses ?_) (Seg.forN0 fun i hi => Seg.around (r' := 6) (by omega)
        (by simp) (by simp [Obj.rank, Obj.static]) (by simp) (by simp; grind)
        (Seg.append0 (Seg.uses ?_) (Seg.uses ?_))))))
    · cases c.root <;> hside
    · cases c.root <;> hside
    · cases c.root <;> hside
    · hside
    · cases c.root <;> hside
    · hside
    · simp [h]
    · simp
    · hside
    · cases c.root <;> hside
    · hside
    · hside
    · hside
    · cases c.root <;> hside
    · hside
    · hside
    · hside
    · cases c.root <;> hside
    · hside
    · hside
    · cases c.root <;> hside
    · hside
    · hside
    · hside
    · cases c.root <;> hside
    · hside
    · exact fun p hp => .inl (.inl hp)
    · simp [baseList, h]
    · intro p hp; exact .inr hp
    · simp [baseList, mem, var, hi]
  have h2 := Seg.of_grow_lossy (W := decLost c.nset) (q := var .feallMax) (F := [var .psTask] ++ (if c.root then [var .psAll] else []) ++
    (List.range c.nset).flatMap (fun i => [mem (var .tall) .tallRow i, mem (var .fall) .fallRow i,
    mem (var .feall) .feallRow i, mem (var .nall) .nallRow i,
    mem (var .fallBest) .fallBestRow i, mem (var .fallStd) .fallStdRow i,
    mem (var .feallMaxBuf) .feallMaxBufRow i, mem (var .fallBestBuf) .fallBestBufRow i,
    mem (var .fallStdBuf) .fallStdBufRow i]) ++ [var .tall, var .fall, var .feall])
    (G := [var .fallBest, var .fallStd, var .nall,
    var .ntall, var .yq, var .feallMaxBuf, var .fallBestBuf, var .fallStdBuf]) h1 (by omega) ?_ ?_ ?_ ?_ ?_ ?_ ?_
  · rw [frees_append, frees_append, frees_append, ← frees_forN, ← frees_when, ← mallocs_when] at h2
    rw [outDecH]
    simp only [List.append_assoc] at h2 ⊢
    exact h2
  · simp only [decLost, List.nodup_append, List.forall_mem_append, forall_flat]
    refine ⟨⟨⟨⟨⟨⟨?_, ?_, ?_⟩, nodup_loop ?_ ?_, ?_⟩, ?_⟩, ?_⟩, ?_⟩, nodup_loop ?_ ?_, ?_⟩ <;> cases c.root <;> simp [var, mem]
  · intro p
    simp only [decLost, List.mem_append, List.mem_flatMap, List.mem_cons, List.not_mem_nil, or_false, and_or_left, exists_or,
      or_assoc]
    exact Iff.of_eq (by ac_rfl)
  · simp only [decLost, forall_flat]
    simp [var, mem]
  · simp only [decLost, List.forall_mem_append, forall_flat]
    cases c.root <;> simp [var, mem]
  · simp only [decLost, List.forall_mem_append, forall_flat]
    cases c.root <;> simp [var, mem]
  · simp only [List.pairwise_append, List.forall_mem_append, forall_flat]
    refine ⟨⟨⟨⟨?_, ?_, ?_⟩, pairwise_loop ?_ ?_, ?_⟩, ?_⟩, ?_⟩ <;> cases c.root <;> simp [var, mem]
  · cases c.root <;> simp [var, mem]

theorem Seg.whenK {R : Set Ptr} {r : ℕ} {b : Bool} {P : List Cmd} {k : Multiset Ptr}
    (h : b = true → Seg R r P k) : Seg R r (whenC b P) (if b then k else 0) := by
  cases b with
  | false => exact Seg.nil
  | true => exact h rfl

/-- What the `j`-th stage loses. -/
def stageLost (c : RunCfg) (j : ℕ) : Multiset Ptr :=
  if !c.paraName && !c.postsample && decomposes c j then (decLost c.nset : Multiset Ptr) else 0

theorem seg_stage {c : RunCfg} {j : ℕ} (hr : (c.call j).range = false) (ht : (c.call j).type = false)
    (hi : (c.call j).info = false) : Seg (lineSet c) 2 (stageH c j) (stageLost c j) := by
  have h1 : Seg (lineSet c) 2 (uses [var .logzArr]) 0 := Seg.uses (by simp [baseList])
  have h2 := ((seg_dnestLine hr ht hi).append0 h1).append (Seg.whenK (b := !c.paraName && !c.postsample) fun _ =>
    (((seg_postLine (R := lineSet c) (r := 2) (by omega) c).append0 (seg_outRec (j := j))).append
      (Seg.whenK (b := decomposes c j) fun _ => seg_outDec (j := j))))
  unfold stageH stageLost
  revert h2
  cases !c.paraName && !c.postsample <;> cases decomposes c j <;> simp

/-- What the line stages lose. -/
def linesLost (c : RunCfg) : Multiset Ptr := ∑ j ∈ Finset.range (stages c), stageLost c j

theorem seg_mcLine {c : RunCfg} (hc : ∀ j, (c.call j).range = false ∧ (c.call j).type = false ∧
    (c.call j).info = false) : Seg (baseSet c) 1 (mcLineH c) (linesLost c) := by
  have h1 := ((grow_argv (R := baseSet c) 11).append0 (grow_line c 11 (by simp [baseList]))).append
    (Grow.seg (P := forN (stages c) (stageH c)) (k := linesLost c) (Seg.forN fun j _ =>
      (seg_stage (hc j).1 (hc j).2.1 (hc j).2.2).mono (by
        intro p hp
        rcases hp with hp | hp
        · exact .inl hp
        · right
          simp only [Set.mem_ofPred_eq] at hp ⊢
          simp [hp]) le_rfl))
  have h2 := Seg.of_grow (F := ((List.range c.nset).flatMap (fun i => [mem (var .idxLinePm) .idxLineRow i]) ++
      [var .idxLinePm, var .SmatLc, var .SmatLl] ++
      (if decide (c.mode = .mmap) then [var .SmatLcBuf, var .SmatLlBuf] else []) ++
      (if c.lagStr then [var .lagPrior] else []) ++
      (if decide (c.mode = .pmap) then [var .respRatioPrior] else [])) ++
      ((List.range 11).flatMap (fun i => [mem (var .argv) .argvStr i]) ++ [var .argv])) h1 (by omega) ?_ ?_ ?_
  · rw [frees_append, ← argvFree_eq, ← lineEnd_eq] at h2
    rw [mcLineH]
    simp only [List.append_assoc, zero_add] at h2 ⊢
    exact h2
  · generalize decide (c.mode = .mmap) = m
    generalize decide (c.mode = .pmap) = q
    generalize c.lagStr = l
    simp only [List.nodup_append, List.forall_mem_append, forall_flat]
    refine ⟨⟨⟨⟨⟨nodup_loop ?_ ?_, ?_⟩, ?_⟩, ?_⟩, ?_⟩, ⟨nodup_loop ?_ ?_, ?_⟩, ?_⟩ <;>
      cases m <;> cases q <;> cases l <;> simp [var, mem]
  · intro p
    simp only [argvList, lineList, List.mem_append, List.mem_cons, List.not_mem_nil, or_false, or_assoc]
    exact Iff.of_eq (by ac_rfl)
  · generalize decide (c.mode = .mmap) = m
    generalize decide (c.mode = .pmap) = q
    generalize c.lagStr = l
    simp only [List.pairwise_append, List.forall_mem_append, forall_flat]
    refine ⟨⟨⟨⟨⟨pairwise_loop ?_ ?_, ?_⟩, ?_⟩, ?_⟩, ?_⟩, ⟨pairwise_loop ?_ ?_, ?_⟩, ?_⟩ <;>
      cases m <;> cases q <;> cases l <;> simp [var, mem]

/-- What `free_memory` releases. -/
def freedList (c : RunCfg) : List Ptr :=
  (List.range c.nset).flatMap (fun i =>
    [mem (var .dataset) .conT i, mem (var .dataset) .conF i, mem (var .dataset) .conFe i] ++
    (List.range (c.nlset i)).flatMap (fun j => [mem (mem (var .dataset) .line i) .lineT j,
      mem (mem (var .dataset) .line i) .lineF j, mem (mem (var .dataset) .line i) .lineFe j]) ++
    [mem (var .dataset) .line i, mem (var .fluxMinmax) .fluxRow i]) ++
  [var .dataset, var .fluxMinmax] ++
  (List.range c.nset).flatMap (fun i => [mem (var .alldata) .allT i, mem (var .alldata) .allF i,
    mem (var .alldata) .allFe i]) ++
  [var .alldata] ++
  [var .PNmat, var .PSmat, var .PCmat, var .IPCmat, var .USmat, var .USmatT, var .ASmat,
    var .Tmat1, var .Tmat2, var .widthPrior, var .workspace, var .workspaceIpiv, var .workspaceInv,
    var .logzArr] ++
  (if c.gap then [var .gapCenter, var .gapWidth] else []) ++
  (if c.root then [var .pbMica] else [])

theorem freeMemory_eq (c : RunCfg) : freeMemoryH c = frees (freedList c) := by
  unfold freeMemoryH freedList
  simp only [frees_append, ← frees_forN, ← frees_when]
  rfl

/-- What exists at the end of a run. -/
def restList (c : RunCfg) : List Ptr :=
  [var .varParam, var .varParamStd, var .idxConPm] ++ (if c.root then [var .pardict] else [])

theorem mem_base_iff (c : RunCfg) (p : Ptr) : p ∈ baseList c ↔ p ∈ freedList c ∨ p ∈ restList c := by
  simp only [baseList, freedList, restList, List.mem_append, List.mem_flatMap, List.mem_cons, List.not_mem_nil,
    or_false, and_or_left, exists_or, or_assoc]
  exact Iff.of_eq (by ac_rfl)

theorem freed_nodup (c : RunCfg) : (freedList c).Nodup := by
  unfold freedList
  simp only [List.nodup_append, List.forall_mem_append, forall_flat]
  refine ⟨⟨⟨⟨⟨⟨nodup_loop ?_ ?_, ?_⟩, nodup_loop ?_ ?_, ?_⟩, ?_⟩, ?_⟩, ?_⟩, ?_⟩
  · intro i
    simp only [List.nodup_append, List.forall_mem_append, forall_flat]
    refine ⟨⟨?_, nodup_loop ?_ ?_, ?_⟩, ?_⟩ <;> simp [var, mem]
  · intro i j hij
    simp only [List.forall_mem_append, forall_flat]
    simp [var, mem, hij]
  all_goals cases c.root <;> cases c.gap <;> simp [var, mem]

theorem freed_order (c : RunCfg) : (freedList c).Pairwise fun p q => q.tail ≠ p := by
  unfold freedList
  simp only [List.pairwise_append, List.forall_mem_append, forall_flat]
  refine ⟨⟨⟨⟨⟨⟨pairwise_loop ?_ ?_, ?_⟩, pairwise_loop ?_ ?_, ?_⟩, ?_⟩, ?_⟩, ?_⟩, ?_⟩
  · intro i
    simp only [List.pairwise_append, List.forall_mem_append, forall_flat]
    refine ⟨⟨?_, pairwise_loop ?_ ?_, ?_⟩, ?_⟩ <;> simp [var, mem]
  · intro i j hij
    simp only [List.forall_mem_append, forall_flat]
    simp [var, mem]
    omega
  all_goals cases c.root <;> cases c.gap <;> simp [var, mem]

/-- A whole run. -/
theorem does_runAll (c : RunCfg) (h0 : c.callCon.range = false ∧ c.callCon.type = false ∧ c.callCon.info = false)
    (hc : ∀ j, (c.call j).range = false ∧ (c.call j).type = false ∧ (c.call j).info = false) :
    Does (runAllH c) ∅ (restList c).toFinset (if c.mode = .nmap then 0 else linesLost c) := by
  obtain ⟨d1, t1, b1, -⟩ := grow_base c ∅ (by simp) (by simp [Below]) (by simp [Tree]) ⟨by simp [Below], by simp⟩
  simp only [List.toFinset_nil, Finset.union_empty, Finset.empty_union, List.nil_append] at d1 t1 b1
  have hs : baseSet c ⊆ ↑(baseList c).toFinset := fun p hp => by simpa using hp
  have d2 := (Seg.when (b := (!c.postprc && !c.decomp && c.mode != .vmap) || c.mode == .nmap) fun _ =>
    seg_mcCon h0.1 h0.2.1 h0.2.2) _ hs t1 b1
  have d3 := (Seg.whenK (b := c.mode != .nmap) fun _ => seg_mcLine hc) _ hs t1 b1
  obtain ⟨d4, -⟩ := Does.frees t1 (freedList c) (freed_nodup c) (by
    intro p hp
    refine ⟨by simp [mem_base_iff, hp], fun q hq e => ?_⟩
    simp only [List.mem_toFinset, mem_base_iff] at hq
    rcases hq with hq | hq
    · exact hq
    · exfalso
      have : q.tail = [] := by
        revert hq
        simp only [restList, List.mem_append, List.mem_cons, List.not_mem_nil, or_false, List.mem_ite_nil_right]
        rintro ((rfl | rfl | rfl) | ⟨-, rfl⟩) <;> rfl
      have hpne := (t1 p (by simp [mem_base_iff, hp])).1
      exact hpne (e ▸ this)) (freed_order c)
  have e : (baseList c).toFinset \ (freedList c).toFinset = (restList c).toFinset := by
    ext p
    simp only [Finset.mem_sdiff, List.mem_toFinset, mem_base_iff]
    constructor
    · rintro ⟨h | h, h'⟩
      · exact absurd h h'
      · exact h
    · intro h
      refine ⟨.inr h, ?_⟩
      revert h
      simp only [restList, List.mem_append, List.mem_cons, List.not_mem_nil, or_false, List.mem_ite_nil_right]
      rintro ((rfl | rfl | rfl) | ⟨-, rfl⟩) <;> simp [freedList, var, mem]
  rw [e, ← freeMemory_eq] at d4
  have := ((d1.append d2).append d3).append d4
  have ek : (0 + 0 + (if c.mode != .nmap then linesLost c else 0) + 0 : Multiset Ptr) =
      if c.mode = .nmap then 0 else linesLost c := by
    by_cases h : c.mode = .nmap <;> simp [h]
  rw [ek] at this
  exact this

end Mica
