import Verif.Proof.HeapRun

/-! # Memory of the line stages and of the whole run -/

namespace Mica

theorem Grow.andSeg {R : Set Ptr} {r r' : ℕ} {A B : List Ptr} {P Q : List Cmd} (h : Grow R r r' A P B 0)
    (hQ : Seg (R ∪ {p | p ∈ A ++ B}) r' Q 0) : Grow R r r' A (P ++ Q) B 0 := by
  have := h.append0 (Grow.seg hQ)
  rwa [List.append_nil] at this

/-- Blocks of `lineInitH`. -/
def lineList (n : ℕ) (m l q : Bool) : List Ptr :=
  [var .idxLinePm] ++ (List.range n).flatMap (fun i => [mem (var .idxLinePm) .idxLineRow i]) ++
  [var .SmatLc, var .SmatLl] ++ (if m then [var .SmatLcBuf, var .SmatLlBuf] else []) ++
  (if l then [var .lagPrior] else []) ++ (if q then [var .respRatioPrior] else [])

/-- The blocks a line stage relies on. -/
abbrev lineSet (c : RunCfg) : Set Ptr :=
  {p | p ∈ baseList c} ∪ {p | p ∈ lineList c.nset (c.mode = .mmap) c.lagStr (c.mode = .pmap)}

theorem grow_line {R : Set Ptr} (c : RunCfg) (k : ℕ) (hR : var .widthPrior ∈ R) :
    Grow R 1 2 (argvList k) (lineInitH c) (lineList c.nset (c.mode = .mmap) c.lagStr (c.mode = .pmap)) 0 := by
  unfold lineInitH lineList
  generalize decide (c.mode = .mmap) = m
  generalize decide (c.mode = .pmap) = q
  generalize c.lagStr = l
  rw [mallocs_when, when_append, when_append]
  have el : whenC l [Cmd.malloc (var .lagPrior)] = mallocs (if l then [var .lagPrior] else []) := by
    cases l <;> rfl
  have eq : whenC q [Cmd.malloc (var .respRatioPrior)] = mallocs (if q then [var .respRatioPrior] else []) := by
    cases q <;> rfl
  rw [el, eq]
  refine Grow.append0 (Grow.append0 (Grow.append0 (Grow.append0 (Grow.append0 (Grow.mallocs (B := [var .idxLinePm]) ?_ ?_ ?_)
    (Grow.loop (f := fun i => [mem (var .idxLinePm) .idxLineRow i]) ?_ ?_ ?_ ?_)) (Grow.mallocs ?_ ?_ ?_))
    (Grow.mallocs ?_ ?_ ?_)) (Grow.andSeg (Grow.mallocs ?_ ?_ ?_) (Seg.when fun h => Seg.uses ?_)))
    (Grow.andSeg (Grow.mallocs ?_ ?_ ?_) (Seg.when fun h => Seg.uses ?_))
  · hside
  · simp [argvList, var, mem, rank, Obj.rank, Ptr.plain, Obj.static]
  · hside
  · hside
  · hside
  · simp [argvList, var, mem, rank, Obj.rank, Ptr.plain, Obj.static]
  · hside
  · hside
  · simp [argvList, var, mem, rank, Obj.rank, Ptr.plain, Obj.static]
  · hside
  · cases m <;> hside
  · cases m <;> simp [argvList, var, mem, rank, Obj.rank, Ptr.plain, Obj.static]
  · cases m <;> hside
  · cases l <;> hside
  · cases m <;> cases l <;> simp [argvList, var, mem, rank, Obj.rank, Ptr.plain, Obj.static]
  · cases l <;> hside
  · simp [h]
  · cases q <;> hside
  · cases m <;> cases l <;> cases q <;> simp [argvList, var, mem, rank, Obj.rank, Ptr.plain, Obj.static]
  · cases q <;> hside
  · simp [h, hR]

theorem lineEnd_eq (c : RunCfg) : lineEndH c =
    frees ((List.range c.nset).flatMap (fun i => [mem (var .idxLinePm) .idxLineRow i]) ++
      [var .idxLinePm, var .SmatLc, var .SmatLl] ++
      (if decide (c.mode = .mmap) then [var .SmatLcBuf, var .SmatLlBuf] else []) ++
      (if c.lagStr then [var .lagPrior] else []) ++
      (if decide (c.mode = .pmap) then [var .respRatioPrior] else [])) := by
  unfold lineEndH
  generalize decide (c.mode = .mmap) = m
  generalize decide (c.mode = .pmap) = q
  generalize c.lagStr = l
  simp only [frees_append, ← frees_forN]
  cases m <;> cases q <;> cases l <;> rfl

theorem seg_lineLike {c : RunCfg} {R : Set Ptr} {r : ℕ} (hR : lineSet c ⊆ R)
    (hm : c.mode = .pmap → var .modelTrans ∈ R) : Seg R r (lineLikeH c) 0 := by
  refine Seg.append0 (Seg.append0 (Seg.append0 (Seg.append0 (Seg.append0 (seg_useData ?_) (Seg.forN0 fun i hi => Seg.uses ?_))
    (Seg.uses ?_)) (Seg.when fun h => Seg.uses ?_)) (Seg.when fun h => Seg.uses ?_)) (Seg.when fun h => Seg.uses ?_)
  · exact Set.subset_union_left.trans hR
  · intro p hp
    refine hR (.inr ?_)
    simp only [List.mem_cons, List.not_mem_nil, or_false] at hp
    subst hp
    simp [lineList, mem, var, hi]
  · intro p hp
    refine hR ?_
    simp only [List.mem_cons, List.not_mem_nil, or_false] at hp
    rcases hp with rfl | rfl | rfl | rfl | rfl | rfl | rfl | rfl <;> simp [lineList, baseList]
  · intro p hp
    simp only [List.mem_cons, List.not_mem_nil, or_false] at hp
    subst hp
    exact hm (of_decide_eq_true h)
  · intro p hp
    refine hR ?_
    simp only [List.mem_cons, List.not_mem_nil, or_false] at hp
    rcases hp with rfl | rfl <;> simp [lineList, of_decide_eq_true h]
  · intro p hp
    refine hR ?_
    simp only [List.mem_cons, List.not_mem_nil, or_false] at hp
    rcases hp with rfl | rfl <;> simp [baseList, h]

theorem seg_dnestLine {c : RunCfg} {j : ℕ} (hr : (c.call j).range = false) (ht : (c.call j).type = false)
    (hi : (c.call j).info = false) : Seg (lineSet c) 2 (dnestLineH c j) 0 := by
  have h1 : Grow (lineSet c) 2 3 [] (mallocs [var .fptrset] ++ rangesNewH (c.npAll j) ++
      mallocs (if decide (c.mode = .pmap) then [var .modelTrans] else []) ++
      (uses [var .varParam, var .varParamStd, var .widthPrior] ++
      whenC c.lagStr (uses [var .lagPrior]) ++
      whenC (c.mode = .pmap) (uses [var .respRatioPrior]) ++
      forN c.nset (fun i => uses [mem (var .idxLinePm) .idxLineRow i]) ++
      usePriorH (c.npAll j) ++ uses [var .fptrset] ++
      whenC (!c.paraName) (dnestH (c.call j)
        (usePriorH (c.npAll j) ++ whenC (c.sorted j) ([.malloc (var .centers)] ++ uses [var .centers] ++
          [.free (var .centers)]))
        (usePriorH (c.npAll j)) (lineLikeH c))))
      ([var .fptrset] ++ rangesList (c.npAll j) ++ (if decide (c.mode = .pmap) then [var .modelTrans] else []) ++ []) 0 := by
    refine Grow.append0 (Grow.append0 (Grow.append0 (Grow.mallocs ?_ ?_ ?_) (grow_ranges _ ?_)) (Grow.mallocs ?_ ?_ ?_))
      (Grow.seg (Seg.append0 (Seg.append0 (Seg.append0 (Seg.append0 (Seg.append0 (Seg.append0 (Seg.uses ?_)
        (Seg.when fun h => Seg.uses ?_)) (Seg.when fun h => Seg.uses ?_)) (Seg.forN0 fun i hi => Seg.uses ?_))
        (seg_usePrior ?_)) (Seg.uses ?_))
        (Seg.when fun _ => seg_dnest hr ht hi (Seg.append0 (seg_usePrior ?_) (Seg.when fun _ => ?_))
          (seg_usePrior ?_) (seg_lineLike ?_ ?_))))
    · hside
    · hside
    · hside
    · hside
    · generalize decide (c.mode = .pmap) = q
      cases q <;> hside
    · generalize decide (c.mode = .pmap) = q
      cases q <;> simp [rangesList, var, mem, rank, Obj.rank, Ptr.plain, Obj.static]
    · generalize decide (c.mode = .pmap) = q
      cases q <;> hside
    · simp [baseList]
    · simp [lineList, h]
    · simp [lineList, of_decide_eq_true h]
    · simp [lineList, mem, var, hi]
    · intro p hp; right; simp_all
    · simp
    · intro p hp; right; simp_all
    · exact Seg.around (r' := 7) (A := [.centers]) (F := [.centers]) (by omega) (by simp)
        (by simp [Obj.rank, Obj.static]) (by simp) (by simp) (Seg.uses (by simp))
    · intro p hp; right; simp_all
    · exact Set.subset_union_left
    · intro h
      simp [h]
  have h2 := Seg.of_grow (F := [var .fptrset] ++ ((List.range (c.npAll j)).flatMap (fun i => [mem (var .parRange) .parRangeRow i]) ++
      [var .parRange, var .parFix, var .parFixVal]) ++ (if decide (c.mode = .pmap) then [var .modelTrans] else []))
    h1 (by omega) ?_ ?_ ?_
  · rw [frees_append, frees_append, ← rangesFree_eq, ← frees_when, ← mallocs_when] at h2
    rw [dnestLineH]
    simp only [List.append_assoc] at h2 ⊢
    exact h2
  · simp only [List.nodup_append, List.forall_mem_append, forall_flat]
    generalize decide (c.mode = .pmap) = q
    refine ⟨⟨?_, ⟨nodup_loop ?_ ?_, ?_⟩, ?_⟩, ?_⟩ <;> cases q <;> simp [var, mem]
  · intro p
    simp only [rangesList, List.mem_append, List.mem_cons, List.not_mem_nil, or_false, or_assoc]
    exact Iff.of_eq (by ac_rfl)
  · simp only [List.pairwise_append, List.forall_mem_append, forall_flat]
    generalize decide (c.mode = .pmap) = q
    refine ⟨⟨?_, ⟨pairwise_loop ?_ ?_, ?_⟩, ?_⟩, ?_⟩ <;> cases q <;> simp [var, mem]

theorem seg_postLine {R : Set Ptr} {r : ℕ} (hr : r ≤ 5) (c : RunCfg) : Seg R r (postLineH c) 0 := by
  refine Seg.when fun _ => ?_
  exact Seg.around (r' := 6) (A := [.bestLine, .bestStdLine, .postModel, .postSample])
    (F := [.postModel, .postSample, .bestLine, .bestStdLine]) (by omega) (by simp)
    (by simp [Obj.rank, Obj.static, hr]) (by simp) (by simp; grind) (Seg.uses (by simp))

end Mica
