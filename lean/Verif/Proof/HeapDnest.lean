import Verif.Proof.Heap

/-! # Memory of one call of the sampler -/

namespace Mica

/-- Blocks of the sampler that exist during `dnest_run`. -/
def dnestList (d : Call) : List Ptr :=
  [var .rng] ++ [var .particles] ++ (if d.root then [var .allAbove] else []) ++
  [var .above, var .logLikes, var .levelAssign, var .unaccepts, var .levels] ++
  (if d.root then [var .levelsCombine, var .copiesLevels] else []) ++
  (if d.limits then [var .limits] else []) ++ (if d.limits && d.root then [var .copiesLimits] else []) ++
  [var .perturbAccept] ++ (if d.root then [var .pb] else [])

theorem seg_options {R : Set Ptr} {r : ℕ} (hr : r ≤ 5) (d : Call) : Seg R r (optionsLoad d) 0 := by
  unfold optionsLoad
  refine Seg.when fun _ => ?_
  have h : Grow R r 6 [] (mallocs [var .optDict]) [var .optDict] 0 :=
    Grow.mallocs (by simp) (by simp [var, rank, Obj.rank, Ptr.plain, Obj.static, hr]) (by simp)
  exact Seg.of_grow (F := [var .optDict]) h (by omega) (by simp)
    (by simp) (by simp)

/-- Allocation, one segment, release of the same plain variables. -/
theorem Seg.around {R : Set Ptr} {r r' : ℕ} {A F : List Obj} {P : List Cmd} (hrr : r ≤ r')
    (hA : A.Nodup) (hr : ∀ o ∈ A, r ≤ o.rank ∧ o.rank < r' ∧ o.static = false)
    (hF : F.Nodup) (hFA : ∀ o, o ∈ F ↔ o ∈ A) (hP : Seg (R ∪ {p | p ∈ A.map var}) r' P 0) :
    Seg R r (mallocs (A.map var) ++ P ++ frees (F.map var)) 0 := by
  have hinj : Function.Injective var := by
    intro a b h
    simpa [var] using h
  have h1 : Grow R r r' [] (mallocs (A.map var)) (A.map var) 0 := by
    refine Grow.mallocs (hA.map hinj) ?_ ?_
    · intro p hp
      obtain ⟨o, ho, rfl⟩ := List.mem_map.1 hp
      obtain ⟨a, b, c⟩ := hr o ho
      exact ⟨by simp [var], by simpa [Ptr.plain, var] using c, by simpa using a, by simpa using b, by simp,
        .inl (by simp [var])⟩
    · rw [List.pairwise_map]
      exact List.pairwise_iff_getElem.2 fun i j _ _ _ => by simp [var]
  have h2 : Grow R r r' ([] ++ A.map var) P [] 0 := Grow.seg (by simpa using hP)
  refine Seg.of_grow (h1.append0 h2) hrr (hF.map hinj) ?_ ?_
  · intro p
    simp [hFA]
  · rw [List.pairwise_map]
    exact List.pairwise_iff_getElem.2 fun i j _ _ _ => by simp [var]

/-- Side conditions on lists of pointers. -/
macro "hside" : tactic =>
  `(tactic| simp [var, mem, rank, Obj.rank, Ptr.plain, Obj.static])

theorem grow_setup {R : Set Ptr} {d : Call} {init like : List Cmd} (hr : d.range = false)
    (ht : d.type = false) (hi : d.info = false) (h1 : Seg R 6 init 0) (h2 : Seg R 6 like 0) :
    Grow R 3 4 [] (setupH d init like) (dnestList d) 0 := by
  have e : setupH d init like = mallocs [var .rng] ++ whenC d.root (optionsLoad d) ++ mallocs [var .particles] ++
      mallocs (if d.root then [var .allAbove] else []) ++
      mallocs [var .above, var .logLikes, var .levelAssign, var .unaccepts, var .levels] ++
      mallocs (if d.root then [var .levelsCombine, var .copiesLevels] else []) ++
      mallocs (if d.limits then [var .limits] else []) ++
      mallocs (if d.limits && d.root then [var .copiesLimits] else []) ++
      mallocs [var .perturbAccept] ++
      (uses [var .levels] ++ whenC d.root (uses [var .levelsCombine]) ++
       forN d.particles (fun _ => uses [var .particles] ++ init ++ like ++ uses [var .logLikes, var .levelAssign])) ++
      mallocs (if d.root then [var .pb] else []) := by
    rw [setupH, hr, ht, hi]
    cases d.root <;> cases d.limits <;> simp [whenC, mallocs]
  rw [e]
  have hl : dnestList d = [var .rng] ++ [] ++ [var .particles] ++ (if d.root then [var .allAbove] else []) ++
      [var .above, var .logLikes, var .levelAssign, var .unaccepts, var .levels] ++
      (if d.root then [var .levelsCombine, var .copiesLevels] else []) ++
      (if d.limits then [var .limits] else []) ++ (if d.limits && d.root then [var .copiesLimits] else []) ++
      [var .perturbAccept] ++ [] ++ (if d.root then [var .pb] else []) := by
    simp only [dnestList, List.append_nil]
  rw [hl]
  refine Grow.append0 (Grow.append0 (Grow.append0 (Grow.append0 (Grow.append0 (Grow.append0 (Grow.append0
    (Grow.append0 (Grow.append0 (Grow.append0 ?_ ?_) ?_) ?_) ?_) ?_) ?_) ?_) ?_) ?_) ?_
  · exact Grow.mallocs (by hside) (by hside) (by hside)
  · exact Grow.seg (Seg.when fun _ => seg_options (by omega) d)
  · exact Grow.mallocs (by hside) (by hside) (by hside)
  · exact Grow.mallocs (by cases d.root <;> hside) (by cases d.root <;> hside) (by cases d.root <;> hside)
  · exact Grow.mallocs (by hside) (by cases d.root <;> hside) (by hside)
  · exact Grow.mallocs (by cases d.root <;> hside) (by cases d.root <;> hside) (by cases d.root <;> hside)
  · exact Grow.mallocs (by cases d.limits <;> hside) (by cases d.root <;> cases d.limits <;> hside)
      (by cases d.limits <;> hside)
  · exact Grow.mallocs (by cases d.root <;> cases d.limits <;> hside)
      (by cases d.root <;> cases d.limits <;> hside) (by cases d.root <;> cases d.limits <;> hside)
  · exact Grow.mallocs (by hside) (by cases d.root <;> cases d.limits <;> hside) (by hside)
  · refine Grow.seg (Seg.append0 (Seg.append0 (Seg.uses ?_) (Seg.when fun hr => Seg.uses ?_)) (Seg.forN0 fun _ _ =>
      Seg.append0 (Seg.append0 (Seg.append0 (Seg.uses ?_) ?_) ?_) (Seg.uses ?_)))
    · simp
    · simp [hr]
    · simp
    · exact h1.mono Set.subset_union_left (by omega)
    · exact h2.mono Set.subset_union_left (by omega)
    · simp
  · exact Grow.mallocs (by cases d.root <;> hside)
      (by cases d.root <;> cases d.limits <;> hside) (by cases d.root <;> hside)

theorem seg_restart {R : Set Ptr} {d : Call} {r : ℕ} (hr : r ≤ 5) :
    Seg (R ∪ {p | p ∈ dnestList d}) r (restartH d) 0 := by
  unfold restartH
  have h0 : ∀ {R' : Set Ptr}, R ∪ {p | p ∈ dnestList d} ⊆ R' → Seg R' 6 (uses [var .particles, var .logLikes, var .levelAssign, var .levels] ++
      whenC d.limits (uses [var .limits])) 0 := by
    intro R' h
    refine Seg.append0 (Seg.uses ?_) (Seg.when fun hl => Seg.uses ?_)
    · intro p hp
      refine h (.inr ?_)
      simp only [List.mem_cons, List.not_mem_nil, or_false] at hp
      rcases hp with rfl | rfl | rfl | rfl <;> simp [dnestList]
    · intro p hp
      refine h (.inr ?_)
      simp only [List.mem_cons, List.not_mem_nil, or_false] at hp
      subst hp
      simp [dnestList, hl]
  cases hroot : d.root with
  | false =>
    have := (h0 (R' := R ∪ {p | p ∈ dnestList d}) subset_rfl).mono subset_rfl (show r ≤ 6 by omega)
    simpa [whenC, hroot] using this
  | true =>
    have := Seg.around (R := R ∪ {p | p ∈ dnestList d}) (r := r) (r' := 6)
      (A := [.partsAll, .likesAll, .assignAll]) (F := [.partsAll, .likesAll, .assignAll])
      (P := (uses [var .particles, var .logLikes, var .levelAssign, var .levels] ++
        whenC d.limits (uses [var .limits])) ++ uses [var .partsAll, var .likesAll, var .assignAll])
      (by omega) (by simp) (by simp [Obj.rank, Obj.static, hr]) (by simp) (by simp)
      (Seg.append0 (h0 Set.subset_union_left) (Seg.uses (by simp)))
    simpa [whenC, List.append_assoc] using this

theorem seg_update {R : Set Ptr} {d : Call} {r : ℕ} {move like : List Cmd} (hr : r ≤ 5)
    (h1 : Seg R 6 move 0) (h2 : Seg R 6 like 0) :
    Seg (R ∪ {p | p ∈ dnestList d}) r (updateH d move like) 0 := by
  have := Seg.around (R := R ∪ {p | p ∈ dnestList d}) (r := r) (r' := 6)
      (A := [.proposal]) (F := [.proposal])
      (P := uses [var .particles, var .proposal] ++
  whenC d.limits (uses [var .limits]) ++ move ++ like ++
  uses [var .logLikes, var .levels, var .levelAssign, var .perturbAccept, var .unaccepts])
      (by omega) (by simp) (by simp [Obj.rank, Obj.static, hr]) (by simp) (by simp)
      (Seg.append0 (Seg.append0 (Seg.append0 (Seg.append0 (Seg.uses (by simp [dnestList]))
        (Seg.when fun hl => Seg.uses (by simp [dnestList, hl])))
        (h1.mono (fun p hp => .inl (.inl hp)) le_rfl)) (h2.mono (fun p hp => .inl (.inl hp)) le_rfl))
        (Seg.uses (by simp [dnestList])))
  have h3 : Seg (R ∪ {p | p ∈ dnestList d}) r (uses [var .above]) 0 := Seg.uses (by simp [dnestList])
  simpa [updateH, List.append_assoc, mallocs, frees] using this.append0 h3

theorem seg_post {R : Set Ptr} {r : ℕ} (hr : r ≤ 5) (d : Call) : Seg R r (postH d) 0 := by
  have h : Grow R r 6 []
      (mallocs [var .ppLevels] ++ forN d.levels (fun i => mallocs [mem (var .ppLevels) .ppLevelRow i]) ++
        mallocs [var .ppInfo] ++ forN d.samples (fun i => mallocs [mem (var .ppInfo) .ppInfoRow i]) ++
        mallocs [var .ppLogl, var .ppSandwich, var .ppPsample] ++
        mallocs [var .ppLogx, var .ppLogp, var .ppLogP, var .ppLogxThis, var .ppLoglThis] ++
        (forN d.levels (fun i => uses [mem (var .ppLevels) .ppLevelRow i]) ++
          forN d.samples (fun i => uses [mem (var .ppInfo) .ppInfoRow i]) ++
          uses [var .ppLogx, var .ppLogp, var .ppLogP, var .ppLogxThis, var .ppLoglThis, var .ppSandwich]) ++
        mallocs [var .ppRng, var .ppSample, var .ppSampleInfo, var .ppSampleIdx] ++
        uses [var .ppSample, var .ppSampleInfo, var .ppSampleIdx, var .ppPsample])
      ([var .ppLevels] ++ (List.range d.levels).flatMap (fun i => [mem (var .ppLevels) .ppLevelRow i]) ++
        [var .ppInfo] ++ (List.range d.samples).flatMap (fun i => [mem (var .ppInfo) .ppInfoRow i]) ++
        [var .ppLogl, var .ppSandwich, var .ppPsample] ++
        [var .ppLogx, var .ppLogp, var .ppLogP, var .ppLogxThis, var .ppLoglThis] ++ [] ++
        [var .ppRng, var .ppSample, var .ppSampleInfo, var .ppSampleIdx] ++ []) 0 := by
    refine Grow.append0 (Grow.append0 (Grow.append0 (Grow.append0 (Grow.append0 (Grow.append0 (Grow.append0
      (Grow.append0 ?_ ?_) ?_) ?_) ?_) ?_) ?_) ?_) ?_
    · exact Grow.mallocs (by hside) (by simp [var, rank, Obj.rank, Ptr.plain, Obj.static, hr]) (by hside)
    · refine Grow.loop (by hside) (by hside) ?_ (by hside)
      simp [var, mem, rank, Obj.rank, Ptr.plain, Obj.static, hr]
    · exact Grow.mallocs (by hside) (by simp [var, mem, rank, Obj.rank, Ptr.plain, Obj.static, hr]) (by hside)
    · refine Grow.loop (by hside) (by hside) ?_ (by hside)
      simp [var, mem, rank, Obj.rank, Ptr.plain, Obj.static, hr]
    · exact Grow.mallocs (by hside) (by simp [var, mem, rank, Obj.rank, Ptr.plain, Obj.static, hr]) (by hside)
    · exact Grow.mallocs (by hside) (by simp [var, mem, rank, Obj.rank, Ptr.plain, Obj.static, hr]) (by hside)
    · refine Grow.seg (Seg.append0 (Seg.append0 (Seg.forN0 fun i hi => Seg.uses ?_)
        (Seg.forN0 fun i hi => Seg.uses ?_)) (Seg.uses ?_))
      · simp [mem, var, hi]
      · simp [mem, var, hi]
      · simp
    · exact Grow.mallocs (by hside) (by simp [var, mem, rank, Obj.rank, Ptr.plain, Obj.static, hr]) (by hside)
    · exact Grow.seg (Seg.uses (by simp))
  have h2 := Seg.of_grow (F := (List.range d.levels).flatMap (fun i => [mem (var .ppLevels) .ppLevelRow i]) ++
    [var .ppLevels] ++ (List.range d.samples).flatMap (fun i => [mem (var .ppInfo) .ppInfoRow i]) ++ [var .ppInfo] ++
    [var .ppLogl, var .ppLogx, var .ppLogxThis, var .ppLogp, var .ppLogP, var .ppLoglThis,
    var .ppSandwich, var .ppPsample, var .ppSample, var .ppSampleInfo, var .ppSampleIdx, var .ppRng]) h
    (by omega) ?_ ?_ ?_
  · refine cast ?_ ((seg_options (R := R) hr d).append0 h2)
    simp only [postH, frees_append, ← frees_forN, List.append_assoc]
    rfl
  · simp only [List.nodup_append, List.forall_mem_append, forall_flat]
    refine ⟨⟨⟨⟨nodup_loop ?_ ?_, ?_⟩, nodup_loop ?_ ?_, ?_⟩, ?_⟩, ?_⟩ <;> simp [var, mem]
  · intro p
    simp only [List.mem_append, List.mem_cons, List.not_mem_nil, or_false, or_assoc]
    exact Iff.of_eq (by ac_rfl)
  · simp only [List.pairwise_append, List.forall_mem_append, forall_flat]
    refine ⟨⟨⟨⟨pairwise_loop ?_ ?_, ?_⟩, pairwise_loop ?_ ?_, ?_⟩, ?_⟩, ?_⟩ <;> simp [var, mem]

theorem seg_round {R : Set Ptr} {d : Call} {move like : List Cmd} {A : List Ptr} (rd : Round)
    (hA : d.root = true → var .bufSize ∈ A ∧ var .bufDispls ∈ A)
    (h1 : Seg R 6 move 0) (h2 : Seg R 6 like 0) :
    Seg (R ∪ {p | p ∈ dnestList d} ∪ {p | p ∈ A}) 5 (roundH d move like rd) 0 := by
  unfold roundH
  refine Seg.append0 (Seg.append0 (Seg.append0 (Seg.append0 (Seg.append0 (Seg.append0 (Seg.forN0 fun _ _ => ?_)
    (Seg.uses ?_)) (Seg.when fun hr => Seg.uses ?_)) (Seg.when fun hl => Seg.append0 (Seg.uses ?_)
    (Seg.when fun hr => Seg.uses ?_))) (Seg.when fun hr => Seg.append0 ?_ (Seg.when fun _ => ?_))) (Seg.when fun _ => ?_))
    (Seg.when fun _ => ?_)
  · exact (seg_update le_rfl h1 h2).mono Set.subset_union_left le_rfl
  · simp [dnestList]
  · simp [dnestList, hr, hA hr]
  · simp [dnestList, hl]
  · simp [dnestList, hl, hr]
  · exact Seg.around (r' := 6) (A := [.levelsOrig]) (F := [.levelsOrig]) (by omega) (by simp)
      (by simp [Obj.rank, Obj.static]) (by simp) (by simp) (Seg.uses (by simp [dnestList, hr]))
  · exact Seg.around (r' := 6) (A := [.good]) (F := [.good]) (by omega) (by simp)
      (by simp [Obj.rank, Obj.static]) (by simp) (by simp) (Seg.uses (by simp [dnestList]))
  · exact Seg.around (r' := 6) (A := [.message]) (F := [.message]) (by omega) (by simp)
      (by simp [Obj.rank, Obj.static]) (by simp) (by simp) (Seg.uses (by simp [dnestList]))
  · exact (seg_restart le_rfl).mono Set.subset_union_left le_rfl

theorem seg_run {R : Set Ptr} {d : Call} {move like : List Cmd}
    (h1 : Seg R 6 move 0) (h2 : Seg R 6 like 0) :
    Seg (R ∪ {p | p ∈ dnestList d}) 4 (runH d move like) 0 := by
  have h3 : ∀ A : List Ptr, (d.root = true → var .bufSize ∈ A ∧ var .bufDispls ∈ A) →
      Seg (R ∪ {p | p ∈ dnestList d} ∪ {p | p ∈ A}) 5
        (d.rounds.flatMap (roundH d move like) ++ whenC d.lastRestart (restartH d)) 0 := fun A hA =>
    Seg.append0 (Seg.flatMap fun rd _ => seg_round rd hA h1 h2) (Seg.when fun _ =>
      (seg_restart le_rfl).mono Set.subset_union_left le_rfl)
  cases hroot : d.root with
  | false =>
    have := (h3 [] (by simp [hroot])).mono (R' := R ∪ {p | p ∈ dnestList d}) (by simp) (show 4 ≤ 5 by omega)
    simpa [runH, whenC, hroot] using this
  | true =>
    have := Seg.around (R := R ∪ {p | p ∈ dnestList d}) (r := 4) (r' := 5) (A := [.bufSize, .bufDispls])
      (F := [.bufSize, .bufDispls]) (P := (d.rounds.flatMap (roundH d move like) ++ whenC d.lastRestart (restartH d)) ++
        uses [var .levelsCombine]) (by omega) (by simp) (by simp [Obj.rank, Obj.static]) (by simp) (by simp)
      (Seg.append0 (h3 _ (by simp)) (Seg.uses (by simp [dnestList, hroot])))
    simpa [runH, whenC, hroot, List.append_assoc] using this

theorem seg_dnest {R : Set Ptr} {d : Call} {init move like : List Cmd} (hr : d.range = false)
    (ht : d.type = false) (hi : d.info = false) (h0 : Seg R 6 init 0) (h1 : Seg R 6 move 0)
    (h2 : Seg R 6 like 0) : Seg R 3 (dnestH d init move like) 0 := by
  have h3 : Seg (R ∪ {p | p ∈ dnestList d}) 4 (if d.post then whenC d.root (postH d)
      else whenC d.restart (restartH d) ++ runH d move like ++ whenC d.root (postH d)) 0 := by
    split_ifs
    · exact Seg.when fun _ => seg_post (by omega) d
    · exact Seg.append0 (Seg.append0 (Seg.when fun _ => seg_restart (by omega)) (seg_run h1 h2))
        (Seg.when fun _ => seg_post (by omega) d)
  have h4 := (grow_setup hr ht hi h0 h2).append0 (Grow.seg (by simpa using h3))
  have h5 := Seg.of_grow2 (l := 0) (F := [var .particles, var .above, var .logLikes, var .levelAssign, var .levels,
    var .unaccepts] ++ (if d.limits then [var .limits] else []) ++
    (if d.root then [var .allAbove, var .levelsCombine, var .copiesLevels] else []) ++
    (if d.root && d.limits then [var .copiesLimits] else []) ++ [var .rng, var .perturbAccept])
    (N := [.free (var .dnRange)] ++ [.free (var .dnType)] ++ [.free (var .dnInfo)])
    (G := if d.root then [var .pb] else []) h4 (by omega) ?_ ?_ ?_ ?_
  · have e : finaliseH d = frees ([var .particles, var .above, var .logLikes, var .levelAssign, var .levels,
        var .unaccepts] ++ (if d.limits then [var .limits] else []) ++
        (if d.root then [var .allAbove, var .levelsCombine, var .copiesLevels] else []) ++
        (if d.root && d.limits then [var .copiesLimits] else []) ++ [var .rng, var .perturbAccept]) ++
        ([.free (var .dnRange)] ++ [.free (var .dnType)] ++ [.free (var .dnInfo)]) ++
        frees (if d.root then [var .pb] else []) := by
      rw [finaliseH]
      cases d.root <;> cases d.limits <;> rfl
    rw [dnestH, e]
    simp only [add_zero, List.append_assoc] at h5 ⊢
    exact h5
  · intro L hL
    have hn : ∀ o : Obj, o = .dnRange ∨ o = .dnType ∨ o = .dnInfo → var o ∉ L := by
      intro o ho h
      rcases ho with rfl | rfl | rfl <;> rcases hL _ h with h | h <;> revert h <;>
        cases d.root <;> cases d.limits <;> simp [dnestList, var, rank, Obj.rank]
    have := ((Does.freeNull (hn .dnRange (by simp)) rfl).append (Does.freeNull (hn .dnType (by simp)) rfl)).append
      (Does.freeNull (hn .dnInfo (by simp)) rfl)
    simpa using this
  · cases d.root <;> cases d.limits <;> simp [var]
  · intro p
    cases hr : d.root <;> cases hl : d.limits <;> simp [dnestList, hr, hl] <;> exact Iff.of_eq (by ac_rfl)
  · cases d.root <;> cases d.limits <;> simp [var]

end Mica
