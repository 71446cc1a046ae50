import Verif.Proof.HeapLine

/-! # Memory of the reconstruction and of the decomposition -/

namespace Mica

set_option maxHeartbeats 1000000 in
theorem seg_outRec {c : RunCfg} {j : ℕ} : Seg (lineSet c) 2 (outRecH c j) 0 := by
  obtain ⟨pe, hpe⟩ : ∃ pe : List Obj, pe = (if c.mode = .vmap then [.PEmat1, .PEmat2, .PEmat3, .PEmat4]
    else [.PEmat1, .PEmat2]) := ⟨_, rfl⟩
  have hpe' : (if c.mode = .vmap then [var .PEmat1, var .PEmat2, var .PEmat3, var .PEmat4]
    else [var .PEmat1, var .PEmat2]) = pe.map var := by rw [hpe]; split_ifs <;> rfl
  have hpn : pe.Nodup := by rw [hpe]; split_ifs <;> simp
  have hpr : ∀ o ∈ pe, 3 ≤ o.rank ∧ o.rank < 6 ∧ o.static = false := by
    rw [hpe]; split_ifs <;> simp [Obj.rank, Obj.static]
  have h1 : Grow (lineSet c) 2 3 [] (mallocs (if c.root then [var .psAll] else []) ++ mallocs [var .psTask] ++
      (whenC c.root (uses [var .psAll, var .pbMica]) ++ uses [var .psTask]) ++
      mallocs [var .nall, var .tall, var .fall, var .feall, var .feallMax, var .fallBest, var .fallStd,
        var .ntall, var .yqBest, var .yqStd, var .yq] ++
      forN c.nset (fun i => mallocs [mem (var .nall) .nallRow i]) ++
      forN c.nset (fun i => mallocs [mem (var .tall) .tallRow i, mem (var .fall) .fallRow i,
        mem (var .feall) .feallRow i, mem (var .feallMax) .feallMaxRow i, mem (var .fallBest) .fallBestRow i,
        mem (var .fallStd) .fallStdRow i, mem (var .yqBest) .yqBestRow i, mem (var .yqStd) .yqStdRow i]) ++
      mallocs [var .feallMaxBuf, var .fallBestBuf, var .fallStdBuf, var .yqBestBuf, var .yqStdBuf] ++
      forN c.nset (fun i => mallocs [mem (var .feallMaxBuf) .feallMaxBufRow i,
        mem (var .fallBestBuf) .fallBestBufRow i, mem (var .fallStdBuf) .fallStdBufRow i,
        mem (var .yqBestBuf) .yqBestBufRow i, mem (var .yqStdBuf) .yqStdBufRow i]) ++
      (useDataH c ++
      forN (c.psTask j) (fun _ => uses [var .psTask] ++ forN c.nset fun i =>
        mallocs (pe.map var) ++ (uses (pe.map var) ++ uses [var .USmat, var .workspace, mem (var .fall) .fallRow i,
          mem (var .fallBest) .fallBestRow i]) ++ frees (pe.map var)) ++
      forN c.nset (fun i => uses [mem (var .fallBestBuf) .fallBestBufRow i,
        mem (var .fallStdBuf) .fallStdBufRow i, mem (var .feallMaxBuf) .feallMaxBufRow i])))
      ((if c.root then [var .psAll] else []) ++ [var .psTask] ++ [] ++
        [var .nall, var .tall, var .fall, var .feall, var .feallMax, var .fallBest, var .fallStd,
        var .ntall, var .yqBest, var .yqStd, var .yq] ++
        (List.range c.nset).flatMap (fun i => [mem (var .nall) .nallRow i]) ++
        (List.range c.nset).flatMap (fun i => [mem (var .tall) .tallRow i, mem (var .fall) .fallRow i,
        mem (var .feall) .feallRow i, mem (var .feallMax) .feallMaxRow i, mem (var .fallBest) .fallBestRow i,
        mem (var .fallStd) .fallStdRow i, mem (var .yqBest) .yqBestRow i, mem (var .yqStd) .yqStdRow i]) ++
        [var .feallMaxBuf, var .fallBestBuf, var .fallStdBuf, var .yqBestBuf, var .yqStdBuf] ++
        (List.range c.nset).flatMap (fun i => [mem (var .feallMaxBuf) .feallMaxBufRow i,
        mem (var .fallBestBuf) .fallBestBufRow i, mem (var .fallStdBuf) .fallStdBufRow i,
        mem (var .yqBestBuf) .yqBestBufRow i, mem (var .yqStdBuf) .yqStdBufRow i]) ++ []) 0 := by
    refine Grow.append0 (Grow.append0 (Grow.append0 (Grow.append0 (Grow.append0 (Grow.append0 (Grow.append0
      (Grow.append0 (Grow.mallocs ?_ ?_ ?_) (Grow.mallocs ?_ ?_ ?_)) (Grow.seg (Seg.append0 (Seg.when fun h => Seg.uses ?_)
      (Seg.uses ?_)))) (Grow.mallocs ?_ ?_ ?_)) (Grow.loop ?_ ?_ ?_ ?_)) (Grow.loop ?_ ?_ ?_ ?_)) (Grow.mallocs ?_ ?_ ?_))
      (Grow.loop ?_ ?_ ?_ ?_)) (Grow.seg (Seg.append0 (Seg.append0 (seg_useData ?_) (Seg.forN0 fun _ _ =>
        Seg.append0 (Seg.uses ?_) (Seg.forN0 fun i hi => Seg.around (r' := 6) (by omega) hpn hpr hpn (by simp)
        (Seg.append0 (Seg.uses ?_) (Seg.uses ?_))))) (Seg.forN0 fun i hi => Seg.uses ?_)))
    · cases c.root <;> hside
    · cases c.root <;> hside
    · cases c.root <;> hside
    · hside
    · cases c.root <;> hside
    · hside
    · simp [baseList, h]
    · simp
    · hside
    · cases c.root <;> hside
    · hside
    · hside
    · hside
    · cases c.root <;> hside
    · hside
    · hside
    · hside
    · cases c.root <;> hside
    · hside
    · hside
    · cases c.root <;> hside
    · hside
    · hside
    · hside
    · cases c.root <;> hside
    · hside
    · exact fun p hp => .inl (.inl hp)
    · simp
    · intro p hp; exact .inr hp
    · simp [baseList, mem, var, hi]
    · simp [mem, var, hi]
  have h2 := Seg.of_grow (F := [var .psTask] ++ (if c.root then [var .psAll] else []) ++
    (List.range c.nset).flatMap (fun i => [mem (var .tall) .tallRow i, mem (var .fall) .fallRow i,
    mem (var .feall) .feallRow i, mem (var .nall) .nallRow i, mem (var .feallMax) .feallMaxRow i,
    mem (var .fallBest) .fallBestRow i, mem (var .fallStd) .fallStdRow i,
    mem (var .yqBest) .yqBestRow i, mem (var .yqStd) .yqStdRow i,
    mem (var .feallMaxBuf) .feallMaxBufRow i, mem (var .fallBestBuf) .fallBestBufRow i,
    mem (var .fallStdBuf) .fallStdBufRow i, mem (var .yqBestBuf) .yqBestBufRow i,
    mem (var .yqStdBuf) .yqStdBufRow i]) ++
    [var .tall, var .fall, var .feall, var .feallMax, var .fallBest, var .fallStd, var .nall,
    var .ntall, var .yq, var .yqBest, var .yqStd, var .feallMaxBuf, var .fallBestBuf, var .fallStdBuf,
    var .yqBestBuf, var .yqStdBuf]) h1 (by omega) ?_ ?_ ?_
  · rw [frees_append, frees_append, frees_append, ← frees_forN, ← frees_when, ← mallocs_when] at h2
    rw [outRecH, hpe']
    simp only [List.append_assoc] at h2 ⊢
    exact h2
  · simp only [List.nodup_append, List.forall_mem_append, forall_flat]
    refine ⟨⟨⟨?_, ?_, ?_⟩, nodup_loop ?_ ?_, ?_⟩, ?_⟩ <;> cases c.root <;> simp [var, mem]
  · intro p
    simp only [List.mem_append, List.mem_flatMap, List.mem_cons, List.not_mem_nil, or_false, and_or_left, exists_or,
      or_assoc]
    exact Iff.of_eq (by ac_rfl)
  · simp only [List.pairwise_append, List.forall_mem_append, forall_flat]
    refine ⟨⟨⟨?_, ?_, ?_⟩, pairwise_loop ?_ ?_, ?_⟩, ?_⟩ <;> cases c.root <;> simp [var, mem]

/-- As `Seg.of_grow`, but `q` is released while the blocks `W` it leads to are not. -/
theorem Seg.of_grow_lossy {R : Set Ptr} {r r' : ℕ} {A F G W : List Ptr} {q : Ptr} {P : List Cmd}
    (h : Grow R r r' [] P A 0) (hr : r ≤ r') (hnd : (F ++ [q] ++ G ++ W).Nodup)
    (hF : ∀ p, p ∈ F ++ [q] ++ G ++ W ↔ p ∈ A)
    (hW : ∀ w ∈ W, w.tail = q) (hA1 : ∀ p ∈ A, p.tail = q → p ∈ W) (hA2 : ∀ p ∈ A, p.tail ∉ W)
    (ho : (F ++ G).Pairwise fun p q => q.tail ≠ p) (hq : q.tail ∉ F) :
    Seg R r (P ++ frees F ++ [.free q] ++ frees G) (W : Multiset Ptr) := by
  intro M a b c
  have e0 : M ∪ ([] : List Ptr).toFinset = M := by simp
  obtain ⟨h1, h2, -, hA⟩ := h M a c (by rwa [e0])
    ⟨by rw [e0]; exact fun p hp => (c p hp).trans_le hr, by simp⟩
  rw [e0] at h1
  simp only [List.nil_append] at h1 h2 hA
  simp only [List.nodup_append, List.mem_append, List.mem_cons, List.not_mem_nil, or_false] at hnd
  obtain ⟨⟨⟨nF, -, nFq⟩, nG, nFG⟩, nW, nFW⟩ := hnd
  have hAM : ∀ p ∈ A, p ∉ M := fun p hp hm => absurd (c p hm) (by have := hA p hp; omega)
  have hne : ∀ p ∈ A, p ≠ [] := fun p hp => (h2 p (by simp [hp])).1
  have key : ∀ p ∈ A, ∀ x ∈ M ∪ A.toFinset, x.tail = p → x ∈ A := by
    intro p hp x hx e
    rcases Finset.mem_union.1 hx with hx | hx
    · exfalso
      rcases (b x hx).2 with h0 | h0
      · exact hne p hp (e ▸ h0)
      · exact hAM p hp (e ▸ h0)
    · exact List.mem_toFinset.1 hx
  have hmem : ∀ p, p ∈ A ↔ (((p ∈ F ∨ p = q) ∨ p ∈ G) ∨ p ∈ W) := by
    intro p
    rw [← hF]
    simp only [List.mem_append, List.mem_cons, List.not_mem_nil, or_false]
  have hqA : q ∈ A := (hmem q).2 (.inl (.inl (.inr rfl)))
  rw [List.pairwise_append] at ho
  obtain ⟨h3, t3⟩ := Does.frees h2 F nF (by
    intro p hp
    have hpA : p ∈ A := (hmem p).2 (.inl (.inl (.inl hp)))
    refine ⟨by simp [hpA], fun x hx e => ?_⟩
    have hxA := key p hpA x hx e
    rcases (hmem x).1 hxA with ((h | h) | h) | h
    · exact h
    · subst h; exact absurd (e ▸ hp) hq
    · exact absurd e (ho.2.2 p hp x h)
    · exact absurd (e ▸ hW x h) (fun e' => nFq p hp q rfl e')) ho.1
  set L := (M ∪ A.toFinset) \ F.toFinset with hLdef
  have hLA : ∀ x, x ∈ L ↔ (x ∈ M ∨ x ∈ A) ∧ x ∉ F := by
    intro x
    simp [hLdef]
  have hqL : q ∈ L := (hLA q).2 ⟨.inr hqA, fun h => nFq q h q rfl rfl⟩
  have hdesc : ∀ x ∈ L, q <:+ x → x = q ∨ x ∈ W := by
    intro x
    induction x with
    | nil => intro hx hs; exact absurd (List.suffix_nil.1 hs) (hne q hqA)
    | cons y t ih =>
      intro hx hs
      rcases List.suffix_cons_iff.1 hs with e | e
      · exact .inl e.symm
      · have hxA : y :: t ∈ A := by
          rcases ((hLA _).1 hx).1 with hm | hm
          · exact absurd hs (b.not_suffix (hne q hqA) (hAM q hqA) _ hm)
          · exact hm
        rcases (t3 _ hx).2 with h0 | h0
        · simp only [List.tail_cons] at h0
          subst h0
          exact absurd (List.suffix_nil.1 e) (hne q hqA)
        · rcases ih h0 e with h' | h'
          · exact .inr (hA1 _ hxA (by simpa using h'))
          · exact absurd h' (by simpa using hA2 _ hxA)
  have hWq : ∀ w ∈ W, q <:+ w ∧ w ≠ q := by
    intro w hw
    have := hW w hw
    refine ⟨this ▸ List.tail_suffix w, ?_⟩
    rintro rfl
    have hl := congrArg List.length this
    have := hne _ hqA
    cases w <;> simp_all
  have hWL : ∀ w ∈ W, w ∈ L := fun w hw => (hLA w).2 ⟨.inr ((hmem w).2 (.inr hw)), fun hf =>
    nFW w (.inl (.inl hf)) w hw rfl⟩
  have h4 := Does.freeLossy hqL
  have eW : (L.filter fun x => q <:+ x ∧ x ≠ q).val = (W : Multiset Ptr) := by
    have : (L.filter fun x => q <:+ x ∧ x ≠ q) = W.toFinset := by
      ext x
      simp only [Finset.mem_filter, List.mem_toFinset]
      constructor
      · rintro ⟨g1, g2, g3⟩
        exact (hdesc x g1 g2).resolve_left g3
      · exact fun hx => ⟨hWL x hx, hWq x hx⟩
    rw [this, List.toFinset_val, nW.dedup]
  rw [eW] at h4
  set L' := L.filter fun x => ¬ q <:+ x with hL'def
  have hL' : ∀ x, x ∈ L' ↔ (x ∈ M ∨ x ∈ G) := by
    intro x
    simp only [hL'def, Finset.mem_filter]
    constructor
    · rintro ⟨g1, g2⟩
      obtain ⟨g3, g4⟩ := (hLA x).1 g1
      rcases g3 with g3 | g3
      · exact .inl g3
      · rcases (hmem x).1 g3 with ((h | h) | h) | h
        · exact absurd h g4
        · subst h; exact absurd List.suffix_rfl g2
        · exact .inr h
        · exact absurd (hWq x h).1 g2
    · rintro (hx | hx)
      · refine ⟨(hLA x).2 ⟨.inl hx, fun hf => hAM x ((hmem x).2 (.inl (.inl (.inl hf)))) hx⟩, ?_⟩
        exact b.not_suffix (hne q hqA) (hAM q hqA) x hx
      · have hxA : x ∈ A := (hmem x).2 (.inl (.inr hx))
        have hxL : x ∈ L := (hLA x).2 ⟨.inr hxA, fun hf => nFG x (.inl hf) x hx rfl⟩
        refine ⟨hxL, fun hs => ?_⟩
        rcases hdesc x hxL hs with h | h
        · exact nFG q (.inr rfl) x hx h.symm
        · exact nFW x (.inr hx) x h rfl
  have t4 : Tree L' := by
    intro x hx
    have hxL : x ∈ L := (Finset.mem_filter.1 hx).1
    refine ⟨(t3 x hxL).1, (t3 x hxL).2.imp_right fun ht => Finset.mem_filter.2 ⟨ht, fun hs => ?_⟩⟩
    exact (Finset.mem_filter.1 hx).2 (hs.trans (List.tail_suffix x))
  obtain ⟨h5, -⟩ := Does.frees t4 G nG (by
    intro p hp
    refine ⟨(hL' p).2 (.inr hp), fun x hx e => ?_⟩
    rcases (hL' x).1 hx with g | g
    · exfalso
      have hpA : p ∈ A := (hmem p).2 (.inl (.inr hp))
      rcases (b x g).2 with h0 | h0
      · exact hne p hpA (e ▸ h0)
      · exact hAM p hpA (e ▸ h0)
    · exact g) ho.2.1
  have e1 : L' \ G.toFinset = M := by
    ext x
    simp only [Finset.mem_sdiff, List.mem_toFinset, hL']
    constructor
    · rintro ⟨g | g, g'⟩
      · exact g
      · exact absurd g g'
    · exact fun hx => ⟨.inl hx, fun hg => hAM x ((hmem x).2 (.inl (.inr hg))) hx⟩
  rw [e1] at h5
  simpa using ((h1.append h3).append h4).append h5

end Mica
