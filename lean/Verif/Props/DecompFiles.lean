import Verif.Proof.DecompFiles

/-!
# C101: the files of the decomposition and the file of the reconstruction
-/

namespace Mica

open Matrix

/-! ### Calls -/

theorem part_err_con {e : KEnv} {S : SKernels} {k nq : ℕ} {d R : DSet} (hC : (d.cov e.kernels e.pm e.idxc e.idxl).PosDef)
    (f : Fin d.nall → ℝ) (i : Fin R.nall) (hi : (R.pt i).1 = 0) :
    ((partRecon e S k nq d R f).err i).getD 0 ≤ ((lineBlup e.kernels nq d R e.pm e.idxc e.idxl f).err i).getD 0 := by
  simp only [partRecon, lineBlup, blupRecon]
  refine cSqrt_getD_mono ?_ (pmSigma_pos _ _).le
  have h1 : partDiag S (R.pt i) = pointCov e.kernels (pmTau e.pm e.idxc) (R.pt i) (R.pt i) := by
    generalize R.pt i = x at hi
    obtain ⟨s, t⟩ := x
    simp only at hi
    subst hi
    simp [partDiag, pointCov]
  have h2 : (fun q : Fin d.nall => partPt e.kernels S.K e.taud (R.pt i) (d.pt q)) =
      fun q : Fin d.nall => pointCov e.kernels (pmTau e.pm e.idxc) (R.pt i) (d.pt q) := by
    funext q
    simp only [partPt, hi, if_true]
    rfl
  rw [h1, h2]
  exact (predErr_least hC _ _).2 ⟨_, rfl⟩

/-- What is asked of the data set and of the parameters `y` of a sample. -/
structure SampleOK (v : FileEnv) (y : List ℝ) : Prop where
  /-- the times of the continuum are in increasing order; strictly, if there are points without error -/
  con : ConOK v.d.con (pmSyserr (withSample v.e y).pm v.e.idxc v.d.con.em)
  /-- the covariance of the data is positive definite -/
  pd : (setCov (withSample v.e y).kernels (withSample v.e y).pm v.e.idxc v.e.idxl v.d).PosDef
  /-- widths are outside the bands around the damping timescale, unless the mode is the one for mixtures -/
  far : v.mix = false → (withSample v.e y).FarDec v.tf v.d.line.length

theorem SampleOK.cov {v : FileEnv} {y : List ℝ} (h : SampleOK v y) :
    (v.d.cov (withSample v.e y).kernels (withSample v.e y).pm v.e.idxc v.e.idxl).PosDef := by
  have hs2 : 0 < pmSigma (withSample v.e y).pm v.e.idxc ^ 2 := by
    have := pmSigma_pos (withSample v.e y).pm v.e.idxc; positivity
  have := h.pd.smul (inv_pos.2 hs2)
  rwa [show setCov (withSample v.e y).kernels (withSample v.e y).pm v.e.idxc v.e.idxl v.d =
    pmSigma (withSample v.e y).pm v.e.idxc ^ 2 • v.d.cov (withSample v.e y).kernels (withSample v.e y).pm v.e.idxc v.e.idxl
    from rfl, smul_smul, inv_mul_cancel₀ hs2.ne', one_smul] at this

/-- The functions of a component. -/
noncomputable def compS (v : FileEnv) (y : List ℝ) (k : ℕ) : SKernels :=
  if v.mix then (withSample v.e y).singleMix v.tf k else (withSample v.e y).single v.tf k

/-- What is computed for the reconstruction and for component `k`. -/
noncomputable def wholeOf (v : FileEnv) (R : DSet) (y : List ℝ) : Recon (v.nq * (1 + v.d.line.length)) R.nall :=
  lineBlup (withSample v.e y).kernels v.nq v.d R (withSample v.e y).pm v.e.idxc v.e.idxl fun i => v.d.fall i

noncomputable def partOfSet (v : FileEnv) (R : DSet) (k : ℕ) (y : List ℝ) : Recon (v.nq * (1 + v.d.line.length)) R.nall :=
  partRecon (withSample v.e y) (compS v y k) k v.nq v.d R fun i => v.d.fall i

theorem recCall_ok {v : FileEnv} {R : DSet} {y : List ℝ} (h : SampleOK v y) (hL : ∀ a ∈ v.d.series, EnoughTimes a v.nq)
    (hne : v.d.line ≠ []) (ws : WorkMem) : recCall v.e v.nq v.d R ws y = .ok (wholeOf v R y) := by
  unfold recCall
  rw [lineRecs_eq _ _ _ _ _ _ _ _ h.con h.cov hL hne]
  rfl

theorem decCall_ok {v : FileEnv} {R : DSet} {y : List ℝ} {k : ℕ} (h : SampleOK v y) (hL : ∀ a ∈ v.d.series, EnoughTimes a v.nq)
    (ws : WorkMem) : decCall v.mix v.e v.tf k v.nq v.d R ws y = .ok (partOfSet v R k y) := by
  unfold decCall partOfSet compS
  cases hm : v.mix with
  | true =>
    simp only [if_true]
    exact decompMix_eq (withSample v.e y) v.tf k v.nq v.d R _ h.cov hL _ _ _
  | false =>
    simp only [Bool.false_eq_true, if_false]
    exact decompLine_eq (withSample v.e y) v.tf k v.nq v.d R _ h.cov hL _ _ _

theorem parts_sum {v : FileEnv} {R : DSet} {y : List ℝ} (h : SampleOK v y) (ht : v.mix = false → ∀ k < v.e.ng, v.e.typ k = v.tf)
    (hng : 0 < v.e.ng) (hR : R.line.length ≤ v.d.line.length) :
    (∀ i : Fin R.nall, (R.pt i).1 = 0 → ∀ k, (partOfSet v R k y).val i = (wholeOf v R y).val i) ∧
    ∀ i : Fin R.nall, (R.pt i).1 ≠ 0 → ∑ k ∈ Finset.range v.e.ng, (partOfSet v R k y).val i =
      (wholeOf v R y).val i - (if v.e.lin then trendAt v.nq _ (R.pt i) ⬝ᵥ (wholeOf v R y).coef else 0) := by
  have hS : Splits (withSample v.e y) (fun k => compS v y k) v.d.line.length := by
    unfold compS
    cases hm : v.mix with
    | true => simp only [if_true]; exact mix_splits _ _ _
    | false => simp only [Bool.false_eq_true, if_false]; exact single_splits (h.far hm) (ht hm)
  exact (partRecon_sum (e := withSample v.e y) (nq := v.nq) hS hng hR h.cov _).2

/-! ### The files -/

theorem lcEndsAll_ok {l : List LC} (h : ∀ a ∈ l, a.n ≠ 0) : lcEndsAll l = .ok (l.map fun a => (a.t 0, a.t (a.n - 1))) := by
  induction l with
  | nil => rfl
  | cons a l ih =>
    rw [lcEndsAll, lcEnds, if_neg (h a (by simp)), Res.ok_bind, ih fun b hb => h b (by simp [hb]), Res.ok_bind]
    rfl

/-- First and last time of all light curves of a set. -/
noncomputable def spanAll (d : DSet) : ℝ × ℝ :=
  tBegEnd (d.con.t 0, d.con.t (d.con.n - 1)) (d.line.map fun a => (a.t 0, a.t (a.n - 1)))

theorem recWin_ok {d : DSet} (h : ∀ a ∈ d.series, a.n ≠ 0) (lo up : ℝ) : recWin lo up d = .ok (recWindow lo up (spanAll d)) := by
  rw [recWin, lcEnds, if_neg (h d.con (by simp [DSet.series])), Res.ok_bind,
    lcEndsAll_ok fun a ha => h a (by simp [DSet.series, ha]), Res.ok_bind]
  rfl

theorem decWin_ok {d : DSet} (h : ∀ a ∈ d.series, a.n ≠ 0) : decWin d = .ok (recWindow 0 0 (spanAll d)) := by
  rw [decWin, lcEnds, if_neg (h d.con (by simp [DSet.series])), Res.ok_bind,
    lcEndsAll_ok fun a ha => h a (by simp [DSet.series, ha]), Res.ok_bind]
  simp [recWindow, spanAll]

/-- The nodes of a window. -/
noncomputable def nodeAt (v : FileEnv) (w : ℝ × ℝ) : LC where
  n := numNodes v.d.con.n v.ndRec
  t j := (w.2 - w.1) / (numNodes v.d.con.n v.ndRec - 1) * j + w.1
  f _ := 0
  fe _ := 0
  em := 0

noncomputable def nodesOf (v : FileEnv) (w : ℝ × ℝ) : DSet := ⟨nodeAt v w, v.d.line.map fun _ => nodeAt v w⟩

theorem nodeSet_ok {v : FileEnv} (h : numNodes v.d.con.n v.ndRec ≠ 1) (w : ℝ × ℝ) : nodeSet w v.ndRec v.d = .ok (nodesOf v w) := by
  rw [nodeSet, nodeCurve, if_neg h, Res.ok_bind]
  rfl

theorem nodesOf_series (v : FileEnv) (w : ℝ × ℝ) : (nodesOf v w).series = List.replicate (1 + v.d.line.length) (nodeAt v w) := by
  simp only [nodesOf, DSet.series, List.map_const', Nat.add_comm 1, List.replicate_succ]

theorem nodesOf_lt {v : FileEnv} {w : ℝ × ℝ} {s j : ℕ} (hs : s < 1 + v.d.line.length) (hj : j < numNodes v.d.con.n v.ndRec) :
    s * numNodes v.d.con.n v.ndRec + j < (nodesOf v w).nall := by
  rw [DSet.nall, nodesOf_series, totalN_replicate]
  calc s * numNodes v.d.con.n v.ndRec + j < (s + 1) * numNodes v.d.con.n v.ndRec := by rw [Nat.add_mul]; omega
    _ ≤ _ := Nat.mul_le_mul_right _ (by omega)

theorem nodesOf_pt {v : FileEnv} {w : ℝ × ℝ} {s j : ℕ} (hs : s < 1 + v.d.line.length) (hj : j < numNodes v.d.con.n v.ndRec) :
    (nodesOf v w).pt (s * numNodes v.d.con.n v.ndRec + j) = (s, (nodeAt v w).t j) :=
  pt_replicate (nodesOf_series v w) hs hj

theorem table_congr {a b : ℕ} {f g : ℕ → ℕ → Row} (h : ∀ s < a, ∀ j < b, f s j = g s j) : table a b f = table a b g :=
  List.map_congr_left fun s hs => List.map_congr_left fun j hj => h s (List.mem_range.1 hs) j (List.mem_range.1 hj)

/-- Entry of a node in a file whose values come from `r`. -/
noncomputable def fileEntry (v : FileEnv) (w : ℝ × ℝ) (s : List (List ℝ))
    (r : List ℝ → Recon (v.nq * (1 + v.d.line.length)) (nodesOf v w).nall) (i j : ℕ) : Row :=
  if h : i * numNodes v.d.con.n v.ndRec + j < (nodesOf v w).nall then
    ((nodeAt v w).t j, (accOut s.length (accTask (nodeOf r ⟨_, h⟩) s)).1 * v.scale i,
      (accOut s.length (accTask (nodeOf r ⟨_, h⟩) s)).2 * v.scale i)
  else (0, 0, 0)

theorem fileRows_entry {v : FileEnv} {w : ℝ × ℝ} {s : List (List ℝ)}
    {r : List ℝ → Recon (v.nq * (1 + v.d.line.length)) (nodesOf v w).nall} {a : Accs}
    (ha : ∀ p : Fin (nodesOf v w).nall, a.node p = accTask (nodeOf r p) s) :
    fileRows v.scale (fun p => accOut s.length (a.node p)) (nodesOf v w).series 0 0 =
      table (1 + v.d.line.length) (numNodes v.d.con.n v.ndRec) (fileEntry v w s r) := by
  rw [nodesOf_series, fileRows_replicate]
  refine table_congr fun i hi j hj => ?_
  have h := nodesOf_lt (w := w) hi hj
  have := ha ⟨_, h⟩
  simp only at this
  simp only [fileEntry, h, dif_pos, zero_add]
  rw [← this]
  rfl

/-- What is asked of a run. -/
structure FilesOK (v : FileEnv) (s : List (List ℝ)) : Prop where
  len : ∀ x ∈ s, x.length = v.np
  ne : s ≠ []
  tasks : 0 < v.T
  comps : 0 < v.e.ng
  types : v.mix = false → ∀ k < v.e.ng, v.e.typ k = v.tf
  nodes : numNodes v.d.con.n v.ndRec ≠ 1
  lines : v.d.line ≠ []
  points : ∀ a ∈ v.d.series, a.n ≠ 0
  times : ∀ a ∈ v.d.series, EnoughTimes a v.nq
  sample : ∀ x ∈ s, SampleOK v (prepare v.pmap v.nv v.nl v.e.ng x)

theorem transformRatioInplace_length (nv nl ng : ℕ) (x : List ℝ) : (transformRatioInplace nv nl ng x).length = x.length := by
  unfold transformRatioInplace
  generalize ratioPairs nv nl ng = l
  induction l generalizing x with
  | nil => rfl
  | cons p l ih => rw [List.foldl_cons, ih]; simp [addAt]

theorem prepare_length (pmap : Bool) (nv nl ng : ℕ) (x : List ℝ) : (prepare pmap nv nl ng x).length = x.length := by
  unfold prepare
  split
  · exact transformRatioInplace_length ..
  · rfl

theorem trendRows_congr {scale : ℕ → ℝ} {f g : ℕ → ℝ × ℝ} {nq nl : ℕ} (h : ∀ c < nq * (1 + nl), f c = g c) :
    trendRows scale f nq nl = trendRows scale g nq nl := by
  have key : ∀ (j k : ℕ), j < 1 + nl → k < nq → f (j * nq + k) = g (j * nq + k) := fun j k hj hk => h _ (by
    calc j * nq + k < (j + 1) * nq := by rw [Nat.add_mul]; omega
      _ ≤ (1 + nl) * nq := Nat.mul_le_mul_right _ (by omega)
      _ = nq * (1 + nl) := Nat.mul_comm _ _)
  unfold trendRows
  congr 1
  · refine List.map_congr_left fun k hk => ?_
    have := key 0 k (by omega) (List.mem_range.1 hk)
    simp only [zero_mul, zero_add] at this
    rw [this]
  · refine List.flatMap_congr fun j hj => List.map_congr_left fun k hk => ?_
    have := key (1 + j) k (by have := List.mem_range.1 hj; omega) (List.mem_range.1 hk)
    rw [this]

/-- Mean and standard deviation of the coefficients of the trends. -/
noncomputable def trendOut (v : FileEnv) {m : ℕ} (s : List (List ℝ)) (r : List ℝ → Recon (v.nq * (1 + v.d.line.length)) m)
    (c : ℕ) : ℝ × ℝ :=
  if h : c < v.nq * (1 + v.d.line.length) then
    yqOut s.length ((s.map fun x => (r x).coef ⟨c, h⟩).sum, (s.map fun x => (r x).coef ⟨c, h⟩ * (r x).coef ⟨c, h⟩).sum)
  else (0, 0)

/-- The reconstruction of a run. -/
theorem recFile_ok {v : FileEnv} {s : List (List ℝ)} (h : FilesOK v s) (ws : List ℝ → WorkMem) (mem : ℕ → Accs) :
    recFile v ws mem s.flatten s.length =
      .ok (table (1 + v.d.line.length) (numNodes v.d.con.n v.ndRec) (fileEntry v (recWindow v.lowExt v.uppExt (spanAll v.d)) s
            fun x => wholeOf v _ (prepare v.pmap v.nv v.nl v.e.ng x)),
          trendRows v.scale (trendOut v s fun x => wholeOf v (nodesOf v (recWindow v.lowExt v.uppExt (spanAll v.d)))
            (prepare v.pmap v.nv v.nl v.e.ng x)) v.nq v.d.line.length) := by
  set w := recWindow v.lowExt v.uppExt (spanAll v.d) with hw
  obtain ⟨l, a, h1, h2, h3, h4⟩ := driver_ok
    (call := fun x => recCall v.e v.nq v.d (nodesOf v w) (ws x) (prepare v.pmap v.nv v.nl v.e.ng x))
    (r := fun x => wholeOf v (nodesOf v w) (prepare v.pmap v.nv v.nl v.e.ng x)) h.len
    (fun x hx => recCall_ok (h.sample x hx) h.times h.lines _) mem h.tasks
  rw [recFile, recWin_ok h.points, Res.ok_bind, nodeSet_ok h.nodes, Res.ok_bind, ← hw, h1, Res.ok_bind, h2, Res.ok_bind,
    fileRows_entry h3]
  congr 2
  refine trendRows_congr fun c hc => ?_
  rw [trendOut, dif_pos hc, ← h4 ⟨c, hc⟩]

theorem prepareAll_eq {v : FileEnv} {s : List (List ℝ)} (h : ∀ x ∈ s, x.length = v.np) :
    prepareAll v s.flatten s.length = (s.map (prepare v.pmap v.nv v.nl v.e.ng)).flatten := by
  rw [prepareAll, taskSamples_flatten h]

theorem nodeOf_map {q m : ℕ} (r : List ℝ → Recon q m) (p : Fin m) (g : List ℝ → List ℝ) (s : List (List ℝ)) :
    accTask (nodeOf r p) (s.map g) = accTask (nodeOf (fun x => r (g x)) p) s := by
  unfold accTask
  rw [List.foldl_map]
  rfl

theorem compLoop_ok {v : FileEnv} {s : List (List ℝ)} (h : FilesOK v s) (ws : ℕ → List ℝ → WorkMem) (w : ℝ × ℝ) (ks : List ℕ)
    (mem : ℕ → Accs) :
    compLoop v ws (nodesOf v w) (s.map (prepare v.pmap v.nv v.nl v.e.ng)).flatten s.length ks mem =
      .ok (ks.map fun k => table (1 + v.d.line.length) (numNodes v.d.con.n v.ndRec) (fileEntry v w s
        fun x => partOfSet v _ k (prepare v.pmap v.nv v.nl v.e.ng x))) := by
  induction ks generalizing mem with
  | nil => rfl
  | cons k ks ih =>
    obtain ⟨l, a, h1, h2, h3, -⟩ := driver_ok (s := s.map (prepare v.pmap v.nv v.nl v.e.ng)) (np := v.np) (T := v.T)
      (call := fun x => decCall v.mix v.e v.tf k v.nq v.d (nodesOf v w) (ws k x) x)
      (r := fun x => partOfSet v (nodesOf v w) k x)
      (by
        intro y hy
        obtain ⟨x, hx, rfl⟩ := List.mem_map.1 hy
        rw [prepare_length, h.len x hx])
      (by
        intro y hy
        obtain ⟨x, hx, rfl⟩ := List.mem_map.1 hy
        exact decCall_ok (h.sample x hx) h.times _) mem h.tasks
    rw [List.length_map] at h1
    have h3' : ∀ p : Fin (nodesOf v w).nall, a.node p =
        accTask (nodeOf (fun x => partOfSet v (nodesOf v w) k (prepare v.pmap v.nv v.nl v.e.ng x)) p) s := by
      intro p; rw [h3, nodeOf_map]
    rw [compLoop, h1, Res.ok_bind, h2, Res.ok_bind, ih, Res.ok_bind, fileRows_entry h3']
    rfl

theorem decFiles_ok {v : FileEnv} {s : List (List ℝ)} (h : FilesOK v s) (ws : ℕ → List ℝ → WorkMem) (mem : ℕ → Accs) :
    decFiles v ws mem s.flatten s.length =
      .ok ((List.range v.e.ng).map fun k => table (1 + v.d.line.length) (numNodes v.d.con.n v.ndRec)
        (fileEntry v (recWindow 0 0 (spanAll v.d)) s fun x => partOfSet v _ k (prepare v.pmap v.nv v.nl v.e.ng x))) := by
  rw [decFiles, decWin_ok h.points, Res.ok_bind, nodeSet_ok h.nodes, Res.ok_bind, prepareAll_eq h.len, compLoop_ok h]

theorem fileEntry_sum {v : FileEnv} {w : ℝ × ℝ} {s : List (List ℝ)}
    (r : List ℝ → Recon (v.nq * (1 + v.d.line.length)) (nodesOf v w).nall) {i j : ℕ}
    (hi : i < 1 + v.d.line.length) (hj : j < numNodes v.d.con.n v.ndRec) :
    (fileEntry v w s r i j).1 = (nodeAt v w).t j ∧
      (fileEntry v w s r i j).2.1 = (s.map fun x => (r x).val ⟨_, nodesOf_lt hi hj⟩).sum / s.length * v.scale i := by
  have h := nodesOf_lt (w := w) hi hj
  simp only [fileEntry, h, dif_pos, accOut, accTask_best, nodeOf, and_self]

theorem sum_map_sub_aux (s : List (List ℝ)) (f g : List ℝ → ℝ) :
    (s.map fun x => f x - g x).sum = (s.map f).sum - (s.map g).sum := by
  induction s with
  | nil => simp
  | cons x s ih => simp only [List.map_cons, List.sum_cons, ih]; ring

theorem sum_map_dot {m : ℕ} (s : List (List ℝ)) (u : Fin m → ℝ) (g : List ℝ → Fin m → ℝ) :
    (s.map fun x => u ⬝ᵥ g x).sum = u ⬝ᵥ fun c => (s.map fun x => g x c).sum := by
  induction s with
  | nil => simp [dotProduct]
  | cons x s ih =>
    simp only [List.map_cons, List.sum_cons, ih]
    rw [← dotProduct_add]; rfl

theorem sum_map_swap (s : List (List ℝ)) (n : ℕ) (f : ℕ → List ℝ → ℝ) :
    ∑ k ∈ Finset.range n, (s.map (f k)).sum = (s.map fun x => ∑ k ∈ Finset.range n, f k x).sum := by
  induction s with
  | nil => simp
  | cons x s ih => simp only [List.map_cons, List.sum_cons, Finset.sum_add_distrib, ih]

/-- **C101** (partial: `TimeRecLowExt` and `TimeRecUppExt` are zero, see `C101_window`; widths outside the bands unless
mixtures are used; the set has lines).  The file of every component has the same times as the reconstruction; the
continuum in it is the reconstructed one, with an uncertainty that is not larger; and the fluxes of a line in the files of
the components add up to the reconstructed flux, without the polynomial whose coefficients are in `trend.txt` if responses
may be negative. -/
theorem C101_sum_partial (v : FileEnv) (s : List (List ℝ)) (h : FilesOK v s) (hext : v.lowExt = 0 ∧ v.uppExt = 0)
    (ws : List ℝ → WorkMem) (mem : ℕ → Accs) (ws' : ℕ → List ℝ → WorkMem) (mem' : ℕ → Accs) :
    ∃ (t : ℕ → ℝ) (F E : ℕ → ℕ → ℝ) (Fk Ek : ℕ → ℕ → ℕ → ℝ) (q : List (ℝ × ℝ)),
      recFile v ws mem s.flatten s.length =
        .ok (table (1 + v.d.line.length) (numNodes v.d.con.n v.ndRec) fun i j => (t j, F i j, E i j), q) ∧
      decFiles v ws' mem' s.flatten s.length = .ok ((List.range v.e.ng).map fun k =>
        table (1 + v.d.line.length) (numNodes v.d.con.n v.ndRec) fun i j => (t j, Fk k i j, Ek k i j)) ∧
      (∀ k < v.e.ng, ∀ j < numNodes v.d.con.n v.ndRec, Fk k 0 j = F 0 j ∧ (0 ≤ v.scale 0 → Ek k 0 j ≤ E 0 j)) ∧
      ∀ i, 0 < i → i < 1 + v.d.line.length → ∀ j < numNodes v.d.con.n v.ndRec,
        ∑ k ∈ Finset.range v.e.ng, Fk k i j =
          F i j - if v.e.lin then ∑ c ∈ Finset.range v.nq, (q.getD (i * v.nq + c) (0, 0)).1 * t j ^ c else 0 := by
  have hw : recWindow v.lowExt v.uppExt (spanAll v.d) = recWindow 0 0 (spanAll v.d) := by rw [hext.1, hext.2]
  have h2 := recFile_ok h ws mem
  rw [hw] at h2
  have h3 := decFiles_ok h ws' mem'
  set w := recWindow 0 0 (spanAll v.d)
  set W := fun x => wholeOf v (nodesOf v w) (prepare v.pmap v.nv v.nl v.e.ng x) with hW
  set P := fun k x => partOfSet v (nodesOf v w) k (prepare v.pmap v.nv v.nl v.e.ng x) with hP
  have hR : (nodesOf v w).line.length ≤ v.d.line.length := by simp [nodesOf]
  refine ⟨(nodeAt v w).t, fun i j => (fileEntry v w s W i j).2.1, fun i j => (fileEntry v w s W i j).2.2,
    fun k i j => (fileEntry v w s (P k) i j).2.1, fun k i j => (fileEntry v w s (P k) i j).2.2, trendRows v.scale (trendOut v s W) v.nq v.d.line.length, ?_, ?_, ?_, ?_⟩
  · rw [h2]
    congr 2
    refine table_congr fun i hi j hj => ?_
    rw [← (fileEntry_sum W hi hj).1]
  · rw [h3]
    congr 1
    refine List.map_congr_left fun k _ => table_congr fun i hi j hj => ?_
    rw [← (fileEntry_sum (P k) hi hj).1]
  · intro k hk j hj
    have hlt := nodesOf_lt (v := v) (w := w) (s := 0) (by omega) hj
    have hm := accOut_mono (f := nodeOf (P k) ⟨_, hlt⟩) (g := nodeOf W ⟨_, hlt⟩) s (by
      intro x hx
      have hpt : ((nodesOf v w).pt (0 * numNodes v.d.con.n v.ndRec + j)).1 = 0 := by rw [nodesOf_pt (by omega) hj]
      exact ⟨(parts_sum (h.sample x hx) h.types h.comps hR).1 ⟨_, hlt⟩ hpt k, part_err_con (h.sample x hx).cov _ ⟨_, hlt⟩ hpt⟩)
      s.length
    simp only [fileEntry, hlt, dif_pos]
    refine ⟨by rw [hm.1], fun hs => mul_le_mul_of_nonneg_right hm.2 hs⟩
  · intro i hi0 hi j hj
    have hlt := nodesOf_lt (v := v) (w := w) hi hj
    have hpt := nodesOf_pt (v := v) (w := w) hi hj
    simp only [(fileEntry_sum _ hi hj).2]
    have hsum : ∀ x ∈ s, ∑ k ∈ Finset.range v.e.ng, (P k x).val ⟨_, hlt⟩ =
        (W x).val ⟨_, hlt⟩ - (if v.e.lin then trendAt v.nq _ (i, (nodeAt v w).t j) ⬝ᵥ (W x).coef else 0) := by
      intro x hx
      have := (parts_sum (h.sample x hx) h.types h.comps hR).2 ⟨_, hlt⟩ (by simp only [hpt]; omega)
      simp only [hpt] at this
      exact this
    rw [← Finset.sum_mul, ← Finset.sum_div, sum_map_swap, List.map_congr_left hsum]
    cases hl : v.e.lin with
    | false => simp
    | true =>
      simp only [if_true]
      have hn : (s.length : ℝ) ≠ 0 := by
        have : s.length ≠ 0 := by simpa using h.ne
        exact_mod_cast this
      rw [sum_map_sub_aux, sum_map_dot, sub_div, sub_mul]
      congr 1
      rw [trendAt_dot v.nq v.d.line.length _ (fun c => (trendOut v s W c).1 * s.length) _ hi]
      · rw [Finset.sum_div, Finset.sum_mul]
        refine Finset.sum_congr rfl fun c hc => ?_
        rw [trendRows_getD _ _ _ _ hi (Finset.mem_range.1 hc)]
        field_simp
      · intro c
        simp only [trendOut, c.2, dif_pos, yqOut]
        rw [div_mul_cancel₀ _ hn]

/-- **C101.** Neither the reconstruction nor the decomposition depends on the number of tasks, nor on what the workspace and
the accumulators held before. -/
theorem C101_tasks (v : FileEnv) (s : List (List ℝ)) (h : FilesOK v s) (T : ℕ) (hT : 0 < T)
    (ws ws₁ : List ℝ → WorkMem) (mem mem₁ : ℕ → Accs) (ws' ws₁' : ℕ → List ℝ → WorkMem) (mem' mem₁' : ℕ → Accs) :
    recFile { v with T := T } ws₁ mem₁ s.flatten s.length = recFile v ws mem s.flatten s.length ∧
    decFiles { v with T := T } ws₁' mem₁' s.flatten s.length = decFiles v ws' mem' s.flatten s.length := by
  have h' : FilesOK { v with T := T } s :=
    ⟨h.len, h.ne, hT, h.comps, h.types, h.nodes, h.lines, h.points, h.times, fun x hx =>
      ⟨(h.sample x hx).con, (h.sample x hx).pd, (h.sample x hx).far⟩⟩
  exact ⟨(recFile_ok h' ws₁ mem₁).trans (recFile_ok h ws mem).symm, (decFiles_ok h' ws₁' mem₁').trans (decFiles_ok h ws' mem').symm⟩

theorem window_eq {lo up : ℝ} {b : ℝ × ℝ} : recWindow lo up b = recWindow 0 0 b ↔ lo = 0 ∧ up = 0 := by
  refine ⟨fun h => ?_, fun h => by rw [h.1, h.2]⟩
  have h1 := congrArg Prod.fst h
  have h2 := congrArg Prod.snd h
  simp only [recWindow] at h1 h2
  constructor <;> linarith

theorem nodeAt_ends {v : FileEnv} (h : 2 ≤ numNodes v.d.con.n v.ndRec) (w : ℝ × ℝ) :
    (nodeAt v w).t 0 = w.1 ∧ (nodeAt v w).t (numNodes v.d.con.n v.ndRec - 1) = w.2 := by
  have hn : ((numNodes v.d.con.n v.ndRec : ℕ) : ℝ) - 1 ≠ 0 := by
    have : (2 : ℝ) ≤ (numNodes v.d.con.n v.ndRec : ℕ) := by exact_mod_cast h
    intro h0; linarith
  simp only [nodeAt]
  refine ⟨by simp, ?_⟩
  rw [Nat.cast_sub (by omega), Nat.cast_one, div_mul_cancel₀ _ hn]
  ring

/-- **C101, where it fails.** The decomposition does not look at `TimeRecLowExt` and `TimeRecUppExt`: its times are those of
the reconstruction only if both are zero. -/
theorem C101_window (v : FileEnv) (s : List (List ℝ)) (h : FilesOK v s) (h2 : 2 ≤ numNodes v.d.con.n v.ndRec)
    (ws : List ℝ → WorkMem) (mem : ℕ → Accs) (ws' : ℕ → List ℝ → WorkMem) (mem' : ℕ → Accs) :
    ∃ (t t' : ℕ → ℝ) (F E : ℕ → ℕ → ℝ) (Fk Ek : ℕ → ℕ → ℕ → ℝ) (q : List (ℝ × ℝ)),
      recFile v ws mem s.flatten s.length =
        .ok (table (1 + v.d.line.length) (numNodes v.d.con.n v.ndRec) fun i j => (t j, F i j, E i j), q) ∧
      decFiles v ws' mem' s.flatten s.length = .ok ((List.range v.e.ng).map fun k =>
        table (1 + v.d.line.length) (numNodes v.d.con.n v.ndRec) fun i j => (t' j, Fk k i j, Ek k i j)) ∧
      ((∀ j < numNodes v.d.con.n v.ndRec, t' j = t j) ↔ v.lowExt = 0 ∧ v.uppExt = 0) := by
  have h1 := recFile_ok h ws mem
  have h3 := decFiles_ok h ws' mem'
  have hw := window_eq (lo := v.lowExt) (up := v.uppExt) (b := spanAll v.d)
  generalize recWindow v.lowExt v.uppExt (spanAll v.d) = w at h1 hw
  generalize recWindow 0 0 (spanAll v.d) = w' at h3 hw
  refine ⟨(nodeAt v w).t, (nodeAt v w').t,
    fun i j => (fileEntry v w s (fun x => wholeOf v _ (prepare v.pmap v.nv v.nl v.e.ng x)) i j).2.1,
    fun i j => (fileEntry v w s (fun x => wholeOf v _ (prepare v.pmap v.nv v.nl v.e.ng x)) i j).2.2,
    fun k i j => (fileEntry v w' s (fun x => partOfSet v _ k (prepare v.pmap v.nv v.nl v.e.ng x)) i j).2.1,
    fun k i j => (fileEntry v w' s (fun x => partOfSet v _ k (prepare v.pmap v.nv v.nl v.e.ng x)) i j).2.2,
    trendRows v.scale (trendOut v s fun x => wholeOf v (nodesOf v w) (prepare v.pmap v.nv v.nl v.e.ng x)) v.nq v.d.line.length,
    h1.trans ?_, h3.trans ?_, ?_⟩
  · congr 2
    exact table_congr fun i hi j hj => by rw [← (fileEntry_sum _ hi hj).1]
  · congr 1
    refine List.map_congr_left fun k _ => table_congr fun i hi j hj => ?_
    rw [← (fileEntry_sum _ hi hj).1]
  · rw [← hw]
    refine ⟨fun ht => ?_, fun he => by rw [he]; intros; rfl⟩
    have e1 := ht 0 (by omega)
    have e2 := ht (numNodes v.d.con.n v.ndRec - 1) (by omega)
    rw [(nodeAt_ends h2 _).1, (nodeAt_ends h2 _).1] at e1
    rw [(nodeAt_ends h2 _).2, (nodeAt_ends h2 _).2] at e2
    exact Prod.ext e1.symm e2.symm

/-! ### A case that meets the hypotheses -/

/-- Two top-hats, three nodes, two tasks. -/
noncomputable def topFiles (mix lin : Bool) (lo : ℝ) : FileEnv where
  pmap := false
  nv := 3
  nl := 1
  mix := mix
  tf := .tophat
  e := ⟨2, lin, fun _ => .tophat, fun _ => 0, 0, fun _ => 3⟩
  nq := 1
  d := twoPts
  scale _ := 1
  ndRec := 1000
  lowExt := lo
  uppExt := 0
  np := 10
  T := 2

theorem topFiles_ok (mix lin : Bool) (lo : ℝ) (s : List (List ℝ)) (hs : ∀ x ∈ s, x.length = 10) (hne : s ≠ []) :
    FilesOK (topFiles mix lin lo) s where
  len := hs
  ne := hne
  tasks := by simp [topFiles]
  comps := by simp [topFiles]
  types := by simp [topFiles]
  nodes := by simp [topFiles, twoPts, numNodes]
  lines := by simp [topFiles, twoPts]
  points := by simp [topFiles, twoPts, DSet.series]
  times := twoPts_times
  sample x _ := by
    refine ⟨⟨fun i hi => by simp [topFiles, twoPts] at hi, .inr fun i hi => by simp [topFiles, twoPts] at hi⟩, ?_,
      fun _ => ?_⟩
    · have hs2 : 0 < pmSigma (withSample (topFiles mix lin lo).e (prepare false 3 1 2 x)).pm 0 ^ 2 := by
        have := pmSigma_pos (withSample (topFiles mix lin lo).e (prepare false 3 1 2 x)).pm 0; positivity
      refine (twoPts_pd (withSample (topFiles mix lin lo).e (prepare false 3 1 2 x)) ?_).smul hs2
      intro j _ k _
      exact ⟨fun h => by simp [topFiles, withSample] at h, fun j' _ k' _ => by simp [FarL, topFiles, withSample]⟩
    · intro h
      simp [topFiles] at h

/-- Three samples on two tasks. -/
example (lin : Bool) (a b c : ℝ) : FilesOK (topFiles false lin 0)
    [List.replicate 10 a, List.replicate 10 b, List.replicate 10 c] ∧
    (topFiles false lin 0).lowExt = 0 ∧ (topFiles false lin 0).uppExt = 0 ∧ (topFiles false lin 0).e.ng = 2 ∧
    numNodes (topFiles false lin 0).d.con.n (topFiles false lin 0).ndRec = 3 := by
  refine ⟨topFiles_ok _ _ _ _ ?_ (by simp), rfl, rfl, rfl, by simp [topFiles, twoPts, numNodes]⟩
  simp

/-- Reconstruction from ten days before the first point. -/
example (a : ℝ) : FilesOK (topFiles true false (-10)) [List.replicate 10 a] ∧
    2 ≤ numNodes (topFiles true false (-10)).d.con.n (topFiles true false (-10)).ndRec ∧
    ¬((topFiles true false (-10)).lowExt = 0 ∧ (topFiles true false (-10)).uppExt = 0) := by
  refine ⟨topFiles_ok _ _ _ _ (by simp) (by simp), by simp [topFiles, twoPts, numNodes], by simp [topFiles]⟩

/-! ### Coefficients of the trends -/

theorem list_var (l : List ℝ) (m : ℝ) :
    (l.map fun x => (x - m) ^ 2).sum = (l.map fun x => x * x).sum - 2 * m * l.sum + l.length * m ^ 2 := by
  induction l with
  | nil => simp
  | cons a l ih => simp only [List.map_cons, List.sum_cons, List.length_cons, ih]; push_cast; ring

/-- Coefficient `c` of the trends for the posterior sample `x`: the least-squares one. -/
noncomputable def trendCoef (v : FileEnv) (x : List ℝ) (c : ℕ) : ℝ :=
  if h : c < v.nq * (1 + v.d.line.length) then
    glsCoef (setCov (withSample v.e (prepare v.pmap v.nv v.nl v.e.ng x)).kernels
      (withSample v.e (prepare v.pmap v.nv v.nl v.e.ng x)).pm v.e.idxc v.e.idxl v.d) (setTrend v.nq v.d) (fun i => v.d.fall i) ⟨c, h⟩
  else 0

theorem wholeOf_coef {v : FileEnv} {s : List (List ℝ)} (h : FilesOK v s) {x : List ℝ} (hx : x ∈ s) (R : DSet) (c : ℕ)
    (hc : c < v.nq * (1 + v.d.line.length)) :
    (wholeOf v R (prepare v.pmap v.nv v.nl v.e.ng x)).coef ⟨c, hc⟩ = trendCoef v x c := by
  have hS := h.sample x hx
  have hs2 : 0 < pmSigma (withSample v.e (prepare v.pmap v.nv v.nl v.e.ng x)).pm v.e.idxc ^ 2 := by
    have := pmSigma_pos (withSample v.e (prepare v.pmap v.nv v.nl v.e.ng x)).pm v.e.idxc; positivity
  have hC : (setCov (withSample v.e (prepare v.pmap v.nv v.nl v.e.ng x)).kernels
      (withSample v.e (prepare v.pmap v.nv v.nl v.e.ng x)).pm v.e.idxc v.e.idxl v.d).PosDef := hS.cov.smul hs2
  obtain ⟨W, _, hr⟩ := C38_line_partial (R := R) hS.con hC h.times h.lines
  obtain ⟨r, h1, _, _, h4⟩ := hr (fun i => v.d.fall i) (fun _ => 0) (fun _ => 0) (fun _ => 0)
  rw [lineRecs_eq _ _ _ _ _ _ _ _ hS.con hS.cov h.times h.lines] at h1
  have e : wholeOf v R (prepare v.pmap v.nv v.nl v.e.ng x) = r := (Prod.mk.inj (Prod.mk.inj h1).2).1
  rw [e, h4, trendCoef, dif_pos hc]

/-- **C101.** `trend.txt` has for every light curve and power of the time the mean of the least-squares coefficients over the posterior
sample and their standard deviation, times the scale of the light curve. -/
theorem C101_trend (v : FileEnv) (s : List (List ℝ)) (h : FilesOK v s) (ws : List ℝ → WorkMem) (mem : ℕ → Accs) :
    ∃ tab q, recFile v ws mem s.flatten s.length = .ok (tab, q) ∧
      ∀ i ≤ v.d.line.length, ∀ c < v.nq, ∃ m,
        m = (s.map fun x => trendCoef v x (i * v.nq + c)).sum / s.length ∧
        q.getD (i * v.nq + c) (0, 0) = (m * v.scale i,
          Real.sqrt ((s.map fun x => (trendCoef v x (i * v.nq + c) - m) ^ 2).sum / s.length) * v.scale i) := by
  refine ⟨_, _, recFile_ok h ws mem, fun i hi c hc => ⟨_, rfl, ?_⟩⟩
  have hlt : i * v.nq + c < v.nq * (1 + v.d.line.length) := by
    calc i * v.nq + c < i * v.nq + v.nq := by omega
      _ = v.nq * (1 + i) := by ring
      _ ≤ _ := Nat.mul_le_mul_left _ (by omega)
  have hn : (s.length : ℝ) ≠ 0 := by
    have : s.length ≠ 0 := by simpa using h.ne
    exact_mod_cast this
  rw [trendRows_getD _ _ _ _ (by omega) hc, trendOut, dif_pos hlt]
  have e1 : (s.map fun x => (wholeOf v (nodesOf v (recWindow v.lowExt v.uppExt (spanAll v.d)))
      (prepare v.pmap v.nv v.nl v.e.ng x)).coef ⟨i * v.nq + c, hlt⟩) = s.map fun x => trendCoef v x (i * v.nq + c) :=
    List.map_congr_left fun x hx => wholeOf_coef h hx _ _ hlt
  have e2 : (s.map fun x => (wholeOf v (nodesOf v (recWindow v.lowExt v.uppExt (spanAll v.d)))
      (prepare v.pmap v.nv v.nl v.e.ng x)).coef ⟨i * v.nq + c, hlt⟩ * (wholeOf v (nodesOf v (recWindow v.lowExt v.uppExt (spanAll v.d)))
      (prepare v.pmap v.nv v.nl v.e.ng x)).coef ⟨i * v.nq + c, hlt⟩) =
      s.map fun x => trendCoef v x (i * v.nq + c) * trendCoef v x (i * v.nq + c) :=
    List.map_congr_left fun x hx => by rw [wholeOf_coef h hx _ _ hlt]
  rw [e1, e2]
  set m := (s.map fun x => trendCoef v x (i * v.nq + c)).sum / s.length with hm
  have hsum : (s.map fun x => trendCoef v x (i * v.nq + c)).sum = m * s.length := by rw [hm, div_mul_cancel₀ _ hn]
  have e3 := list_var (s.map fun x => trendCoef v x (i * v.nq + c)) m
  simp only [List.map_map, Function.comp_def, List.length_map] at e3
  simp only [yqOut]
  rw [← hm, e3, hsum]
  congr 3
  field_simp
  ring

end Mica
