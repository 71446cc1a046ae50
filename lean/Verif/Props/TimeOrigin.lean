import Verif.Proof.Symmetry
import Verif.Props.VmapLike

/-! # C94: the likelihoods do not depend on the origin of time -/

namespace Mica

open Matrix

/-- Covariance functions that depend only on the difference of the two times. -/
def Kernels.Stationary (K : Kernels) : Prop :=
  ∀ c t1 t2 : ℝ, (∀ j, K.Slc (t1 + c) (t2 + c) j = K.Slc t1 t2 j) ∧ (∀ j, K.Sll (t1 + c) (t2 + c) j = K.Sll t1 t2 j) ∧
    ∀ j l, K.Sll2 (t1 + c) (t2 + c) j l = K.Sll2 t1 t2 j l

theorem KEnv.kernels_stationary (e : KEnv) : e.kernels.Stationary := by
  intro c t1 t2
  refine ⟨fun j => ?_, fun j => ?_, fun j l => ?_⟩
  · simp only [KEnv.kernels, KEnv.slc, add_sub_add_right_eq_sub]
  · simp only [KEnv.kernels, KEnv.sll, add_sub_add_right_eq_sub]
  · simp only [KEnv.kernels, KEnv.sll2, add_sub_add_right_eq_sub]

theorem ConOK.moved {d : LC} {s : ℝ} (h : ConOK d s) (c : ℝ) : ConOK (d.moved c) s := by
  refine ⟨fun i hi => ?_, h.2.imp (fun h2 => h2) fun h2 i hi => ?_⟩
  · simpa [LC.moved] using h.1 i hi
  · simpa [LC.moved] using h2 i hi

theorem EnoughTimes.moved {d : LC} {nq : ℕ} (h : EnoughTimes d nq) (c : ℝ) : EnoughTimes (d.moved c) nq := by
  obtain ⟨e, he⟩ := h
  refine ⟨e, fun x y hxy => he ?_⟩
  simpa [LC.moved] using hxy

theorem margLL_con_moved (nq : ℕ) (pm : ℕ → ℝ) (idx : ℕ) (d : LC) (c : ℝ) :
    margLL (conCov pm idx (d.moved c)) (trendMat (d.moved c).t (d.moved c).n nq) (fun i => (d.moved c).f i) =
      margLL (conCov pm idx d) (trendMat d.t d.n nq) (fun i => d.f i) := by
  have e1 : conCov pm idx (d.moved c) = conCov pm idx d := by
    ext i j
    simp only [conCov, drwCov, LC.moved, add_sub_add_right_eq_sub]
    rfl
  have h := margLLN_mul d.n nq (fun i j => if h : i < d.n ∧ j < d.n then conCov pm idx d ⟨i, h.1⟩ ⟨j, h.2⟩ else 0)
    (fun i j => d.t i ^ j) (fun i j => (d.t i + c) ^ j) (binomT c) d.f
    (fun i _ j hj => pow_shift _ _ hj)
    (fun i j hij => by rw [binomT, Nat.choose_eq_zero_of_lt hij, Nat.cast_zero, mul_zero])
    (fun i => by simp [binomT])
  unfold margLLN at h
  simp only [Fin.is_lt, and_self, dite_true, Fin.eta] at h
  have e2 : ∀ t : ℕ → ℝ, trendMat t d.n nq = Matrix.of fun (i : Fin d.n) (j : Fin nq) => t i ^ (j : ℕ) := by
    intro t
    ext i j
    simp only [trendMat, Matrix.of_apply]
    split
    · rename_i h; rw [h, pow_zero]
    · rfl
  rw [e1, e2 d.t]
  refine Eq.trans ?_ h
  rw [show trendMat (d.moved c).t (d.moved c).n nq = trendMat (fun i => d.t i + c) d.n nq from rfl, e2]
  rfl

/-- C94: adding a constant to all times of a continuum light curve, a different one for every data set, changes
neither of the two continuum likelihoods. -/
theorem C94_con (nq : ℕ) (pm : ℕ → ℝ) (idx : ℕ → ℕ) (mem : ℕ → ℝ) (ds : List LC) (cs : ℕ → ℝ)
    (h : ConDataOK nq pm idx ds) :
    probCon nq pm idx mem (ds.mapIdx fun k d => d.moved (cs k)) = probCon nq pm idx mem ds ∧
    probConSemi nq pm idx (ds.mapIdx fun k d => d.moved (cs k)) = probConSemi nq pm idx ds := by
  have h' : ConDataOK nq pm idx (ds.mapIdx fun k d => d.moved (cs k)) := by
    intro k d hd
    rw [List.getElem?_mapIdx, Option.map_eq_some_iff] at hd
    obtain ⟨d0, hd0, rfl⟩ := hd
    exact ⟨(h k d0 hd0).1.moved _, (h k d0 hd0).2.moved _⟩
  have hv := con_value nq pm idx mem ds h
  have hv' := con_value nq pm idx mem _ h'
  have e : ((ds.mapIdx fun k d => d.moved (cs k)).mapIdx fun k d =>
      margLL (conCov pm (idx k) d) (trendMat d.t d.n nq) (fun i => d.f i)) =
      ds.mapIdx fun k d => margLL (conCov pm (idx k) d) (trendMat d.t d.n nq) (fun i => d.f i) := by
    rw [List.mapIdx_mapIdx]
    congr 1
    funext k d
    exact margLL_con_moved nq pm (idx k) d (cs k)
  rw [hv.1, hv.2, hv'.1, hv'.2, e]
  exact ⟨rfl, rfl⟩

/-! ### Lines -/

theorem DSet.moved_series (c : ℝ) (d : DSet) : (d.moved c).series = d.series.map (LC.moved c) := rfl

theorem locate_moved (c : ℝ) (l : List LC) : locate (l.map (LC.moved c)) = locate l := by
  induction l with
  | nil => rfl
  | cons a l ih => funext p; simp only [List.map_cons, locate, ih]; rfl

theorem concat_moved (c : ℝ) (l : List LC) : concat LC.f (l.map (LC.moved c)) = concat LC.f l := by
  induction l with
  | nil => rfl
  | cons a l ih => funext p; simp only [List.map_cons, concat, ih]; rfl

theorem ser_moved (c : ℝ) (d : DSet) {s : ℕ} (hs : s < d.series.length) : (d.moved c).ser s = (d.ser s).moved c := by
  simp only [DSet.ser, DSet.moved_series, List.getD_eq_getElem?_getD, List.getElem?_map,
    List.getElem?_eq_getElem hs, Option.map_some, Option.getD_some]

theorem covEntry_moved (c : ℝ) {K : Kernels} (hK : K.Stationary) (d : DSet) (pm : ℕ → ℝ) (idxc : ℕ) (idxl : ℕ → ℕ)
    (x y : ℕ × ℕ) (hx : x.1 < d.series.length) (hy : y.1 < d.series.length) :
    covEntry K (d.moved c) pm idxc idxl x y = covEntry K d pm idxc idxl x y := by
  obtain ⟨s, i⟩ := x
  obtain ⟨s', i'⟩ := y
  have h0 : 0 < d.series.length := by simp [DSet.series]
  have hn : ∀ z : ℕ × ℕ, z.1 < d.series.length → noiseVar (d.moved c) pm idxc idxl z = noiseVar d pm idxc idxl z := by
    rintro ⟨s, i⟩ hz
    rcases s with _ | s
    · simp only [noiseVar, ser_moved c d h0]; rfl
    · simp only [noiseVar, ser_moved c d hz]; rfl
  unfold covEntry
  rw [hn _ hx]
  congr 1
  have hc : ∀ t1 t2 : ℝ, t1 + c - (t2 + c) = t1 - t2 := fun t1 t2 => add_sub_add_right_eq_sub _ _ _
  rcases s with _ | s <;> rcases s' with _ | s' <;> simp only [sigCov, ser_moved c d h0]
  · simp only [LC.moved, hc]
  · rw [ser_moved c d hy]; exact (hK c _ _).1 s'
  · rw [ser_moved c d hx]; exact (hK c _ _).1 s
  · rw [ser_moved c d hx, ser_moved c d hy]
    simp only [LC.moved, (hK c _ _).2.1, (hK c _ _).2.2]

theorem locate_series_lt (l : List LC) (p : ℕ) (hp : p < totalN l) : (locate l p).1 < l.length := by
  obtain ⟨a, ha, -⟩ := locate_valid l p hp
  exact (List.getElem?_eq_some_iff.1 ha).1

theorem margLLN_congr {n n' q q' : ℕ} {C C' L : ℕ → ℕ → ℝ} {f : ℕ → ℝ} (hn : n' = n) (hq : q' = q)
    (hC : ∀ i < n, ∀ j < n, C' i j = C i j) : margLLN n' q' C' L f = margLLN n q C L f := by
  subst hn hq
  unfold margLLN
  congr 1
  ext i j
  exact hC i i.2 j j.2

theorem margLL_line_moved (e : LineEnv) (k : ℕ) (d : DSet) (c : ℝ) (hK : (e.K k).Stationary) :
    margLL (lineCov e k (d.moved c)) ((d.moved c).trend e.nq) (fun i => (d.moved c).fall i) =
      margLL (lineCov e k d) (d.trend e.nq) (fun i => d.fall i) := by
  rw [margLLN_line, margLLN_line, DSet.moved_series, concat_moved, locate_moved]
  have hlen : (d.moved c).line.length = d.line.length := by simp [DSet.moved]
  rw [margLLN_congr (totalN_moved c d.series) (by rw [hlen]) (C := fun p q => pmSigma e.pm (e.idxc k) * pmSigma e.pm (e.idxc k) *
          covEntry (e.K k) d e.pm (e.idxc k) (e.idxl k) (locate d.series p) (locate d.series q))]
  · refine margLLN_mul _ _ _ _ _ (binomB e.nq c) _ (fun i hi j hj => ?_) (fun i j hij => binomB_upper _ _ hij)
      (binomB_diag _ _)
    have hq : 0 < e.nq := by
      rcases Nat.eq_zero_or_pos e.nq with h0 | h0
      · rw [h0, zero_mul] at hj; omega
      · exact h0
    rw [trendRow_moved e.nq c d.series i hi j hq]
    simp only [DSet.series, List.length_cons, add_comm 1]
  · intro i hi j hj
    rw [covEntry_moved c hK d _ _ _ _ _ (locate_series_lt _ _ hi) (locate_series_lt _ _ hj)]

/-- Likelihood with the covariance in the place of its inverse, on plain arrays. -/
theorem margInv_congr {n n' q q' : ℕ} {C C' L L' T : ℕ → ℕ → ℝ} {f : ℕ → ℝ} (s : ℝ) (hn : n' = n) (hq : q' = q)
    (hC : ∀ i < n, ∀ j < n, C' i j = C i j)
    (hL : ∀ i < n, ∀ j < q, L' i j = ∑ c ∈ Finset.range q, L i c * T c j)
    (hT : ∀ i j, j < i → T i j = 0) (hd : ∀ i, T i i = 1) :
    margLL (s • (Matrix.of fun i j : Fin n' => C' i j)⁻¹) (Matrix.of fun (i : Fin n') (j : Fin q') => L' i j)
        (fun i => f i) - Real.log (Matrix.of fun i j : Fin n' => C' i j).det =
      margLL (s • (Matrix.of fun i j : Fin n => C i j)⁻¹) (Matrix.of fun (i : Fin n) (j : Fin q) => L i j)
        (fun i => f i) - Real.log (Matrix.of fun i j : Fin n => C i j).det := by
  subst hn hq
  have e : (Matrix.of fun i j : Fin n' => C' i j) = Matrix.of fun i j : Fin n' => C i j := by
    ext i j; exact hC i i.2 j j.2
  have e2 : (Matrix.of fun (i : Fin n') (j : Fin q') => L' i j) =
      (Matrix.of fun (i : Fin n') (j : Fin q') => L i j) * (Matrix.of fun i j : Fin q' => T i j) := by
    ext i j
    rw [Matrix.mul_apply, Matrix.of_apply, hL i i.2 j j.2]
    exact (Fin.sum_univ_eq_sum_range (fun c => L i c * T c j) q').symm
  rw [e, e2, margLL_mul]
  rw [Matrix.det_of_isUpperTriangular]
  · exact Finset.prod_eq_one fun i _ => hd i
  · intro i j hij
    exact hT i j hij

theorem lineVal4_moved (e : LineEnv) (k : ℕ) (d : DSet) (c : ℝ) (hK : (e.K k).Stationary) :
    lineVal4 e k (d.moved c) = lineVal4 e k d := by
  have hlen : (d.moved c).line.length = d.line.length := by simp [DSet.moved]
  unfold lineVal4
  by_cases hl : d.line.length = 0
  · rw [if_pos (hlen.trans hl), if_pos hl]
    refine margInv_congr (n := d.nall) (n' := (d.moved c).nall) (q := e.nq * (1 + d.line.length))
      (q' := e.nq * (1 + (d.moved c).line.length))
      (C := fun p q => covEntry (e.K k) d e.pm (e.idxc k) (e.idxl k) (locate d.series p) (locate d.series q))
      (C' := fun p q => covEntry (e.K k) (d.moved c) e.pm (e.idxc k) (e.idxl k) (locate (d.moved c).series p)
        (locate (d.moved c).series q)) (L := trendRow e.nq d.series 0) (L' := trendRow e.nq (d.moved c).series 0)
      (T := binomB e.nq c) (f := concat LC.f d.series)
      (pmSigma e.pm (e.idxc k) * pmSigma e.pm (e.idxc k)) (totalN_moved c d.series) (by rw [hlen]) ?_ ?_
      (fun i j hij => binomB_upper _ _ hij) (binomB_diag _ _) |> Eq.trans ?_
    · congr 2
      funext i
      exact congrFun (concat_moved c d.series) i
    · intro i hi j hj
      simp only [DSet.moved_series, locate_moved]
      rw [covEntry_moved c hK d _ _ _ _ _ (locate_series_lt _ _ hi) (locate_series_lt _ _ hj)]
    · intro i hi j hj
      have hq : 0 < e.nq := by
        rcases Nat.eq_zero_or_pos e.nq with h0 | h0
        · rw [h0, zero_mul] at hj; omega
        · exact h0
      rw [DSet.moved_series, trendRow_moved e.nq c d.series i hi j hq]
      simp only [DSet.series, List.length_cons, add_comm 1]
  · rw [if_neg (fun h0 => hl (hlen.symm.trans h0)), if_neg hl]
    exact margLL_line_moved e k d c hK

theorem cov_moved_posDef {K : Kernels} (hK : K.Stationary) (d : DSet) (pm : ℕ → ℝ) (idxc : ℕ) (idxl : ℕ → ℕ) (c : ℝ)
    (h : (d.cov K pm idxc idxl).PosDef) : ((d.moved c).cov K pm idxc idxl).PosDef := by
  have key : ∀ (n n' : ℕ) (C C' : ℕ → ℕ → ℝ), n' = n → (∀ i < n, ∀ j < n, C' i j = C i j) →
      (Matrix.of fun i j : Fin n => C i j).PosDef → (Matrix.of fun i j : Fin n' => C' i j).PosDef := by
    intro n n' C C' hn hC h
    subst hn
    have e : (Matrix.of fun i j : Fin n' => C' i j) = Matrix.of fun i j : Fin n' => C i j := by
      ext i j; exact hC i i.2 j j.2
    rw [e]; exact h
  refine key d.nall (d.moved c).nall
    (fun p q => covEntry K d pm idxc idxl (locate d.series p) (locate d.series q))
    (fun p q => covEntry K (d.moved c) pm idxc idxl (locate (d.moved c).series p) (locate (d.moved c).series q))
    (totalN_moved c d.series) ?_ h
  intro i hi j hj
  simp only [DSet.moved_series, locate_moved]
  rw [covEntry_moved c hK d _ _ _ _ _ (locate_series_lt _ _ hi) (locate_series_lt _ _ hj)]

/-- C94: adding a constant to all times of a data set (continuum and lines), a different one for every data set,
changes none of the four line likelihoods, whatever the number of trend coefficients, for covariance functions
that depend on time differences only. -/
theorem C94_line (e : LineEnv) (ds : List DSet) (cs : ℕ → ℝ) (h : LineDataOK e ds) (hK : ∀ k, (e.K k).Stationary) :
    probLine1 e (ds.mapIdx fun k d => d.moved (cs k)) = probLine1 e ds ∧
    probLine2 e (ds.mapIdx fun k d => d.moved (cs k)) = probLine2 e ds ∧
    probLine3 e (ds.mapIdx fun k d => d.moved (cs k)) = probLine3 e ds ∧
    probLine4 e (ds.mapIdx fun k d => d.moved (cs k)) = probLine4 e ds := by
  have h' : LineDataOK e (ds.mapIdx fun k d => d.moved (cs k)) := by
    intro k d hd
    rw [List.getElem?_mapIdx, Option.map_eq_some_iff] at hd
    obtain ⟨d0, hd0, rfl⟩ := hd
    obtain ⟨h1, h2, h3⟩ := h k d0 hd0
    refine ⟨h1.moved _, fun a ha => ?_, cov_moved_posDef (hK k) _ _ _ _ _ h3⟩
    rw [DSet.moved_series, List.mem_map] at ha
    obtain ⟨b, hb, rfl⟩ := ha
    exact (h2 b hb).moved _
  have e1 : ((ds.mapIdx fun k d => d.moved (cs k)).mapIdx fun k d =>
      margLL (lineCov e k d) (d.trend e.nq) (fun i => d.fall i)) =
      ds.mapIdx fun k d => margLL (lineCov e k d) (d.trend e.nq) (fun i => d.fall i) := by
    rw [List.mapIdx_mapIdx]
    congr 1
    funext k d
    exact margLL_line_moved e k d (cs k) (hK k)
  have e4 : ((ds.mapIdx fun k d => d.moved (cs k)).mapIdx fun k d => lineVal4 e k d) =
      ds.mapIdx fun k d => lineVal4 e k d := by
    rw [List.mapIdx_mapIdx]
    congr 1
    funext k d
    exact lineVal4_moved e k d (cs k) (hK k)
  have hv := line_value e ds h
  have hv' := line_value e _ h'
  rw [hv.1, hv.2.1, hv.2.2, hv'.1, hv'.2.1, hv'.2.2, line_value4 e _ h', line_value4 e ds h, e1, e4]
  exact ⟨rfl, rfl, rfl, rfl⟩

/-- The environment whose covariance functions are those of the transfer functions. -/
noncomputable def tfEnv (nq ng : ℕ) (lin : Bool) (typ : ℕ → TF) (pm : ℕ → ℝ) (idxc : ℕ → ℕ) (idxl : ℕ → ℕ → ℕ)
    (mem : ℕ → ℝ) : LineEnv :=
  ⟨nq, pm, idxc, idxl, fun k => (KEnv.mk ng lin typ pm (idxc k) (idxl k)).kernels, mem⟩

/-- C94 with the transfer functions in place, any number and mixture of components. -/
theorem C94_transfer (nq ng : ℕ) (lin : Bool) (typ : ℕ → TF) (pm : ℕ → ℝ) (idxc : ℕ → ℕ) (idxl : ℕ → ℕ → ℕ)
    (mem : ℕ → ℝ) (ds : List DSet) (cs : ℕ → ℝ) (h : LineDataOK (tfEnv nq ng lin typ pm idxc idxl mem) ds) :
    probLine4 (tfEnv nq ng lin typ pm idxc idxl mem) (ds.mapIdx fun k d => d.moved (cs k)) =
      probLine4 (tfEnv nq ng lin typ pm idxc idxl mem) ds :=
  (C94_line _ ds cs h fun _ => KEnv.kernels_stationary _).2.2.2

/-! ### Without continuum -/

/-- Entries of the matrix of the mode without continuum. -/
noncomputable def vEntry (e : LineEnv) (k : ℕ) (ls : List LC) (p q : ℕ) : ℝ :=
  covEntry (e.K k) (vSet ls) (vPm e.pm (e.idxc k) (e.idxl k)) 0 (fun j => j + 3) ((locate ls p).1 + 1, (locate ls p).2)
    ((locate ls q).1 + 1, (locate ls q).2)

theorem vPC_eq (e : LineEnv) (k : ℕ) (ls : List LC) :
    vPC (e.K k) e.pm (e.idxc k) (e.idxl k) ls e.mem = Matrix.of fun p q : Fin (totalN ls) => vEntry e k ls p q := by
  ext p q
  exact vPC_apply _ _ _ _ _ _ p q

theorem vEntry_moved (e : LineEnv) (k : ℕ) (ls : List LC) (c : ℝ) (hK : (e.K k).Stationary) {p q : ℕ}
    (hp : p < totalN ls) (hq : q < totalN ls) : vEntry e k (ls.map (LC.moved c)) p q = vEntry e k ls p q := by
  unfold vEntry
  rw [locate_moved]
  have h1 := locate_series_lt ls p hp
  have h2 := locate_series_lt ls q hq
  rw [← covEntry_moved c hK (vSet ls) _ _ _ _ _ (by simpa [DSet.series, vSet] using h1)
    (by simpa [DSet.series, vSet] using h2)]
  rfl

theorem vVal_moved (e : LineEnv) (k : ℕ) (ls : List LC) (c : ℝ) (hK : (e.K k).Stationary) :
    margLL (vmapCov e k (ls.map (LC.moved c))) (vTrend e.nq (ls.map (LC.moved c))) (vFall (ls.map (LC.moved c))) =
      margLL (vmapCov e k ls) (vTrend e.nq ls) (vFall ls) ∧ vVal4 e k (ls.map (LC.moved c)) = vVal4 e k ls := by
  have hlen : (ls.map (LC.moved c)).length = ls.length := List.length_map ..
  have hL : ∀ i < totalN ls, ∀ j < e.nq * ls.length, trendRow e.nq (ls.map (LC.moved c)) 0 i j =
      ∑ a ∈ Finset.range (e.nq * ls.length), trendRow e.nq ls 0 i a * binomB e.nq c a j := by
    intro i hi j hj
    have hq : 0 < e.nq := by
      rcases Nat.eq_zero_or_pos e.nq with h0 | h0
      · rw [h0, zero_mul] at hj; omega
      · exact h0
    exact trendRow_moved e.nq c ls i hi j hq
  have hf : vFall (ls.map (LC.moved c)) = fun i : Fin (totalN (ls.map (LC.moved c))) => concat LC.f ls i := by
    funext i
    exact congrFun (concat_moved c ls) i
  have hm : margLL (vmapCov e k (ls.map (LC.moved c))) (vTrend e.nq (ls.map (LC.moved c))) (vFall (ls.map (LC.moved c))) =
      margLL (vmapCov e k ls) (vTrend e.nq ls) (vFall ls) := by
    rw [← vPC_cov, ← vPC_cov, vPC_eq, vPC_eq, hf]
    refine Eq.trans (margLLN_congr (n := totalN ls) (q := e.nq * ls.length)
      (C := fun i j => vSigma e.pm (e.idxc k) * vSigma e.pm (e.idxc k) * vEntry e k ls i j)
      (C' := fun i j => vSigma e.pm (e.idxc k) * vSigma e.pm (e.idxc k) * vEntry e k (ls.map (LC.moved c)) i j)
      (L := trendRow e.nq (ls.map (LC.moved c)) 0) (f := concat LC.f ls) (totalN_moved c ls) (by rw [hlen]) ?_) ?_
    · intro i hi j hj
      rw [vEntry_moved e k ls c hK hi hj]
    · exact margLLN_mul _ _ _ _ _ (binomB e.nq c) _ hL (fun i j hij => binomB_upper _ _ hij) (binomB_diag _ _)
  refine ⟨hm, ?_⟩
  unfold vVal4
  simp only
  by_cases hl : ls.length = 1
  · rw [if_pos (hlen.trans hl), if_pos hl, vPC_eq, vPC_eq, hf]
    exact margInv_congr (L := trendRow e.nq ls 0) (L' := trendRow e.nq (ls.map (LC.moved c)) 0) (f := concat LC.f ls)
      _ (totalN_moved c ls) (by rw [hlen]) (fun i hi j hj => vEntry_moved e k ls c hK hi hj) hL
      (fun i j hij => binomB_upper _ _ hij) (binomB_diag _ _)
  · rw [if_neg (fun h0 => hl (hlen.symm.trans h0)), if_neg hl, vPC_cov, vPC_cov]
    exact hm

/-- C94 for the mode without continuum. -/
theorem C94_vmap (e : LineEnv) (ds : List (List LC)) (cs : ℕ → ℝ) (h : VmapOK e ds) (hK : ∀ k, (e.K k).Stationary) :
    probVmap3 e (ds.mapIdx fun k ls => ls.map (LC.moved (cs k))) = probVmap3 e ds ∧
    probVmap4 e (ds.mapIdx fun k ls => ls.map (LC.moved (cs k))) = probVmap4 e ds := by
  have h' : VmapOK e (ds.mapIdx fun k ls => ls.map (LC.moved (cs k))) := by
    intro k ls hd
    rw [List.getElem?_mapIdx, Option.map_eq_some_iff] at hd
    obtain ⟨l0, hd0, rfl⟩ := hd
    obtain ⟨h1, h2, h3⟩ := h k l0 hd0
    refine ⟨by simpa using h1, fun a ha => ?_, ?_⟩
    · obtain ⟨b, hb, rfl⟩ := List.mem_map.1 ha
      exact (h2 b hb).moved _
    · have key : ∀ (n n' : ℕ) (C C' : ℕ → ℕ → ℝ), n' = n → (∀ i < n, ∀ j < n, C' i j = C i j) →
          (Matrix.of fun i j : Fin n => C i j).PosDef → (Matrix.of fun i j : Fin n' => C' i j).PosDef := by
        intro n n' C C' hn hC h
        subst hn
        have e : (Matrix.of fun i j : Fin n' => C' i j) = Matrix.of fun i j : Fin n' => C i j := by
          ext i j; exact hC i i.2 j j.2
        rw [e]; exact h
      rw [← vPC_cov, vPC_eq] at h3 ⊢
      refine key _ _ (fun i j => vSigma e.pm (e.idxc k) * vSigma e.pm (e.idxc k) * vEntry e k l0 i j)
        (fun i j => vSigma e.pm (e.idxc k) * vSigma e.pm (e.idxc k) * vEntry e k (l0.map (LC.moved (cs k))) i j)
        (totalN_moved _ l0) (fun i hi j hj => ?_) h3
      rw [vEntry_moved e k l0 _ (hK k) hi hj]
  obtain ⟨v3, v4⟩ := vmap_value e ds h
  obtain ⟨w3, w4⟩ := vmap_value e _ h'
  rw [v3, v4, w3, w4, List.mapIdx_mapIdx, List.mapIdx_mapIdx]
  constructor
  · congr 3
    funext k ls
    exact (vVal_moved e k ls (cs k) (hK k)).1
  · congr 3
    funext k ls
    exact (vVal_moved e k ls (cs k) (hK k)).2

/-! ### Examples -/

/-- Two points, a linear trend, times moved by 2400000.5. -/
example : probConSemi 2 (fun _ => 0) (fun _ => 0)
      [(⟨2, fun i => (i : ℝ) + 2400000.5, fun i => (i : ℝ) ^ 2 + 1, fun _ => 1, 1⟩ : LC)] =
    probConSemi 2 (fun _ => 0) (fun _ => 0) [(⟨2, fun i => (i : ℝ), fun i => (i : ℝ) ^ 2 + 1, fun _ => 1, 1⟩ : LC)] := by
  refine (C94_con 2 (fun _ => 0) (fun _ => 0) (fun _ => 0)
    [(⟨2, fun i => (i : ℝ), fun i => (i : ℝ) ^ 2 + 1, fun _ => 1, 1⟩ : LC)] (fun _ => 2400000.5) ?_).2
  intro k d hd
  rcases k with _ | k <;> simp at hd
  subst hd
  exact ⟨⟨fun i _ => by simp, Or.inr fun i _ => by simp⟩, fun i => i,
    fun i j hij => Fin.ext (by simpa using hij)⟩

/-- Two data sets with one line each, a mixture of three components; the second set is moved by 10. -/
example : probLine4 (tfEnv 1 3 true mixEnv.typ mixEnv.pm (fun _ => mixEnv.idxc) (fun _ => mixEnv.idxl) fun _ => 0)
      [exSet.moved 0, exSet.moved 10] =
    probLine4 (tfEnv 1 3 true mixEnv.typ mixEnv.pm (fun _ => mixEnv.idxc) (fun _ => mixEnv.idxl) fun _ => 0)
      [exSet, exSet] :=
  C94_transfer 1 3 true mixEnv.typ mixEnv.pm _ _ _ [exSet, exSet] (fun k => 10 * k) exTransferOK.lineDataOK |>
    fun h => by simpa using h

end Mica
