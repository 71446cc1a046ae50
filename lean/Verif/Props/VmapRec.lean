import Verif.Proof.VmapRec
import Verif.Props.VmapLike
import Verif.Props.Recon
import Verif.Props.Misc

/-!
# Reconstruction in the virtual-continuum mode: C84, C85, C86
-/

namespace Mica

open Matrix

/-! ### C84 -/

/-- The covariances of the point `x` (0 the virtual continuum, then the lines; time) with all data of set `k`. -/
noncomputable def vmapCross (e : LineEnv) (k : ℕ) (ls : List LC) (x : ℕ × ℝ) : Fin (totalN ls) → ℝ :=
  fun q => Real.exp (e.pm (e.idxc k + 1)) ^ 2 * pointCov (e.K k) (Real.exp (e.pm (e.idxc k + 2))) x
    ((locate ls q).1 + 1, (vLine ls (locate ls q).1).t (locate ls q).2)

/-- The variance of the signal at the point `x`. -/
noncomputable def vmapVar (e : LineEnv) (k : ℕ) (x : ℕ × ℝ) : ℝ :=
  Real.exp (e.pm (e.idxc k + 1)) ^ 2 * pointCov (e.K k) (Real.exp (e.pm (e.idxc k + 2))) x x

/-- The trend basis functions at a point: none for the virtual continuum, powers of the time in the columns of its
line for the lines. -/
noncomputable def vmapBasis (nq q : ℕ) (x : ℕ × ℝ) : Fin q → ℝ :=
  fun c => if 1 ≤ x.1 ∧ (c : ℕ) / nq + 1 = x.1 then x.2 ^ ((c : ℕ) % nq) else 0

/-- The trend basis functions of all data. -/
noncomputable def vmapBasisMat (nq : ℕ) (ls : List LC) : Matrix (Fin (totalN ls)) (Fin (nq * ls.length)) ℝ :=
  fun q => vmapBasis nq _ ((locate ls q).1 + 1, (vLine ls (locate ls q).1).t (locate ls q).2)

theorem vPt_eq (ls : List LC) (q : ℕ) :
    vPt ls q = ((locate ls q).1 + 1, (vLine ls (locate ls q).1).t (locate ls q).2) := by
  simp only [vPt, DSet.pt, vLocate]
  rfl

theorem vmapBasis_eq (nq q : ℕ) (x : ℕ × ℝ) : vmapBasis nq q x = vTrendAt nq q x := by
  funext c
  simp only [vmapBasis, vTrendAt]
  by_cases h : x.1 = 0
  · rw [if_neg (by omega), if_pos h]
  · rw [if_neg h]
    by_cases h2 : (c : ℕ) / nq = x.1 - 1
    · rw [if_pos (by omega), if_pos h2]
    · rw [if_neg (by omega), if_neg h2]

theorem vmapBasisMat_eq (nq : ℕ) (ls : List LC) : vTrend nq ls = vmapBasisMat nq ls := by
  rw [vTrend_pt]
  funext q
  rw [vmapBasisMat, vmapBasis_eq, vPt_eq]

theorem cSqrt_scale {x s : ℝ} (hs : 0 < s) : (cSqrt x).map (fun v => s * v) = cSqrt (s ^ 2 * x) := by
  have hs2 : 0 < s ^ 2 := by positivity
  rcases lt_or_ge x 0 with hx | hx
  · rw [cSqrt, if_pos hx, cSqrt, if_pos (mul_neg_of_pos_of_neg hs2 hx)]; rfl
  · rw [err_scale hx hs, cSqrt, if_neg (not_lt.2 (by positivity))]

/-- The weights that predict a signal with known mean have the smallest mean squared error of all. -/
theorem inv_isBest {n : ℕ} {C : Matrix (Fin n) (Fin n) ℝ} (hC : C.PosDef) (s : Fin n → ℝ) (a : ℝ) (w : Fin n → ℝ)
    (hw : w ≠ C⁻¹.mulVec s) : predErr C s a (C⁻¹.mulVec s) < predErr C s a w := by
  have hu : IsUnit C.det := isUnit_iff_ne_zero.2 hC.det_pos.ne'
  have hpos := hC.dotProduct_mulVec_pos (sub_ne_zero.2 hw)
  simp only [star_trivial, Matrix.mulVec_sub, dotProduct_sub, sub_dotProduct] at hpos
  have h1 : C.mulVec (C⁻¹.mulVec s) = s := by
    rw [Matrix.mulVec_mulVec, Matrix.mul_nonsing_inv _ hu, Matrix.one_mulVec]
  have h2 : C⁻¹.mulVec s ⬝ᵥ C.mulVec w = w ⬝ᵥ s := by
    rw [dot_mulVec_transpose, posDef_symm hC, h1, dotProduct_comm]
  simp only [predErr, h1] at hpos ⊢
  rw [h2] at hpos
  linarith

/-- C84: for every data set with one line or more, all covariance functions with a positive definite data covariance
and whatever the work arrays hold, the reconstruction returns at every node the best linear
unbiased prediction: of the line with its own trend, of the virtual continuum without one.  The trend coefficients
are zeros for the virtual continuum, then the least-squares ones of the lines.  The error of a line is
the root of the mean squared error (NaN were it negative); that of the virtual continuum the root of the smallest
mean squared error possible with known trends. -/
theorem C84_reconstruct (e : LineEnv) (k : ℕ) (ls : List LC) (R : DSet) (hC : (vmapCov e k ls).PosDef)
    (hL : ∀ a ∈ ls, EnoughTimes a e.nq) :
    ∃ W V : Fin R.nall → Fin (totalN ls) → ℝ,
      (∀ i : Fin R.nall, IsBlup (vmapCov e k ls) (vmapBasisMat e.nq ls) (vmapCross e k ls (R.pt i))
        (vmapBasis e.nq _ (R.pt i)) (vmapVar e k (R.pt i)) (W i)) ∧
      (∀ (i : Fin R.nall) w, w ≠ V i → predErr (vmapCov e k ls) (vmapCross e k ls (R.pt i)) (vmapVar e k (R.pt i)) (V i) <
        predErr (vmapCov e k ls) (vmapCross e k ls (R.pt i)) (vmapVar e k (R.pt i)) w) ∧
      ∀ (f : Fin (totalN ls) → ℝ) (memP memU memA : ℕ → ℝ), ∃ r : Recon (e.nq + e.nq * ls.length) R.nall,
        vmapRec (e.K k) e.nq ls R e.pm (e.idxc k) (e.idxl k) f memP memU memA = .ok r ∧
        (∀ i, r.val i = W i ⬝ᵥ f) ∧
        (∀ i : Fin R.nall, R.con.n ≤ i → r.err i = cSqrt (predErr (vmapCov e k ls) (vmapCross e k ls (R.pt i))
          (vmapVar e k (R.pt i)) (W i))) ∧
        (∀ i : Fin R.nall, (i : ℕ) < R.con.n → r.err i = cSqrt (predErr (vmapCov e k ls) (vmapCross e k ls (R.pt i))
          (vmapVar e k (R.pt i)) (V i))) ∧
        (∀ c : Fin e.nq, r.coef (Fin.castAdd _ c) = 0) ∧
        ∀ c, r.coef (Fin.natAdd _ c) = glsCoef (vmapCov e k ls) (vmapBasisMat e.nq ls) f c := by
  have hs := vSigma_pos e.pm (e.idxc k)
  have hs2 : 0 < vSigma e.pm (e.idxc k) ^ 2 := by positivity
  have hP := vPC_posDef hC
  have hLi := vTrend_injective e.nq ls hL
  have hCov : vmapCov e k ls = vSigma e.pm (e.idxc k) ^ 2 • vPC (e.K k) e.pm (e.idxc k) (e.idxl k) ls e.mem := by
    rw [sq, vPC_cov]
  have hcr : ∀ x, vmapCross e k ls x = vSigma e.pm (e.idxc k) ^ 2 • fun q : Fin (totalN ls) =>
      pointCov (e.K k) (Real.exp (e.pm (e.idxc k + 2))) x (vPt ls q) := fun x => by
    funext q
    simp only [vPt_eq]
    rfl
  have hva : ∀ x, vmapVar e k x = vSigma e.pm (e.idxc k) ^ 2 * pointCov (e.K k) (Real.exp (e.pm (e.idxc k + 2))) x x :=
    fun x => rfl
  refine ⟨fun i => blupW (vPC (e.K k) e.pm (e.idxc k) (e.idxl k) ls e.mem) (vTrend e.nq ls)
      (fun q : Fin (totalN ls) => pointCov (e.K k) (Real.exp (e.pm (e.idxc k + 2))) (R.pt i) (vPt ls q))
      (vTrendAt e.nq (e.nq * ls.length) (R.pt i)),
    fun i => (vPC (e.K k) e.pm (e.idxc k) (e.idxl k) ls e.mem)⁻¹.mulVec
      (fun q : Fin (totalN ls) => pointCov (e.K k) (Real.exp (e.pm (e.idxc k + 2))) (R.pt i) (vPt ls q)),
    fun i => ?_, fun i w hw => ?_, fun f memP memU memA => ⟨_, vmapRec_eq (e.K k) e.nq ls R e.pm (e.idxc k) (e.idxl k) f memP memU memA e.mem hP hL,
      fun i => rfl, fun i hi => ?_, fun i hi => ?_, fun c => ?_, fun c => ?_⟩⟩
  · rw [hCov, hcr, hva, vmapBasis_eq, ← vmapBasisMat_eq]
    exact isBlup_scaled hP hLi _ _ _ hs2
  · rw [hCov, hcr, hva, predErr_smul, predErr_smul]
    exact mul_lt_mul_of_pos_left (inv_isBest hP _ _ _ hw) hs2
  · rw [hCov, hcr, hva, predErr_smul, ← cSqrt_scale hs]
    exact if_neg (not_lt.2 hi)
  · rw [hCov, hcr, hva, predErr_smul, ← cSqrt_scale hs]
    exact if_pos hi
  · simp [vCoef]
  · rw [hCov, ← vmapBasisMat_eq, glsCoef_smul _ hs2.ne' hP.det_pos.ne' (trend_posDef hP hLi).det_pos.ne']
    simp [vCoef]

/-- C84 (partial: widths within the band around the damping timescale are excluded; the reconstruction has no more lines than
the data): with the transfer functions of the code all errors are numbers, not NaN. -/
theorem C84_error_partial (nq ng : ℕ) (lin : Bool) (typ : ℕ → TF) (pm : ℕ → ℝ) (idxc : ℕ → ℕ) (idxl : ℕ → ℕ → ℕ)
    (mem : ℕ → ℝ) (k : ℕ) (ls : List LC) (R : DSet) (hf : (KEnv.mk ng lin typ pm (idxc k) (idxl k)).Far ls.length)
    (hR : R.line.length ≤ ls.length)
    (hN : ∀ j a, ls[j]? = some a → ∀ i < a.n, 0 < a.fe i ^ 2 + ((Real.exp (pm (idxl k j)) - 1) * a.em) ^ 2)
    (hL : ∀ a ∈ ls, EnoughTimes a nq) (f : Fin (totalN ls) → ℝ) (memP memU memA : ℕ → ℝ) :
    ∃ r, vmapRec (KEnv.mk ng lin typ pm (idxc k) (idxl k)).kernels nq ls R pm (idxc k) (idxl k) f memP memU memA = .ok r ∧
      ∀ i, ∃ v, r.err i = some v ∧ 0 ≤ v := by
  set ke := KEnv.mk ng lin typ pm (idxc k) (idxl k) with hke
  set e := vmapEnv nq ng lin typ pm idxc idxl mem with he
  obtain ⟨W, V, _, _, h⟩ := C84_reconstruct e k ls R (vmap_posDef nq ng lin typ pm idxc idxl mem k ls hf hN) hL
  obtain ⟨r, h1, _, h3, h4, _⟩ := h f memP memU memA
  have hpe : ∀ (i : Fin R.nall) w, 0 ≤ predErr (vmapCov e k ls) (vmapCross e k ls (R.pt i)) (vmapVar e k (R.pt i)) w := by
    intro i w
    have hs2 : 0 < vSigma pm (idxc k) ^ 2 := by have := vSigma_pos pm (idxc k); positivity
    have hCov : vmapCov e k ls = vSigma pm (idxc k) ^ 2 • vPC ke.kernels pm (idxc k) (idxl k) ls mem := by
      rw [sq]; exact (vPC_cov e k ls).symm
    have hcr : vmapCross e k ls (R.pt i) = vSigma pm (idxc k) ^ 2 • fun q : Fin (totalN ls) =>
        pointCov ke.kernels ke.taud (R.pt i) (vPt ls q) := by
      funext q
      simp only [vPt_eq]
      rfl
    have hva : vmapVar e k (R.pt i) = vSigma pm (idxc k) ^ 2 * pointCov ke.kernels ke.taud (R.pt i) (R.pt i) := rfl
    rw [hCov, hcr, hva, predErr_smul]
    refine mul_nonneg hs2.le ?_
    let x : Fin (totalN ls + 1) → ℕ × ℝ := Fin.cons (R.pt i) fun q => vPt ls q
    have hi : (R.pt i).1 ≤ ls.length := (pt_le R i.2).trans hR
    have hv : ∀ q : Fin (totalN ls), (vPt ls q).1 ≤ ls.length := by
      intro q
      rw [vPt_eq]
      have := locate_le ls q q.2
      simp only; omega
    have hx : ∀ p, (x p).1 ≤ ls.length := by
      intro p
      refine Fin.cases ?_ (fun q => ?_) p
      · exact hi
      · simp only [x, Fin.cons_succ]; exact hv q
    refine predErr_nonneg _ (pointCov_posSemidef hf x hx) ?_ ?_ ?_
      (fun q => noiseVar (vSet ls) (vPm pm (idxc k) (idxl k)) 0 (fun j => j + 3) ((locate ls q).1 + 1, (locate ls q).2))
      (fun q => noiseVar_nonneg _ _ _ _ _) ?_ w
    · simp [x, hke]
    · intro q; simp [x, hke]
    · intro q
      simp only [x, Matrix.of_apply, Fin.cons_zero, Fin.cons_succ]
      exact pointCov_comm hf (hv q) hi
    · intro p q
      rw [vPC_apply, covEntry]
      have ht : pmTau (vPm pm (idxc k) (idxl k)) 0 = ke.taud := rfl
      have hp := locate_le ls p p.2
      have hq := locate_le ls q q.2
      rw [ht, sigCov_ideal hf (vSet ls) _ _ (by simp only; omega) (by simp only; omega),
        pointCov_ideal hf (vSet ls) (by simp only; omega) (by simp only; omega)]
      congr 1
      · by_cases hpq : p = q
        · subst hpq; simp
        · rw [if_neg hpq, if_neg]
          intro hh
          rw [Prod.mk.injEq] at hh
          exact hpq (Fin.ext (locate_inj ls p q p.2 q.2 (Prod.ext (by omega) hh.2)))
  refine ⟨r, h1, fun i => ?_⟩
  rcases Nat.lt_or_ge i R.con.n with hi | hi
  · rw [h4 i hi, cSqrt, if_neg (not_lt.2 (hpe i _))]
    exact ⟨_, rfl, Real.sqrt_nonneg _⟩
  · rw [h3 i hi, cSqrt, if_neg (not_lt.2 (hpe i _))]
    exact ⟨_, rfl, Real.sqrt_nonneg _⟩

/-- Two lines of one point each, Gaussian transfer functions; a virtual continuum of two nodes. -/
example : ∃ r, vmapRec (KEnv.mk 1 false (fun _ => .gauss) (fun i => i) 0 (fun j => 3 + 4 * j)).kernels 1 [vOne, vOne]
    ⟨⟨2, fun i => i, fun _ => 0, fun _ => 0, 0⟩, [vOne, vOne]⟩ (fun i => i) 0 (fun j => 3 + 4 * j) (fun i => i) (fun _ => 0)
    (fun _ => 0) (fun _ => 0) = .ok r ∧ ∀ i, ∃ v, r.err i = some v ∧ 0 ≤ v := by
  refine C84_error_partial 1 1 false (fun _ => .gauss) (fun i => i) (fun _ => 0) (fun _ j => 3 + 4 * j) (fun _ => 0) 0
    [vOne, vOne] _ ?_ le_rfl ?_ ?_ _ _ _ _
  · intro j _ m _
    exact ⟨by simp [FarC], fun j' _ k' _ => by simp [FarL]⟩
  · intro j a ha i _
    have : a = vOne := by simpa using List.mem_of_getElem? ha
    subst this
    simp only [vOne]
    positivity
  · intro a ha
    have : a = vOne := by simpa using ha
    subst this
    exact ⟨fun _ => ⟨0, by norm_num [vOne]⟩, fun x y _ => Subsingleton.elim (α := Fin 1) x y⟩

/-! ### C85 -/

theorem vBegEnd_spec (lines : List (ℝ × ℝ)) (l : ℝ × ℝ) (hl : l ∈ lines) :
    (vBegEnd lines).1 ≤ l.1 ∧ l.2 ≤ (vBegEnd lines).2 := by
  have key : ∀ (ls : List (ℝ × ℝ)) (a : ℝ × ℝ), (∀ l ∈ a :: ls,
      (ls.foldl (fun a l => (min a.1 l.1, max a.2 l.2)) a).1 ≤ l.1 ∧ l.2 ≤ (ls.foldl (fun a l => (min a.1 l.1, max a.2 l.2)) a).2) := by
    intro ls
    induction ls with
    | nil => simp
    | cons b t ih =>
      intro a l hl
      simp only [List.foldl_cons]
      have h0 := ih (min a.1 b.1, max a.2 b.2) (min a.1 b.1, max a.2 b.2) (by simp)
      rcases List.mem_cons.1 hl with rfl | hl
      · exact ⟨h0.1.trans (min_le_left _ _), (le_max_left _ _).trans h0.2⟩
      · rcases List.mem_cons.1 hl with rfl | hl
        · exact ⟨h0.1.trans (min_le_right _ _), (le_max_right _ _).trans h0.2⟩
        · exact ih _ l (List.mem_cons_of_mem _ hl)
  exact key lines _ l (List.mem_cons_of_mem _ hl)

/-- The window is exactly that of the lines if some line ends at a time that is not negative. -/
theorem vBegEnd_attained (lines : List (ℝ × ℝ)) (hlt : ∀ l ∈ lines, l.1 ≤ DBL_MAX) (h0 : ∃ l ∈ lines, 0 ≤ l.2) :
    (∃ l ∈ lines, (vBegEnd lines).1 = l.1) ∧ ∃ l ∈ lines, (vBegEnd lines).2 = l.2 := by
  have key : ∀ (ls : List (ℝ × ℝ)) (a : ℝ × ℝ),
      ((ls.foldl (fun a l => (min a.1 l.1, max a.2 l.2)) a).1 = a.1 ∨
        ∃ l ∈ ls, (ls.foldl (fun a l => (min a.1 l.1, max a.2 l.2)) a).1 = l.1) ∧
      ((ls.foldl (fun a l => (min a.1 l.1, max a.2 l.2)) a).2 = a.2 ∨
        ∃ l ∈ ls, (ls.foldl (fun a l => (min a.1 l.1, max a.2 l.2)) a).2 = l.2) := by
    intro ls
    induction ls with
    | nil => simp
    | cons b t ih =>
      intro a
      simp only [List.foldl_cons]
      obtain ⟨h1, h2⟩ := ih (min a.1 b.1, max a.2 b.2)
      constructor
      · rcases h1 with h1 | ⟨l, hl, h1⟩
        · rcases min_choice a.1 b.1 with h | h
          · left; rw [h1, h]
          · right; exact ⟨b, by simp, by rw [h1, h]⟩
        · right; exact ⟨l, by simp [hl], h1⟩
      · rcases h2 with h2 | ⟨l, hl, h2⟩
        · rcases max_choice a.2 b.2 with h | h
          · left; rw [h2, h]
          · right; exact ⟨b, by simp, by rw [h2, h]⟩
        · right; exact ⟨l, by simp [hl], h2⟩
  obtain ⟨l0, hl0, hl00⟩ := h0
  obtain ⟨s1, s2⟩ := vBegEnd_spec lines l0 hl0
  obtain ⟨h1, h2⟩ := key lines (DBL_MAX, 0)
  change ((vBegEnd lines).1 = _ ∨ ∃ l ∈ lines, (vBegEnd lines).1 = _) at h1
  change ((vBegEnd lines).2 = _ ∨ ∃ l ∈ lines, (vBegEnd lines).2 = _) at h2
  constructor
  · rcases h1 with h1 | h1
    · exact ⟨l0, hl0, le_antisymm s1 (by rw [h1]; exact hlt l0 hl0)⟩
    · exact h1
  · rcases h2 with h2 | h2
    · exact ⟨l0, hl0, le_antisymm (by rw [h2]; exact hl00) s2⟩
    · exact h2

/-- Nodes: no more than asked for; three per point of the line with most points, if that is less. -/
theorem vNumNodes_spec (ns : List ℕ) (ndRec : ℕ) :
    vNumNodes ns ndRec ≤ ndRec ∧ (∀ n ∈ ns, min (n * 3) ndRec ≤ vNumNodes ns ndRec) ∧
    (ns ≠ [] → ∃ n ∈ ns, vNumNodes ns ndRec = min (n * 3) ndRec) := by
  have key : ∀ (ns : List ℕ) (a : ℕ), a ≤ ndRec →
      ns.foldl (fun a n => max a (min (n * 3) ndRec)) a ≤ ndRec ∧ a ≤ ns.foldl (fun a n => max a (min (n * 3) ndRec)) a ∧
      (∀ n ∈ ns, min (n * 3) ndRec ≤ ns.foldl (fun a n => max a (min (n * 3) ndRec)) a) ∧
      (ns.foldl (fun a n => max a (min (n * 3) ndRec)) a = a ∨
        ∃ n ∈ ns, ns.foldl (fun a n => max a (min (n * 3) ndRec)) a = min (n * 3) ndRec) := by
    intro ns
    induction ns with
    | nil => intro a ha; simpa using ha
    | cons b t ih =>
      intro a ha
      simp only [List.foldl_cons]
      obtain ⟨h1, h2, h3, h4⟩ := ih (max a (min (b * 3) ndRec)) (by omega)
      refine ⟨h1, (le_max_left _ _).trans h2, ?_, ?_⟩
      · intro n hn
        rcases List.mem_cons.1 hn with rfl | hn
        · exact (le_max_right _ _).trans h2
        · exact h3 n hn
      · rcases h4 with h4 | ⟨n, hn, h4⟩
        · rcases max_choice a (min (b * 3) ndRec) with h | h
          · left; rw [h4, h]
          · right; exact ⟨b, by simp, by rw [h4, h]⟩
        · right; exact ⟨n, by simp [hn], h4⟩
  obtain ⟨h1, _, h3, h4⟩ := key ns 0 (Nat.zero_le _)
  refine ⟨h1, h3, fun hne => ?_⟩
  rcases h4 with h4 | h4
  · obtain ⟨n, hn⟩ := List.exists_mem_of_ne_nil _ hne
    have := h3 n hn
    exact ⟨n, hn, by unfold vNumNodes; omega⟩
  · exact h4

/-- C85 (partial: two nodes or more; some line ends at a time that is not negative): the nodes of the virtual continuum and of all lines are
equally spaced and strictly increasing; they begin and end 5 per cent of the (extended) span outside
the first and last time of all lines. -/
theorem C85_nodes_partial (lines : List (ℝ × ℝ)) (lowExt uppExt : ℝ) (ns : List ℕ) (ndRec : ℕ)
    (hn : 2 ≤ vNumNodes ns ndRec) (hlt : ∀ l ∈ lines, l.1 ≤ DBL_MAX) (h0 : ∃ l ∈ lines, 0 ≤ l.2) :
    ∃ tbeg tend : ℝ, (∃ l ∈ lines, tbeg = l.1) ∧ (∃ l ∈ lines, tend = l.2) ∧ (∀ l ∈ lines, tbeg ≤ l.1 ∧ l.2 ≤ tend) ∧
      (tbeg + lowExt < tend + uppExt →
        ∃ t : ℕ → ℝ, (∀ j, recNode (recWindow lowExt uppExt (vBegEnd lines)) (vNumNodes ns ndRec) j = .ok (t j)) ∧
        (∃ d > 0, ∀ j, t (j + 1) - t j = d) ∧
        t 0 = tbeg + lowExt - 0.05 * (tend + uppExt - (tbeg + lowExt)) ∧
        t (vNumNodes ns ndRec - 1) = tend + uppExt + 0.05 * (tend + uppExt - (tbeg + lowExt))) := by
  obtain ⟨a1, a2⟩ := vBegEnd_attained lines hlt h0
  refine ⟨(vBegEnd lines).1, (vBegEnd lines).2, a1, a2, fun l hl => vBegEnd_spec lines l hl, fun hspan => ?_⟩
  set N := vNumNodes ns ndRec with hN
  set b := vBegEnd lines with hb
  set w := recWindow lowExt uppExt b with hw
  have hNr : (2 : ℝ) ≤ N := by exact_mod_cast hn
  have hw1 : w.1 = b.1 + lowExt - 0.05 * (b.2 + uppExt - (b.1 + lowExt)) := rfl
  have hw2 : w.2 = b.2 + uppExt + 0.05 * (b.2 + uppExt - (b.1 + lowExt)) := rfl
  have hww : w.1 < w.2 := by rw [hw1, hw2]; norm_num; linarith
  refine ⟨fun j => (w.2 - w.1) / (N - 1) * j + w.1, ?_, ⟨(w.2 - w.1) / (N - 1), ?_, ?_⟩, ?_, ?_⟩
  · intro j
    unfold recNode
    rw [if_neg (by linarith)]
  · apply div_pos <;> linarith
  · intro j; push_cast; ring
  · simp only [Nat.cast_zero, mul_zero, zero_add]
    exact hw1
  · have e : ((N - 1 : ℕ) : ℝ) = N - 1 := by rw [Nat.cast_sub (by omega)]; simp
    have hne : ((N : ℝ) - 1) ≠ 0 := by linarith
    change (w.2 - w.1) / (N - 1) * ((N - 1 : ℕ) : ℝ) + w.1 = _
    rw [e, div_mul_cancel₀ _ hne, sub_add_cancel, hw2]

/-- C85: the number of nodes is the same for the virtual continuum and all lines, at most the number asked for, and three
per point of the line with most points if that is less. -/
theorem C85_count (ns : List ℕ) (ndRec : ℕ) (hne : ns ≠ []) :
    ∃ n ∈ ns, (∀ n' ∈ ns, n' ≤ n) ∧ vNumNodes ns ndRec = min (3 * n) ndRec := by
  obtain ⟨h1, h2, h3⟩ := vNumNodes_spec ns ndRec
  have hmax : ∀ ns : List ℕ, ns ≠ [] → ∃ n ∈ ns, ∀ n' ∈ ns, n' ≤ n := by
    intro ns
    induction ns with
    | nil => intro h; exact absurd rfl h
    | cons a t ih =>
      intro _
      by_cases ht : t = []
      · subst ht; exact ⟨a, by simp, by simp⟩
      · obtain ⟨n, hn, hh⟩ := ih ht
        by_cases han : a ≤ n
        · refine ⟨n, by simp [hn], fun n' hn' => ?_⟩
          rcases List.mem_cons.1 hn' with rfl | h
          · exact han
          · exact hh n' h
        · refine ⟨a, by simp, fun n' hn' => ?_⟩
          rcases List.mem_cons.1 hn' with rfl | h
          · exact le_rfl
          · have := hh n' h; omega
  obtain ⟨n, hn, hh⟩ := hmax ns hne
  refine ⟨n, hn, hh, ?_⟩
  obtain ⟨m, hm, hm2⟩ := h3 hne
  have := h2 n hn
  have := hh m hm
  omega

/-- C85 fails for times that are all negative: the window ends at zero (plus the extension and the margin),
whatever the data. -/
theorem C85_negative_times (lines : List (ℝ × ℝ)) (h : ∀ l ∈ lines, l.2 < 0) (lowExt uppExt : ℝ) :
    (recWindow lowExt uppExt (vBegEnd lines)).2 =
      uppExt + 0.05 * (uppExt - ((vBegEnd lines).1 + lowExt)) := by
  have key : ∀ (ls : List (ℝ × ℝ)) (a : ℝ × ℝ), a.2 = 0 → (∀ l ∈ ls, l.2 < 0) →
      (ls.foldl (fun a l => (min a.1 l.1, max a.2 l.2)) a).2 = 0 := by
    intro ls
    induction ls with
    | nil => intro a ha _; exact ha
    | cons b t ih =>
      intro a ha hh
      simp only [List.foldl_cons]
      apply ih
      · change max a.2 b.2 = 0
        rw [ha, max_eq_left (hh b (by simp)).le]
      · exact fun l hl => hh l (List.mem_cons_of_mem _ hl)
  have h2 : (vBegEnd lines).2 = 0 := key lines _ rfl h
  change (vBegEnd lines).2 + uppExt + 0.05 * ((vBegEnd lines).2 + uppExt - ((vBegEnd lines).1 + lowExt)) = _
  rw [h2]
  ring

/-- Two lines from -1000 to -900: the nodes go on to +50 instead of -895. -/
example : (recWindow 0 0 (vBegEnd [(-1000, -900), (-990, -910)])).2 = 50 := by
  rw [C85_negative_times _ (by simp)]
  have : (vBegEnd [(-1000, -900), (-990, -910)]).1 = -1000 := by
    have hb := DBL_MAX_pos
    simp only [vBegEnd, List.foldl_cons, List.foldl_nil]
    rw [min_eq_right (show (-1000 : ℝ) ≤ DBL_MAX by linarith), min_eq_left (by norm_num)]
  rw [this]
  norm_num

/-- Two lines of 30 and 40 points, 200 nodes asked for. -/
example : vNumNodes [30, 40] 200 = 120 := by decide

/-! ### C86 -/

theorem map_sub_sum (y : List ℝ) (m : ℝ) : (y.map fun v => v - m).sum = y.sum - y.length * m := by
  induction y with
  | nil => simp
  | cons a t ih => simp only [List.map_cons, List.sum_cons, ih, List.length_cons]; push_cast; ring

theorem lcStd_nonneg (y : List ℝ) {s : ℝ} (hs : 0 < s) : 0 ≤ lcStd y s := div_nonneg (Real.sqrt_nonneg _) hs.le

theorem sum_sq_zero (y : List ℝ) (m : ℝ) (h : (y.map fun v => (v - m) * (v - m)).sum = 0) : ∀ v ∈ y, v = m := by
  induction y with
  | nil => simp
  | cons a t ih =>
    simp only [List.map_cons, List.sum_cons] at h
    have h1 : 0 ≤ (t.map fun v => (v - m) * (v - m)).sum :=
      List.sum_nonneg (by intro x hx; obtain ⟨v, _, rfl⟩ := List.mem_map.1 hx; exact mul_self_nonneg _)
    have h2 := mul_self_nonneg (a - m)
    intro v hv
    rcases List.mem_cons.1 hv with rfl | hv
    · have : (v - m) * (v - m) = 0 := by linarith
      have := mul_self_eq_zero.1 this
      linarith
    · exact ih (by linarith) v hv

/-- The scale is zero exactly for constant light curves. -/
theorem lcStd_zero_iff (y : List ℝ) {s : ℝ} (hs : 0 < s) : lcStd y s = 0 ↔ ∀ v ∈ y, v = lcMean y := by
  by_cases hy : y = []
  · subst hy; simp [lcStd]
  have hn : (0 : ℝ) < y.length := by exact_mod_cast List.length_pos_iff.2 hy
  have h1 : 0 ≤ (y.map fun v => (v - lcMean y) * (v - lcMean y)).sum :=
    List.sum_nonneg (by intro x hx; obtain ⟨v, _, rfl⟩ := List.mem_map.1 hx; exact mul_self_nonneg _)
  constructor
  · intro h
    have : Real.sqrt ((y.map fun v => (v - lcMean y) * (v - lcMean y)).sum / y.length) = 0 := by
      rcases div_eq_zero_iff.1 h with h | h
      · exact h
      · exact absurd h hs.ne'
    rw [Real.sqrt_eq_zero (div_nonneg h1 hn.le)] at this
    rcases div_eq_zero_iff.1 this with h | h
    · exact sum_sq_zero y _ h
    · exact absurd h hn.ne'
  · intro h
    have : (y.map fun v => (v - lcMean y) * (v - lcMean y)) = y.map fun _ => (0 : ℝ) :=
      List.map_congr_left fun v hv => by rw [← h v hv]; ring
    rw [lcStd, this]
    simp

/-- C86: the normalised virtual light curve of a posterior sample, if it is not constant over the nodes, has the mean zero and the standard
deviation `std` (0.1 in the code) over the nodes. -/
theorem C86_normalised (y : List ℝ) {std : ℝ} (hs : 0 < std) (hv : ∃ v ∈ y, ∃ v' ∈ y, v ≠ v') :
    ∃ z : List ℝ, lcNormalize y std = z.map some ∧ z.length = y.length ∧ z.sum = 0 ∧
      (z.map fun v => v ^ 2).sum = y.length * std ^ 2 := by
  have hn0 : lcStd y std ≠ 0 := by
    intro h
    obtain ⟨v, h1, v', h2, h3⟩ := hv
    have h4 := (lcStd_zero_iff y hs).1 h
    exact h3 ((h4 v h1).trans (h4 v' h2).symm)
  have hn : (0 : ℝ) < y.length := by
    obtain ⟨v, h1, _⟩ := hv
    exact_mod_cast List.length_pos_of_mem h1
  refine ⟨y.map fun v => (v - lcMean y) / lcStd y std, ?_, by simp, ?_, ?_⟩
  · simp [lcNormalize, hn0]
  · have : (y.map fun v => (v - lcMean y) / lcStd y std).sum = (y.map fun v => v - lcMean y).sum / lcStd y std := by
      simp only [div_eq_mul_inv, List.sum_map_mul_right]
    rw [this, map_sub_sum, lcMean, mul_div_cancel₀ _ hn.ne', sub_self, zero_div]
  · have hq : 0 ≤ (y.map fun v => (v - lcMean y) * (v - lcMean y)).sum :=
      List.sum_nonneg (by intro x hx; obtain ⟨v, _, rfl⟩ := List.mem_map.1 hx; exact mul_self_nonneg _)
    have h1 : ((y.map fun v => (v - lcMean y) / lcStd y std).map fun v => v ^ 2).sum =
        (y.map fun v => (v - lcMean y) * (v - lcMean y)).sum / lcStd y std ^ 2 := by
      rw [List.map_map, div_eq_mul_inv, ← List.sum_map_mul_right]
      congr 1
      refine List.map_congr_left fun v _ => ?_
      simp only [Function.comp]
      field_simp
    have h2 : lcStd y std ^ 2 = (y.map fun v => (v - lcMean y) * (v - lcMean y)).sum / y.length / std ^ 2 := by
      rw [lcStd, div_pow, Real.sq_sqrt (div_nonneg hq hn.le)]
    have h3 : (y.map fun v => (v - lcMean y) * (v - lcMean y)).sum ≠ 0 := by
      intro h0
      rw [h0, zero_div, zero_div] at h2
      exact hn0 (pow_eq_zero_iff (two_ne_zero) |>.1 h2)
    rw [h1, h2]
    generalize (y.map fun v => (v - lcMean y) * (v - lcMean y)).sum = q at h3
    have h4 := hn.ne'
    have h5 := hs.ne'
    field_simp

/-- C86: shifting the virtual light curve and multiplying it by a positive factor, which no data can measure, does not change what is
written. -/
theorem C86_units (y : List ℝ) (std a b : ℝ) (ha : 0 < a) :
    lcNormalize (y.map fun v => a * v + b) std = lcNormalize y std := by
  by_cases hy : y = []
  · subst hy; rfl
  have hn : (y.length : ℝ) ≠ 0 := by
    have := List.length_pos_iff.2 hy
    exact_mod_cast this.ne'
  have hm : lcMean (y.map fun v => a * v + b) = a * lcMean y + b := by
    have hs : ∀ l : List ℝ, (l.map fun v => a * v + b).sum = a * l.sum + l.length * b := by
      intro l
      induction l with
      | nil => simp
      | cons x t ih => simp only [List.map_cons, List.sum_cons, ih, List.length_cons]; push_cast; ring
    simp only [lcMean, List.length_map]
    rw [hs, add_div, mul_div_assoc, mul_div_cancel_left₀ _ hn]
  have hst : lcStd (y.map fun v => a * v + b) std = a * lcStd y std := by
    simp only [lcStd, hm, List.map_map, List.length_map]
    have : (y.map ((fun v => (v - (a * lcMean y + b)) * (v - (a * lcMean y + b))) ∘ fun v => a * v + b)).sum =
        a ^ 2 * (y.map fun v => (v - lcMean y) * (v - lcMean y)).sum := by
      rw [← List.sum_map_mul_left]
      congr 1
      refine List.map_congr_left fun v _ => ?_
      simp only [Function.comp]
      ring
    rw [this, mul_div_assoc, Real.sqrt_mul (by positivity), Real.sqrt_sq ha.le, mul_div_assoc]
  simp only [lcNormalize, hm, hst, List.map_map]
  refine List.map_congr_left fun v _ => ?_
  simp only [Function.comp]
  by_cases h0 : lcStd y std = 0
  · rw [if_pos h0, if_pos (by rw [h0, mul_zero])]
  · rw [if_neg h0, if_neg (mul_ne_zero ha.ne' h0)]
    congr 1
    have := ha.ne'
    field_simp
    ring

/-- C86: a constant light curve, in particular a single node, becomes NaN. -/
theorem C86_constant (v : ℝ) (n : ℕ) {std : ℝ} (hs : 0 < std) :
    lcNormalize (List.replicate n v) std = List.replicate n none := by
  have hm : ∀ w ∈ List.replicate n v, w = lcMean (List.replicate n v) := by
    intro w hw
    obtain ⟨hn, rfl⟩ := List.mem_replicate.1 hw
    have : (n : ℝ) ≠ 0 := by exact_mod_cast hn
    simp [lcMean, this]
  have h0 := (lcStd_zero_iff _ hs).2 hm
  rw [lcNormalize]
  simp [h0]

/-- C86: what is written for a node of the virtual continuum is the mean over all posterior samples and the standard
deviation among them, for every number of tasks. -/
theorem C86_tasks (g : List ℝ → ℝ × ℝ) (s : List (List ℝ)) (np T : ℕ)
    (hs : ∀ x ∈ s, x.length = np) (hne : s ≠ []) (hT : 0 < T) :
    ∃ m sd, reconstructVirtual g s.flatten s.length T np = .ok (m, sd) ∧
      s.length * m = (s.map fun x => (g x).1).sum ∧ 0 ≤ sd ∧
      s.length * sd ^ 2 = (s.map fun x => ((g x).1 - m) ^ 2).sum := by
  obtain ⟨m, var, emax, h, h1, h2, h3, _⟩ := C65_reconstruct (fun x => ((g x).1, 0)) s np T hs hne hT
  have hn : (s.length : ℝ) ≠ 0 := by
    have : s.length ≠ 0 := by simpa using hne
    exact_mod_cast this
  have hred : reduceTasks g s.flatten s.length T np (T - 1) = .ok (accTask g s) := by
    rw [reduceTasks_eq g hs (T - 1) (by omega), Nat.sub_add_cancel hT,
      accTask_perm g (allParts_perm hT)]
  set S := (s.map fun x => (g x).1).sum with hS
  set Q := (s.map fun x => (g x).1 * (g x).1).sum with hQ
  have hb : (accTask g s).best = S ∧ (accTask g s).sq = Q := by
    unfold accTask; rw [accFold]; simp [hS, hQ]
  have hm : m = S / s.length := by
    rw [eq_div_iff hn, mul_comm]; exact h1
  have hvar : s.length * (Q / s.length - S / s.length * (S / s.length)) =
      (s.map fun x => ((g x).1 - S / s.length) ^ 2).sum := by
    have := sumSq_dev (s.map fun x => (g x).1) (S / s.length)
    rw [List.map_map, List.map_map, List.length_map] at this
    change (s.map fun x => ((g x).1 - S / s.length) ^ 2).sum = Q - 2 * (S / s.length) * S + _ at this
    rw [this]
    field_simp
    ring
  have hv : var = Q / s.length - S / s.length * (S / s.length) := by
    have : (s.length : ℝ) * var = s.length * (Q / s.length - S / s.length * (S / s.length)) := by
      rw [h2, hvar, hm]
    exact mul_left_cancel₀ hn this
  refine ⟨m, Real.sqrt var, ?_, h1, Real.sqrt_nonneg _, ?_⟩
  · unfold reconstructVirtual
    rw [hred, Res.ok_bind, accOutVirtual, hb.1, hb.2, hv, hm]
  · rw [Real.sq_sqrt h3]; exact h2

/-- Three nodes: mean and scale removed. -/
example : ∃ z : List ℝ, lcNormalize [1, 2, 6] (1 / 10) = z.map some ∧ z.length = 3 ∧ z.sum = 0 ∧
    (z.map fun v => v ^ 2).sum = ((3 : ℕ) : ℝ) * (1 / 10) ^ 2 :=
  C86_normalised [1, 2, 6] (std := 1 / 10) (by norm_num) ⟨1, by simp, 2, by simp, by norm_num⟩

example : ∃ m sd, reconstructVirtual (fun x => (x.getD 0 0, 5)) [3, 7] 2 1 1 = .ok (m, sd) ∧ 2 * m = 10 ∧ 0 ≤ sd := by
  obtain ⟨m, sd, h, h1, h2, _⟩ := C86_tasks (fun x => (x.getD 0 0, 5)) [[3], [7]] 1 1 (by simp) (by simp) (by norm_num)
  refine ⟨m, sd, h, ?_, h2⟩
  norm_num at h1
  exact h1

end Mica
