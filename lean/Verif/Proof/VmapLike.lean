import Verif.Model.VmapLike
import Verif.Proof.Line

/-! Helper lemmas about the likelihood of the virtual-continuum mode. -/

namespace Mica

open Matrix

/-- The data set with an empty continuum. -/
noncomputable def vSet (ls : List LC) : DSet := ⟨⟨0, fun _ => 0, fun _ => 0, fun _ => 0, 0⟩, ls⟩

/-- Parameters in another order, with which the formulas of the other modes have the `sigma` of this one. -/
noncomputable def vPm (pm : ℕ → ℝ) (idxc : ℕ) (idxl : ℕ → ℕ) : ℕ → ℝ
  | 0 => 0
  | 1 => pm (idxc + 1) - pm (idxc + 2) / 2
  | 2 => pm (idxc + 2)
  | j + 3 => pm (idxl j)

theorem vPm_sigma (pm : ℕ → ℝ) (idxc : ℕ) (idxl : ℕ → ℕ) : pmSigma (vPm pm idxc idxl) 0 = vSigma pm idxc := by
  simp only [pmSigma, pmTau, vPm, vSigma]
  rw [Real.sqrt_eq_rpow, ← Real.exp_mul, ← Real.exp_add]
  congr 1
  ring

theorem vPm_tau (pm : ℕ → ℝ) (idxc : ℕ) (idxl : ℕ → ℕ) : pmTau (vPm pm idxc idxl) 0 = Real.exp (pm (idxc + 2)) := rfl

theorem vPm_syserr (pm : ℕ → ℝ) (idxc : ℕ) (idxl : ℕ → ℕ) (j : ℕ) (em : ℝ) :
    pmSyserr (vPm pm idxc idxl) (j + 3) em = pmSyserr pm (idxl j) em := rfl

theorem llWritesArr_vPm (K : Kernels) (pm : ℕ → ℝ) (idxc : ℕ) (idxl : ℕ → ℕ) (sigma : ℝ) (nall : ℕ) (ls : List LC)
    (j np : ℕ) : llWritesArr K sigma (vPm pm idxc idxl) (fun j => j + 3) nall ls j np =
      llWritesArr K sigma pm idxl nall ls j np := by
  induction ls generalizing j np with
  | nil => rfl
  | cons a l ih =>
    simp only [llWritesArr, ih, vPm_syserr]

theorem lcWritesArr_empty (S : ℝ → ℝ → ℕ → ℝ) (nall : ℕ) (con : LC) (h : con.n = 0) (ls : List LC) (j np : ℕ) :
    lcWritesArr S nall con ls j np = [] := by
  induction ls generalizing j np with
  | nil => rfl
  | cons a l ih => simp [lcWritesArr, ih, h]

theorem vSet_nall (ls : List LC) : (vSet ls).nall = totalN ls := by
  simp [DSet.nall, DSet.series, vSet, totalN]

theorem vWrites_eq (K : Kernels) (pm : ℕ → ℝ) (idxc : ℕ) (idxl : ℕ → ℕ) (ls : List LC) :
    vWrites K pm idxc idxl ls = lineWritesArr K (vSet ls) (vPm pm idxc idxl) 0 (fun j => j + 3) := by
  rw [lineWritesArr, vPm_sigma, vSet_nall]
  simp only [lcWritesArr_empty _ _ (vSet ls).con rfl, List.append_nil]
  have hc : ∀ s t y n, ccWrites s t y n (vSet ls).con = [] := fun s t y n => by simp [ccWrites, vSet]
  rw [hc, List.nil_append, llWritesArr_vPm]
  rfl

theorem vLocate (ls : List LC) (p : ℕ) : locate (vSet ls).series p = ((locate ls p).1 + 1, (locate ls p).2) := by
  simp [vSet, DSet.series, locate]

/-- The content of the matrix. -/
theorem vPC_apply (K : Kernels) (pm : ℕ → ℝ) (idxc : ℕ) (idxl : ℕ → ℕ) (ls : List LC) (mem : ℕ → ℝ)
    (p q : Fin (totalN ls)) : vPC K pm idxc idxl ls mem p q =
      covEntry K (vSet ls) (vPm pm idxc idxl) 0 (fun j => j + 3) ((locate ls p).1 + 1, (locate ls p).2)
        ((locate ls q).1 + 1, (locate ls q).2) := by
  have h := runWrites_lineArr K (vSet ls) (vPm pm idxc idxl) 0 (fun j => j + 3) mem (p := p) (q := q)
    (by rw [vSet_nall]; exact p.2) (by rw [vSet_nall]; exact q.2)
  rw [vLocate, vLocate, ← vWrites_eq, vSet_nall] at h
  exact h

theorem vTrend_injective (nq : ℕ) (ls : List LC) (h : ∀ a ∈ ls, EnoughTimes a nq) :
    Function.Injective (vTrend nq ls).mulVec := by
  intro x y hxy
  have key : ∀ s (_ : s < ls.length), ∀ (j : ℕ) (_ : j < nq) (hb : s * nq + j < nq * ls.length),
      x ⟨s * nq + j, hb⟩ = y ⟨s * nq + j, hb⟩ := by
    intro s hs' j hj hb
    obtain ⟨pre, post, hsp, hlen⟩ : ∃ pre post, ls = pre ++ ls[s] :: post ∧ pre.length = s :=
      ⟨ls.take s, ls.drop (s + 1), by simp, by simp; omega⟩
    set a := ls[s] with ha
    obtain ⟨e, he⟩ := h a (List.getElem_mem hs')
    have hinj := trendMat_injective a.t a.n nq e he
    have hbd : s * nq + nq ≤ nq * ls.length := by
      calc s * nq + nq = nq * (s + 1) := by ring
        _ ≤ _ := Nat.mul_le_mul_left _ (by omega)
    have hrow : ∀ (z : Fin (nq * ls.length) → ℝ) (m : ℕ) (hm : m < a.n)
        (hp : totalN pre + m < totalN ls), (vTrend nq ls).mulVec z ⟨totalN pre + m, hp⟩ =
        (trendMat a.t a.n nq).mulVec (fun j => z ⟨s * nq + j, by omega⟩) ⟨m, hm⟩ := by
      intro z m hm hp
      have hr : ∀ c, trendRow nq ls 0 (totalN pre + m) c =
          if s * nq ≤ c ∧ c < s * nq + nq then a.t m ^ (c - s * nq) else 0 := by
        intro c
        have := trendRow_split nq 0 pre a post m c hm
        rw [← hsp, zero_add, hlen] at this
        exact this
      simp only [Matrix.mulVec, dotProduct, vTrend, hr]
      rw [sum_block _ nq (s * nq) hbd (fun k => a.t m ^ k) z]
      apply Finset.sum_congr rfl
      intro k _
      congr 1
      simp only [trendMat]
      split
      · rename_i h; rw [h, pow_zero]
      · rfl
    have heq : (fun j : Fin nq => x ⟨s * nq + j, by omega⟩) = fun j : Fin nq => y ⟨s * nq + j, by omega⟩ := by
      apply hinj
      funext m
      have hp : totalN pre + m < totalN ls := by
        have e2 := congrArg totalN hsp
        rw [totalN_append] at e2
        simp only [totalN] at e2
        have := m.2; omega
      rw [← hrow x m m.2 hp, ← hrow y m m.2 hp, hxy]
    exact congrFun heq ⟨j, hj⟩
  funext c
  have hq : 0 < nq := by
    rcases Nat.eq_zero_or_pos nq with h0 | h0
    · have h2 : nq * ls.length = 0 := by rw [h0, zero_mul]
      have := c.2; omega
    · exact h0
  have hc : (c : ℕ) / nq * nq + (c : ℕ) % nq = c := by
    rw [mul_comm]; exact Nat.div_add_mod _ _
  have := key (c / nq) (Nat.div_lt_of_lt_mul c.2) (c % nq) (Nat.mod_lt _ hq) (by rw [hc]; exact c.2)
  simpa only [hc] using this

/-- The block inversion for a matrix whose size is only equal to the sum. -/
theorem part_iter_cast {N n0 : ℕ} {narr : List ℕ} (hN : N = n0 + narr.sum)
    (M : Matrix (Fin N) (Fin N) ℝ) (hM : M.PosDef) :
    (narr ≠ [] → block (partIter (arrayOf M) n0 narr).2.1 0 N 0 N = M⁻¹) ∧
    (narr = [] → block (partIter (arrayOf M) n0 narr).2.1 0 N 0 N = M) ∧
    (partIter (arrayOf M) n0 narr).2.2 = Real.log M.det := by
  subst hN
  refine ⟨fun h => (C25_iter_posdef_partial n0 narr h M hM).1, ?_, C25_iter_lndet n0 narr M hM⟩
  intro h
  have e : ∀ A : ℕ → ℕ → ℝ, (partIter A n0 narr).2.1 = A := by rw [h]; exact fun _ => rfl
  rw [e]
  exact block_arrayOf M

/-- The fast likelihood when the array holds `B⁻¹` after the inversion, with `ld` as log-determinant. -/
theorem vTerm4_core (nq : ℕ) (ls : List LC) {sigma : ℝ} (hs : 0 < sigma) (n0 : ℕ) (narr : List ℕ)
    (hn : ls.map LC.n = n0 :: narr) (PC B : Matrix (Fin (totalN ls)) (Fin (totalN ls)) ℝ) (ld : ℝ)
    (hB : B.PosDef) (hL : Function.Injective (vTrend nq ls).mulVec)
    (h1 : block (partIter (arrayOf PC) n0 narr).2.1 0 (totalN ls) 0 (totalN ls) = B⁻¹)
    (h2 : (partIter (arrayOf PC) n0 narr).2.2 = ld) :
    vTerm4 nq ls sigma PC = .ok (some (margLL ((sigma * sigma) • B) (vTrend nq ls) (vFall ls) +
      1 / 2 * Real.log B.det - 1 / 2 * ld)) := by
  have hq := trend_posDef hB hL
  have hyq : (B⁻¹ * vTrend nq ls)ᵀ.mulVec (vFall ls) = (vTrend nq ls)ᵀ.mulVec (B⁻¹.mulVec (vFall ls)) := by
    rw [Matrix.transpose_mul, inv_symm (posDef_symm hB), Matrix.mulVec_mulVec]
  have hy : ∀ q : Fin (nq * ls.length) → ℝ, (-1 : ℝ) • (vTrend nq ls).mulVec q + (1 : ℝ) • vFall ls =
      vFall ls - (vTrend nq ls).mulVec q := by
    intro q
    rw [neg_smul, one_smul, one_smul]; abel
  have hq' : glsCoef B (vTrend nq ls) (vFall ls) = ((vTrend nq ls)ᵀ * (B⁻¹ * vTrend nq ls))⁻¹.mulVec
      ((vTrend nq ls)ᵀ.mulVec (B⁻¹.mulVec (vFall ls))) := rfl
  simp only [vTerm4]
  split
  · rename_i h; rw [hn] at h; exact absurd h (by simp)
  · rename_i m0 marr h
    rw [hn] at h
    obtain ⟨rfl, rfl⟩ := List.cons.inj h
    simp only [h1, h2, hyq, inverseSymat_eq (posDef_symm hq), lndetSymat_posDef hq, signSymat_posDef hq,
      upperSym_of_symm (posDef_symm hq), hq.det_pos.ne', hy, ← hq']
    rw [if_neg (by simp), if_neg (quad_nonpos hB _ hs), margLL_scale _ hs hB hL]
    congr 2
    ring

/-- Two lines or more. -/
theorem vTerm4_lines (nq : ℕ) (ls : List LC) {sigma : ℝ} (hs : 0 < sigma) (hl : 2 ≤ ls.length)
    {PC : Matrix (Fin (totalN ls)) (Fin (totalN ls)) ℝ} (hC : PC.PosDef)
    (hL : Function.Injective (vTrend nq ls).mulVec) :
    vTerm4 nq ls sigma PC = .ok (some (margLL ((sigma * sigma) • PC) (vTrend nq ls) (vFall ls))) := by
  obtain ⟨a, b, l, rfl⟩ : ∃ a b l, ls = a :: b :: l := by
    rcases ls with _ | ⟨a, _ | ⟨b, l⟩⟩
    · simp at hl
    · simp at hl
    · exact ⟨a, b, l, rfl⟩
  obtain ⟨h1, _, h2⟩ := part_iter_cast (n0 := a.n) (narr := (b :: l).map LC.n)
    (by rw [← totalN_eq_sum]; rfl) PC hC
  rw [vTerm4_core nq (a :: b :: l) hs a.n ((b :: l).map LC.n) rfl PC PC _ hC hL (h1 (by simp)) h2]
  congr 2
  ring

/-- One line: the matrix itself is used in place of its inverse. -/
theorem vTerm4_one (nq : ℕ) (a : LC) {sigma : ℝ} (hs : 0 < sigma)
    {PC : Matrix (Fin (totalN [a])) (Fin (totalN [a])) ℝ} (hC : PC.PosDef)
    (hL : Function.Injective (vTrend nq [a]).mulVec) :
    vTerm4 nq [a] sigma PC = .ok (some (margLL ((sigma * sigma) • PC⁻¹) (vTrend nq [a]) (vFall [a]) -
      Real.log PC.det)) := by
  obtain ⟨_, h1, h2⟩ := part_iter_cast (n0 := a.n) (narr := []) (by simp [totalN]) PC hC
  have hu : IsUnit PC.det := isUnit_iff_ne_zero.2 hC.det_pos.ne'
  rw [vTerm4_core nq [a] hs a.n [] rfl PC PC⁻¹ _ hC.inv hL
    (by rw [Matrix.nonsing_inv_nonsing_inv _ hu]; exact h1 rfl) h2]
  congr 2
  rw [Matrix.det_nonsing_inv, Ring.inverse_eq_inv', Real.log_inv]
  ring

theorem vLoop_eq (term : ℕ → List LC → Res (Option ℝ)) (T : ℕ → List LC → ℝ) (ds : List (List LC)) (k0 : ℕ) (p : ℝ)
    (h : ∀ k d, ds[k]? = some d → term (k0 + k) d = .ok (some (T (k0 + k) d))) :
    vLoop term ds k0 p = .ok (p + (ds.mapIdx fun k d => T (k0 + k) d).sum) := by
  induction ds generalizing k0 p with
  | nil => simp [vLoop]
  | cons d ds ih =>
    have h0 := h 0 d rfl
    rw [add_zero] at h0
    simp only [vLoop, h0, Res.ok_bind]
    rw [ih (k0 + 1) _ fun k d' hd => by
      have := h (k + 1) d' (by simpa using hd)
      rwa [show k0 + (k + 1) = k0 + 1 + k by ring] at this]
    simp only [List.mapIdx_cons, List.sum_cons, add_zero, add_assoc, add_comm 1]

end Mica
