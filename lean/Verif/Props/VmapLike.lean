import Verif.Proof.VmapLike
import Verif.Props.Kernel

/-!
# The likelihood of the virtual-continuum mode: C76, C77
-/

namespace Mica

open Matrix

/-! ### Specification -/

/-- Line number `s` of a data set. -/
def vLine (ls : List LC) (s : ℕ) : LC := ls.getD s ⟨0, fun _ => 0, fun _ => 0, fun _ => 0, 0⟩

/-- Covariance of all data of a set: `exp(pm[1])^2` times the covariance of the signals of the lines (within a
line the later point comes first, between lines the earlier line), plus the variance of the noise. -/
noncomputable def vmapCov (e : LineEnv) (k : ℕ) (ls : List LC) : Matrix (Fin (totalN ls)) (Fin (totalN ls)) ℝ :=
  Matrix.of fun p q =>
    let x := locate ls p
    let y := locate ls q
    let tx := (vLine ls x.1).t x.2
    let ty := (vLine ls y.1).t y.2
    Real.exp (e.pm (e.idxc k + 1)) ^ 2 *
      (if x.1 = y.1 then if y.2 ≤ x.2 then (e.K k).Sll tx ty x.1 else (e.K k).Sll ty tx x.1
       else if x.1 < y.1 then (e.K k).Sll2 tx ty x.1 y.1 else (e.K k).Sll2 ty tx y.1 x.1) +
    if p = q then (vLine ls x.1).fe x.2 ^ 2 + ((Real.exp (e.pm (e.idxl k x.1)) - 1) * (vLine ls x.1).em) ^ 2 else 0

/-- The polynomial trends of the lines: line `s` has the coefficients `p (s*nq) ... p (s*nq+nq-1)`. -/
noncomputable def vmapTrend (nq : ℕ) (ls : List LC) (p : Fin (nq * ls.length) → ℝ) : Fin (totalN ls) → ℝ :=
  fun i => ∑ c : Fin (nq * ls.length),
    if (c : ℕ) / nq = (locate ls i).1 then p c * (vLine ls (locate ls i).1).t (locate ls i).2 ^ ((c : ℕ) % nq) else 0

/-- Every data set has a line, every line enough distinct times, and the covariance is positive definite. -/
def VmapOK (e : LineEnv) (ds : List (List LC)) : Prop :=
  ∀ (k : ℕ) ls, ds[k]? = some ls → ls ≠ [] ∧ (∀ a ∈ ls, EnoughTimes a e.nq) ∧ (vmapCov e k ls).PosDef

/-! ### The assembled matrix -/

theorem vSigma_pos (pm : ℕ → ℝ) (idxc : ℕ) : 0 < vSigma pm idxc := Real.exp_pos _

theorem vPC_cov (e : LineEnv) (k : ℕ) (ls : List LC) :
    (vSigma e.pm (e.idxc k) * vSigma e.pm (e.idxc k)) • vPC (e.K k) e.pm (e.idxc k) (e.idxl k) ls e.mem =
      vmapCov e k ls := by
  have hs := (vSigma_pos e.pm (e.idxc k)).ne'
  ext p q
  rw [Matrix.smul_apply, vPC_apply, vmapCov, Matrix.of_apply, smul_eq_mul, covEntry, mul_add]
  congr 1
  · rw [← sq, vSigma]
    congr 1
    have hser : ∀ s, (vSet ls).ser (s + 1) = vLine ls s := fun _ => rfl
    simp only [sigCov, hser]
    by_cases hx : (locate ls p).1 = (locate ls q).1
    · rw [if_pos hx, if_pos hx, hx]
    · rw [if_neg hx, if_neg hx]
  · by_cases hpq : p = q
    · subst hpq
      rw [if_pos rfl, if_pos rfl]
      simp only [noiseVar, vPm_sigma, vPm_syserr]
      rw [← sq, mul_div_cancel₀ _ (pow_ne_zero 2 hs)]
      rfl
    · rw [if_neg hpq, if_neg, mul_zero]
      intro h
      rw [Prod.mk.injEq] at h
      exact hpq (Fin.ext (locate_inj ls p q p.2 q.2 (Prod.ext (by omega) h.2)))

theorem vPC_posDef {e : LineEnv} {k : ℕ} {ls : List LC} (h : (vmapCov e k ls).PosDef) :
    (vPC (e.K k) e.pm (e.idxc k) (e.idxl k) ls e.mem).PosDef := by
  have hs := vSigma_pos e.pm (e.idxc k)
  rw [← vPC_cov] at h
  have h4 := h.smul (inv_pos.2 (mul_pos hs hs))
  rwa [smul_smul, inv_mul_cancel₀ (mul_pos hs hs).ne', one_smul] at h4

theorem vTrend_eq (nq : ℕ) (ls : List LC) (p : Fin (nq * ls.length) → ℝ) :
    (vTrend nq ls).mulVec p = vmapTrend nq ls p := by
  funext i
  simp only [Matrix.mulVec, dotProduct, vTrend, vmapTrend]
  obtain ⟨pre, a, post, m, h1, h2, h3⟩ := locate_exists ls i i.2
  have hl : locate ls i = (pre.length, m) := by
    rw [h3, h1]; exact locate_split pre a post m h2
  have ha : vLine ls pre.length = a := by rw [vLine, h1]; exact getD_split pre a post _
  rw [hl]
  simp only [ha]
  apply Finset.sum_congr rfl
  intro c _
  have hr : trendRow nq ls 0 i c = if pre.length * nq ≤ (c : ℕ) ∧ (c : ℕ) < pre.length * nq + nq then
      a.t m ^ ((c : ℕ) - pre.length * nq) else 0 := by
    have := trendRow_split nq 0 pre a post m c h2
    rw [← h1, ← h3, zero_add] at this
    exact this
  rw [hr]
  have hq : 0 < nq := by
    rcases Nat.eq_zero_or_pos nq with h0 | h0
    · have h2 : nq * ls.length = 0 := by rw [h0, zero_mul]
      have := c.2; omega
    · exact h0
  have hdm := Nat.div_add_mod (c : ℕ) nq
  have hmod := Nat.mod_lt (c : ℕ) hq
  by_cases hc : (c : ℕ) / nq = pre.length
  · rw [hc, mul_comm] at hdm
    rw [if_pos hc, if_pos (by omega), show (c : ℕ) - pre.length * nq = (c : ℕ) % nq by omega, mul_comm]
  · rw [if_neg hc, if_neg, zero_mul]
    rintro ⟨g1, g2⟩
    apply hc
    apply Nat.div_eq_of_lt_le
    · exact g1
    · rw [add_mul, one_mul]; exact g2

/-! ### C76 -/

/-- C76: the likelihood that inverts the matrix as a whole is the logarithm of the normal density of all data
integrated over the trend coefficients of all lines, up to a constant that depends only on the numbers of points. -/
theorem C76_whole (e : LineEnv) (ds : List (List LC)) (h : VmapOK e ds) :
    probVmap3 e ds = .ok (ds.mapIdx fun k ls =>
      Real.log (∫ p, gaussDens (vmapCov e k ls) (vFall ls - vmapTrend e.nq ls p)) +
      ((totalN ls : ℝ) - (e.nq * ls.length : ℕ)) / 2 * Real.log (2 * Real.pi)).sum := by
  rw [probVmap3, vLoop_eq _ (fun k ls => Real.log (∫ p, gaussDens (vmapCov e k ls) (vFall ls - vmapTrend e.nq ls p)) +
    ((totalN ls : ℝ) - (e.nq * ls.length : ℕ)) / 2 * Real.log (2 * Real.pi)), zero_add]
  · simp only [zero_add]
  · intro k ls hd
    obtain ⟨_, h2, h3⟩ := h k ls hd
    have hL := vTrend_injective e.nq ls h2
    rw [zero_add, lineTerm3_eq _ (vSigma_pos _ _) (vPC_posDef h3) hL, vPC_cov, exp_marg_pos h3 hL]
    simp only [vTrend_eq]

/-- C76 (partial: two lines or more in every data set): the likelihood used for sampling has the same value. -/
theorem C76_used_partial (e : LineEnv) (ds : List (List LC)) (h : VmapOK e ds) (hl : ∀ ls ∈ ds, 2 ≤ ls.length) :
    probVmap4 e ds = .ok (ds.mapIdx fun k ls =>
      Real.log (∫ p, gaussDens (vmapCov e k ls) (vFall ls - vmapTrend e.nq ls p)) +
      ((totalN ls : ℝ) - (e.nq * ls.length : ℕ)) / 2 * Real.log (2 * Real.pi)).sum := by
  rw [probVmap4, vLoop_eq _ (fun k ls => Real.log (∫ p, gaussDens (vmapCov e k ls) (vFall ls - vmapTrend e.nq ls p)) +
    ((totalN ls : ℝ) - (e.nq * ls.length : ℕ)) / 2 * Real.log (2 * Real.pi)), zero_add]
  · simp only [zero_add]
  · intro k ls hd
    obtain ⟨_, h2, h3⟩ := h k ls hd
    have hL := vTrend_injective e.nq ls h2
    rw [zero_add, vTerm4_lines e.nq ls (vSigma_pos _ _) (hl ls (List.mem_of_getElem? hd)) (vPC_posDef h3) hL, vPC_cov,
      exp_marg_pos h3 hL]
    simp only [vTrend_eq]

/-- C76 (partial: two lines or more in every data set): the two implementations return the same number. -/
theorem C76_agree_partial (e : LineEnv) (ds : List (List LC)) (h : VmapOK e ds) (hl : ∀ ls ∈ ds, 2 ≤ ls.length) :
    ∃ v, probVmap3 e ds = .ok v ∧ probVmap4 e ds = .ok v :=
  ⟨_, C76_whole e ds h, C76_used_partial e ds h hl⟩

/-! ### The counterexample: one line -/

/-- A data set with one line of one point. -/
noncomputable def vOne : LC := ⟨1, fun _ => 0, fun _ => 5, fun _ => 1, 1⟩

theorem vOne_pc (k : ℕ) (mem : ℕ → ℝ) : vPC (exEnv.K k) exEnv.pm (exEnv.idxc k) (exEnv.idxl k) [vOne] mem =
    (Matrix.diagonal fun _ => 2 : Matrix (Fin (totalN [vOne])) (Fin (totalN [vOne])) ℝ) := by
  ext i j
  have hi := i.2
  have hj := j.2
  have hn : totalN [vOne] = 1 := rfl
  have hi' : (i : ℕ) = 0 := by omega
  have hj' : (j : ℕ) = 0 := by omega
  have l0 : locate [vOne] 0 = (0, 0) := by simp [locate, vOne]
  rw [vPC_apply, diagonal_apply]
  simp only [Fin.ext_iff, hi', hj', l0]
  simp only [covEntry, sigCov, noiseVar, exEnv, pmSigma, pmTau, pmSyserr, vPm, vSet, DSet.ser, DSet.series, vOne]
  norm_num

theorem vOne_cov (k : ℕ) : vmapCov exEnv k [vOne] =
    (Matrix.diagonal fun _ => 2 : Matrix (Fin (totalN [vOne])) (Fin (totalN [vOne])) ℝ) := by
  rw [← vPC_cov, vOne_pc]
  have : vSigma exEnv.pm (exEnv.idxc k) = 1 := by simp [vSigma, exEnv]
  rw [this, one_mul, one_smul]

theorem vOne_ok : VmapOK exEnv [[vOne]] := by
  intro k ls hd
  have : ls = [vOne] := by
    rcases k with _ | k <;> simp at hd
    exact hd.symm
  subst this
  refine ⟨by simp, fun a ha => ?_, ?_⟩
  · refine ⟨fun _ => ⟨0, ?_⟩, fun x y _ => Subsingleton.elim (α := Fin 1) x y⟩
    rw [List.mem_singleton.1 ha]
    norm_num [vOne]
  · rw [vOne_cov]
    exact Matrix.PosDef.diagonal (by simp)

/-- C76 fails for a data set with one line: the likelihood used for sampling returns `-log 2`, the other one 0. -/
theorem C76_one_line : VmapOK exEnv [[vOne]] ∧ probVmap3 exEnv [[vOne]] = .ok 0 ∧
    probVmap4 exEnv [[vOne]] = .ok (-Real.log 2) ∧ -Real.log 2 ≠ 0 := by
  have key : ∀ c : ℝ, 0 < c → margLL (Matrix.diagonal fun _ => c : Matrix (Fin (totalN [vOne])) (Fin (totalN [vOne])) ℝ)
      (vTrend exEnv.nq [vOne]) (vFall [vOne]) = 0 := by
    intro c hc
    have hL : ∀ i j : Fin 1, vTrend exEnv.nq [vOne] i j = 1 := by
      intro i j
      have hi : i = (0 : Fin 1) := Subsingleton.elim (α := Fin 1) _ _
      have hj : j = (0 : Fin 1) := Subsingleton.elim (α := Fin 1) _ _
      rw [hi, hj]
      simp [vTrend, trendRow, vOne, exEnv]
    exact margLL_one hc hL (vFall [vOne])
  have hs : ∀ k, vSigma exEnv.pm (exEnv.idxc k) = 1 := fun k => by simp [vSigma, exEnv]
  have hpd : (Matrix.diagonal fun _ => 2 : Matrix (Fin (totalN [vOne])) (Fin (totalN [vOne])) ℝ).PosDef :=
    Matrix.PosDef.diagonal (by simp)
  have hL := vTrend_injective exEnv.nq [vOne] (vOne_ok 0 [vOne] rfl).2.1
  have hinv : (Matrix.diagonal fun _ => 2 : Matrix (Fin (totalN [vOne])) (Fin (totalN [vOne])) ℝ)⁻¹ =
      Matrix.diagonal fun _ => 1 / 2 :=
    Matrix.inv_eq_right_inv (by rw [Matrix.diagonal_mul_diagonal]; norm_num)
  have hdet : (Matrix.diagonal fun _ => 2 : Matrix (Fin (totalN [vOne])) (Fin (totalN [vOne])) ℝ).det = 2 := by
    rw [Matrix.det_diagonal]
    change ∏ _i : Fin 1, (2 : ℝ) = 2
    simp
  have hone : ((1 : ℝ) * 1) = 1 := one_mul 1
  refine ⟨vOne_ok, ?_, ?_, neg_ne_zero.2 (Real.log_pos one_lt_two).ne'⟩
  · simp only [probVmap3, vLoop, vOne_pc, hs]
    rw [lineTerm3_eq _ one_pos hpd hL, hone, one_smul, key 2 two_pos]
    simp only [Res.ok_bind, add_zero]
  · simp only [probVmap4, vLoop, vOne_pc, hs]
    rw [vTerm4_one exEnv.nq vOne one_pos hpd hL, hone, one_smul, hinv, key (1 / 2) (by norm_num), hdet]
    simp only [Res.ok_bind, zero_sub, zero_add]

/-! ### Values and trends -/

/-- What `prob_line_variability4_vmap` adds for a data set. -/
noncomputable def vVal4 (e : LineEnv) (k : ℕ) (ls : List LC) : ℝ :=
  let PC := vPC (e.K k) e.pm (e.idxc k) (e.idxl k) ls e.mem
  let s := vSigma e.pm (e.idxc k)
  if ls.length = 1 then margLL ((s * s) • PC⁻¹) (vTrend e.nq ls) (vFall ls) - Real.log PC.det
  else margLL ((s * s) • PC) (vTrend e.nq ls) (vFall ls)

theorem vmap_value (e : LineEnv) (ds : List (List LC)) (h : VmapOK e ds) :
    probVmap3 e ds = .ok (ds.mapIdx fun k ls => margLL (vmapCov e k ls) (vTrend e.nq ls) (vFall ls)).sum ∧
    probVmap4 e ds = .ok (ds.mapIdx fun k ls => vVal4 e k ls).sum := by
  constructor
  · rw [probVmap3, vLoop_eq _ (fun k ls => margLL (vmapCov e k ls) (vTrend e.nq ls) (vFall ls)), zero_add]
    · simp only [zero_add]
    · intro k ls hd
      obtain ⟨_, h2, h3⟩ := h k ls hd
      rw [zero_add, lineTerm3_eq _ (vSigma_pos _ _) (vPC_posDef h3) (vTrend_injective e.nq ls h2), vPC_cov]
  · rw [probVmap4, vLoop_eq _ (fun k ls => vVal4 e k ls), zero_add]
    · simp only [zero_add]
    · intro k ls hd
      obtain ⟨h1, h2, h3⟩ := h k ls hd
      have hL := vTrend_injective e.nq ls h2
      have hp := vPC_posDef h3
      rw [zero_add, vVal4]
      rcases ls with _ | ⟨a, _ | ⟨b, l⟩⟩
      · exact absurd rfl h1
      · rw [if_pos (by rfl)]
        exact vTerm4_one e.nq a (vSigma_pos _ _) hp hL
      · rw [if_neg (by simp)]
        exact vTerm4_lines e.nq _ (vSigma_pos _ _) (by simp) hp hL

theorem covEntry_vSet {nq : ℕ} {ls ls' : List LC} (h : List.Forall₂ (Shifted nq) ls ls') (K : Kernels) (pm : ℕ → ℝ)
    (idxc : ℕ) (idxl : ℕ → ℕ) : covEntry K (vSet ls') pm idxc idxl = covEntry K (vSet ls) pm idxc idxl :=
  covEntry_shifted (d := vSet ls) (d' := vSet ls')
    ⟨⟨rfl, rfl, rfl, rfl, fun _ => 0, fun i hi => absurd hi (Nat.not_lt_zero i)⟩, h⟩ K pm idxc idxl

theorem vmap_shifted (e : LineEnv) (k : ℕ) {ls ls' : List LC} (h : List.Forall₂ (Shifted e.nq) ls ls')
    (h2 : ∀ a ∈ ls, EnoughTimes a e.nq) (h3 : (vmapCov e k ls).PosDef) :
    (vmapCov e k ls').PosDef ∧
    margLL (vmapCov e k ls') (vTrend e.nq ls') (vFall ls') = margLL (vmapCov e k ls) (vTrend e.nq ls) (vFall ls) ∧
    vVal4 e k ls' = vVal4 e k ls := by
  have hlen : ls'.length = ls.length := h.length_eq.symm
  obtain ⟨x, hx⟩ := fall_shifted h
  have hs := vSigma_pos e.pm (e.idxc k)
  set s := vSigma e.pm (e.idxc k) * vSigma e.pm (e.idxc k) with hsd
  have hs2 : 0 < s := mul_pos hs hs
  have key : ∀ (n n' q q' : ℕ) (C C' L L' : ℕ → ℕ → ℝ) (f f' : ℕ → ℝ), n' = n → q' = q → C' = C → L' = L →
      (Matrix.of fun i j : Fin n => C i j).PosDef →
      Function.Injective (Matrix.of fun (i : Fin n) (j : Fin q) => L i j).mulVec →
      (∀ i < n, f' i = f i + ∑ c ∈ Finset.range q, L i c * x c) →
      (Matrix.of fun i j : Fin n' => C' i j).PosDef ∧
      margLL (s • Matrix.of fun i j : Fin n' => C' i j) (Matrix.of fun (i : Fin n') (j : Fin q') => L' i j) (fun i => f' i) =
        margLL (s • Matrix.of fun i j : Fin n => C i j) (Matrix.of fun (i : Fin n) (j : Fin q) => L i j) (fun i => f i) ∧
      margLL (s • (Matrix.of fun i j : Fin n' => C' i j)⁻¹) (Matrix.of fun (i : Fin n') (j : Fin q') => L' i j) (fun i => f' i) =
        margLL (s • (Matrix.of fun i j : Fin n => C i j)⁻¹) (Matrix.of fun (i : Fin n) (j : Fin q) => L i j) (fun i => f i) ∧
      (Matrix.of fun i j : Fin n' => C' i j).det = (Matrix.of fun i j : Fin n => C i j).det := by
    intro n n' q q' C C' L L' f f' hn hq hC hL hp hi hf
    subst hn hq hC hL
    have hg : (fun i : Fin n' => f' i) = (fun i : Fin n' => f i) +
        (Matrix.of fun (i : Fin n') (j : Fin q') => L' i j).mulVec fun c => x c := by
      ext i
      rw [hf i i.2]
      simp only [Pi.add_apply, Matrix.mulVec, dotProduct, Matrix.of_apply]
      rw [Fin.sum_univ_eq_sum_range (fun c => L' i c * x c)]
    refine ⟨hp, ?_, ?_, rfl⟩
    · rw [hg, margLL_shift (hp.smul hs2) hi (fun i => f i) (fun c => x c)]
    · rw [hg, margLL_shift (hp.inv.smul hs2) hi (fun i => f i) (fun c => x c)]
  have hpc : ∀ ls : List LC, vPC (e.K k) e.pm (e.idxc k) (e.idxl k) ls e.mem =
      Matrix.of fun p q : Fin (totalN ls) => covEntry (e.K k) (vSet ls) (vPm e.pm (e.idxc k) (e.idxl k)) 0 (fun j => j + 3)
        ((locate ls p).1 + 1, (locate ls p).2) ((locate ls q).1 + 1, (locate ls q).2) := by
    intro ls; ext p q; exact vPC_apply _ _ _ _ _ _ p q
  have hp := vPC_posDef h3
  rw [hpc] at hp
  obtain ⟨k1, k2, k3, k4⟩ := key (totalN ls) (totalN ls') (e.nq * ls.length) (e.nq * ls'.length)
    (fun p q => covEntry (e.K k) (vSet ls) (vPm e.pm (e.idxc k) (e.idxl k)) 0 (fun j => j + 3)
        ((locate ls p).1 + 1, (locate ls p).2) ((locate ls q).1 + 1, (locate ls q).2))
    (fun p q => covEntry (e.K k) (vSet ls') (vPm e.pm (e.idxc k) (e.idxl k)) 0 (fun j => j + 3)
        ((locate ls' p).1 + 1, (locate ls' p).2) ((locate ls' q).1 + 1, (locate ls' q).2))
    (trendRow e.nq ls 0) (trendRow e.nq ls' 0) (concat LC.f ls) (concat LC.f ls')
    (totalN_shifted h) (by rw [hlen]) (by rw [covEntry_vSet h, locate_shifted h])
    (by rw [trendRow_shifted h]) hp (vTrend_injective e.nq ls h2) (by
      intro i hi
      rw [hx 0 i hi]
      simp only [zero_mul, Nat.sub_zero, zero_add])
  rw [← hpc, ← hpc] at k2 k3 k4
  rw [← hpc] at k1
  refine ⟨?_, ?_, ?_⟩
  · rw [← vPC_cov]; exact k1.smul hs2
  · rw [← vPC_cov, ← vPC_cov]; exact k2
  · unfold vVal4
    by_cases hl : ls.length = 1
    · rw [if_pos hl, if_pos (hlen.trans hl), k4, ← hsd]
      rw [show margLL (s • (vPC (e.K k) e.pm (e.idxc k) (e.idxl k) ls' e.mem)⁻¹) (vTrend e.nq ls') (vFall ls') = _ from k3]
      rfl
    · rw [if_neg hl, if_neg (fun h0 => hl (hlen.symm.trans h0)), ← hsd]
      exact k2

/-- C76: adding a different trend (in particular a constant) to every line changes neither likelihood, whatever the
number of lines. -/
theorem C76_trend (e : LineEnv) (ds ds' : List (List LC)) (h : VmapOK e ds)
    (hs : List.Forall₂ (List.Forall₂ (Shifted e.nq)) ds ds') :
    probVmap3 e ds' = probVmap3 e ds ∧ probVmap4 e ds' = probVmap4 e ds := by
  have hr : ∀ (k : ℕ) ls', ds'[k]? = some ls' → ∃ ls, ds[k]? = some ls ∧ List.Forall₂ (Shifted e.nq) ls ls' := by
    intro k ls' hd'
    obtain ⟨hk, rfl⟩ := List.getElem?_eq_some_iff.1 hd'
    have hk2 : k < ds.length := by rw [hs.length_eq]; exact hk
    exact ⟨ds[k], List.getElem?_eq_getElem hk2, hs.get hk2 hk⟩
  have hok : VmapOK e ds' := by
    intro k ls' hd'
    obtain ⟨ls, hd, hrel⟩ := hr k ls' hd'
    obtain ⟨h1, h2, h3⟩ := h k ls hd
    refine ⟨?_, ?_, (vmap_shifted e k hrel h2 h3).1⟩
    · rintro rfl
      exact h1 (List.length_eq_zero_iff.1 hrel.length_eq)
    · clear h1 h3 hd hd'
      induction hrel with
      | nil => intro a ha; simp at ha
      | @cons a b l l' hab _ ih =>
        intro c hc
        rcases List.mem_cons.1 hc with rfl | hc
        · obtain ⟨hn, ht, _⟩ := hab
          have := h2 a (by simp)
          unfold EnoughTimes at this ⊢
          rw [hn, ht]
          exact this
        · exact ih (fun c hc => h2 c (List.mem_cons_of_mem _ hc)) c hc
  have hm : ∀ g : ℕ → List LC → ℝ, (∀ k ls ls', ds[k]? = some ls → List.Forall₂ (Shifted e.nq) ls ls' → g k ls' = g k ls) →
      ds'.mapIdx g = ds.mapIdx g := by
    intro g hg
    apply List.ext_getElem
    · simp [hs.length_eq]
    · intro k h1 h2
      simp only [List.length_mapIdx] at h1 h2
      simp only [List.getElem_mapIdx]
      have hrel := hs.get h2 h1
      simp only [List.get_eq_getElem] at hrel
      exact hg k _ _ (List.getElem?_eq_getElem h2) hrel
  obtain ⟨v3, v4⟩ := vmap_value e ds h
  obtain ⟨w3, w4⟩ := vmap_value e ds' hok
  rw [v3, v4, w3, w4, hm _ fun k ls ls' hd hrel => (vmap_shifted e k hrel (h k ls hd).2.1 (h k ls hd).2.2).2.1,
    hm _ fun k ls ls' hd hrel => (vmap_shifted e k hrel (h k ls hd).2.1 (h k ls hd).2.2).2.2]
  exact ⟨rfl, rfl⟩

/-! ### The transfer functions in place -/

/-- The run in which the covariance functions are those of the transfer functions with the parameters `pm`. -/
noncomputable def vmapEnv (nq ng : ℕ) (lin : Bool) (typ : ℕ → TF) (pm : ℕ → ℝ) (idxc : ℕ → ℕ) (idxl : ℕ → ℕ → ℕ)
    (mem : ℕ → ℝ) : LineEnv :=
  ⟨nq, pm, idxc, idxl, fun k => (KEnv.mk ng lin typ pm (idxc k) (idxl k)).kernels, mem⟩

theorem vmap_posDef (nq ng : ℕ) (lin : Bool) (typ : ℕ → TF) (pm : ℕ → ℝ) (idxc : ℕ → ℕ) (idxl : ℕ → ℕ → ℕ)
    (mem : ℕ → ℝ) (k : ℕ) (ls : List LC) (hf : (KEnv.mk ng lin typ pm (idxc k) (idxl k)).Far ls.length)
    (hN : ∀ j a, ls[j]? = some a → ∀ i < a.n, 0 < a.fe i ^ 2 + ((Real.exp (pm (idxl k j)) - 1) * a.em) ^ 2) :
    (vmapCov (vmapEnv nq ng lin typ pm idxc idxl mem) k ls).PosDef := by
  have hs := vSigma_pos pm (idxc k)
  set ke := KEnv.mk ng lin typ pm (idxc k) (idxl k) with hke
  have e1 : vPC ke.kernels pm (idxc k) (idxl k) ls mem =
      Matrix.of (fun p q : Fin (totalN ls) => sigIdeal ke (vSet ls) ((locate ls p).1 + 1, (locate ls p).2)
        ((locate ls q).1 + 1, (locate ls q).2)) +
      Matrix.diagonal fun p : Fin (totalN ls) => noiseVar (vSet ls) (vPm pm (idxc k) (idxl k)) 0 (fun j => j + 3)
        ((locate ls p).1 + 1, (locate ls p).2) := by
    ext p q
    have hp := locate_le ls p p.2
    have hq := locate_le ls q q.2
    rw [vPC_apply, covEntry, Matrix.add_apply, Matrix.of_apply, Matrix.diagonal_apply]
    have : pmTau (vPm pm (idxc k) (idxl k)) 0 = ke.taud := rfl
    rw [this, sigCov_ideal hf (vSet ls) _ _ (by simp only; omega) (by simp only; omega)]
    congr 1
    by_cases hpq : p = q
    · subst hpq; simp
    · rw [if_neg hpq, if_neg]
      intro hh
      rw [Prod.mk.injEq] at hh
      exact hpq (Fin.ext (locate_inj ls p q p.2 q.2 (Prod.ext (by omega) hh.2)))
  have hp : (vPC ke.kernels pm (idxc k) (idxl k) ls mem).PosDef := by
    rw [e1]
    refine Matrix.PosDef.posSemidef_add (sigIdeal_posSemidef ke (vSet ls) _) (Matrix.PosDef.diagonal fun p => ?_)
    obtain ⟨a, ha, hb⟩ := locate_valid ls p p.2
    have hser : (vSet ls).ser ((locate ls p).1 + 1) = a := by
      simp only [DSet.ser, DSet.series, vSet, List.getD, List.getElem?_cons_succ, ha, Option.getD_some]
    simp only [noiseVar, hser, vPm_sigma, vPm_syserr]
    exact div_pos (hN _ a ha _ hb) (by positivity)
  rw [← vPC_cov]
  exact hp.smul (mul_pos hs hs)

/-- C76 for the transfer functions (partial: two lines or more in every data set; timescales of exponential and gamma
functions outside the band around the damping timescale): the likelihood used for sampling is the marginal one. -/
theorem C76_transfer_partial (nq ng : ℕ) (lin : Bool) (typ : ℕ → TF) (pm : ℕ → ℝ) (idxc : ℕ → ℕ) (idxl : ℕ → ℕ → ℕ)
    (mem : ℕ → ℝ) (ds : List (List LC)) (hl : ∀ ls ∈ ds, 2 ≤ ls.length) (hE : ∀ ls ∈ ds, ∀ a ∈ ls, EnoughTimes a nq)
    (hf : ∀ k ls, ds[k]? = some ls → (KEnv.mk ng lin typ pm (idxc k) (idxl k)).Far ls.length)
    (hN : ∀ k ls, ds[k]? = some ls → ∀ j a, ls[j]? = some a → ∀ i < a.n,
      0 < a.fe i ^ 2 + ((Real.exp (pm (idxl k j)) - 1) * a.em) ^ 2) :
    probVmap4 (vmapEnv nq ng lin typ pm idxc idxl mem) ds = .ok (ds.mapIdx fun k ls =>
      Real.log (∫ p, gaussDens (vmapCov (vmapEnv nq ng lin typ pm idxc idxl mem) k ls) (vFall ls - vmapTrend nq ls p)) +
      ((totalN ls : ℝ) - (nq * ls.length : ℕ)) / 2 * Real.log (2 * Real.pi)).sum := by
  refine C76_used_partial _ ds ?_ hl
  intro k ls hd
  have hm := List.mem_of_getElem? hd
  refine ⟨?_, hE ls hm, vmap_posDef nq ng lin typ pm idxc idxl mem k ls (hf k ls hd) (hN k ls hd)⟩
  rintro rfl
  have := hl [] hm
  simp at this

/-! ### C77 -/

/-- `pm'` has the lags of all components of the first `J` lines of a data set shifted by `s`; the other parameters
that the likelihood of the data set reads are the same. -/
def LagsShifted (ng J : ℕ) (idxc : ℕ) (idxl : ℕ → ℕ) (s : ℝ) (pm pm' : ℕ → ℝ) : Prop :=
  pm' (idxc + 1) = pm (idxc + 1) ∧ pm' (idxc + 2) = pm (idxc + 2) ∧
  ∀ j < J, pm' (idxl j) = pm (idxl j) ∧ ∀ k < ng,
    pm' (idxl j + 1 + 3 * k) = pm (idxl j + 1 + 3 * k) ∧
    pm' (idxl j + 1 + 3 * k + 1) = pm (idxl j + 1 + 3 * k + 1) + s ∧
    pm' (idxl j + 1 + 3 * k + 2) = pm (idxl j + 1 + 3 * k + 2)

/-- The covariance of two components depends on the difference of their lags. -/
theorem fpSll_shift (T T' : TF) (t : ℝ) (a b : Comp) (s D : ℝ) :
    fpSll T T' t ⟨a.f, a.c + s, a.w⟩ ⟨b.f, b.c + s, b.w⟩ D = fpSll T T' t a b D := by
  have h1 : ∀ x y : ℝ, x + s - (y + s) = x - y := fun x y => by ring
  cases T <;> cases T' <;>
    simp only [fpSll, sllGauGau, sllTopTop, sllGamGam, sllExpExp, sllGauExp, sllGauGam, sllGauTop, sllExpGam, sllExpTop,
      sllGamTop, sllGamGau, sllGamExp, sllExpGau, sllTopGau, sllTopExp, sllTopGam, h1, add_sub_right_comm]

theorem foldl_congr_range {n : ℕ} {f g : ℝ → ℕ → ℝ} (h : ∀ x, ∀ k < n, f x k = g x k) (z : ℝ) :
    (List.range n).foldl f z = (List.range n).foldl g z := by
  apply List.foldl_ext
  intro x k hk
  exact h x k (List.mem_range.1 hk)

theorem LagsShifted.sll2 {ng J idxc : ℕ} {idxl : ℕ → ℕ} {s : ℝ} {pm pm' : ℕ → ℝ} (h : LagsShifted ng J idxc idxl s pm pm')
    (lin : Bool) (typ : ℕ → TF) {j l : ℕ} (hj : j < J) (hl : l < J) (t1 t2 : ℝ) :
    (KEnv.mk ng lin typ pm' idxc idxl).sll2 t1 t2 j l = (KEnv.mk ng lin typ pm idxc idxl).sll2 t1 t2 j l := by
  have hc : ∀ j < J, ∀ k < ng, (KEnv.mk ng lin typ pm' idxc idxl).comp j k =
      ⟨((KEnv.mk ng lin typ pm idxc idxl).comp j k).f, ((KEnv.mk ng lin typ pm idxc idxl).comp j k).c + s,
        ((KEnv.mk ng lin typ pm idxc idxl).comp j k).w⟩ := by
    intro j hj k hk
    obtain ⟨a1, a2, a3⟩ := (h.2.2 j hj).2 k hk
    simp only [KEnv.comp, compAt, a1, a2, a3]
  have ht : (KEnv.mk ng lin typ pm' idxc idxl).taud = (KEnv.mk ng lin typ pm idxc idxl).taud := by
    simp only [KEnv.taud, h.2.1]
  unfold KEnv.sll2
  refine foldl_congr_range (fun x k1 hk1 => foldl_congr_range (fun y k2 hk2 => ?_) x) 0
  rw [hc j hj k1 hk1, hc l hl k2 hk2, fpSll_shift, ht]

theorem LagsShifted.vPC {ng idxc : ℕ} {idxl : ℕ → ℕ} {s : ℝ} {pm pm' : ℕ → ℝ} {ls : List LC}
    (h : LagsShifted ng ls.length idxc idxl s pm pm') (lin : Bool) (typ : ℕ → TF) (mem : ℕ → ℝ) :
    Mica.vPC (KEnv.mk ng lin typ pm' idxc idxl).kernels pm' idxc idxl ls mem =
      Mica.vPC (KEnv.mk ng lin typ pm idxc idxl).kernels pm idxc idxl ls mem := by
  ext p q
  have hp := locate_le ls p p.2
  have hq := locate_le ls q q.2
  have hs : vSigma pm' idxc = vSigma pm idxc := by simp only [vSigma, h.1]
  rw [vPC_apply, vPC_apply, covEntry, covEntry]
  congr 1
  · simp only [sigCov, KEnv.kernels, KEnv.sll_eq_sll2, h.sll2 lin typ hp hp, h.sll2 lin typ hp hq, h.sll2 lin typ hq hp]
  · congr 1
    simp only [noiseVar, vPm_sigma, vPm_syserr, hs]
    simp only [pmSyserr, (h.2.2 _ hp).1]

/-- C77: shifting the lags of all components of all lines of a data set by the same amount (which may differ between data
sets) does not change the likelihood: only differences of lags can be measured, and fixing one lag loses nothing.
No condition on the data, on the timescales or on the numbers of lines. -/
theorem C77_lag_origin (nq ng : ℕ) (lin : Bool) (typ : ℕ → TF) (pm pm' : ℕ → ℝ) (idxc : ℕ → ℕ) (idxl : ℕ → ℕ → ℕ)
    (mem : ℕ → ℝ) (ds : List (List LC))
    (h : ∀ k ls, ds[k]? = some ls → ∃ s, LagsShifted ng ls.length (idxc k) (idxl k) s pm pm') :
    probVmap3 (vmapEnv nq ng lin typ pm' idxc idxl mem) ds = probVmap3 (vmapEnv nq ng lin typ pm idxc idxl mem) ds ∧
    probVmap4 (vmapEnv nq ng lin typ pm' idxc idxl mem) ds = probVmap4 (vmapEnv nq ng lin typ pm idxc idxl mem) ds := by
  have hloop : ∀ (f g : ℕ → List LC → Res (Option ℝ)) (ds : List (List LC)) (k0 : ℕ) (z : ℝ),
      (∀ k ls, ds[k]? = some ls → f (k0 + k) ls = g (k0 + k) ls) → vLoop f ds k0 z = vLoop g ds k0 z := by
    intro f g ds
    induction ds with
    | nil => intros; rfl
    | cons d ds ih =>
      intro k0 z hfg
      have h0 := hfg 0 d rfl
      rw [add_zero] at h0
      simp only [vLoop, h0]
      congr 1
      funext r
      cases r with
      | none => rfl
      | some v =>
        refine ih (k0 + 1) _ fun k ls hk => ?_
        have := hfg (k + 1) ls (by simpa using hk)
        rwa [show k0 + (k + 1) = k0 + 1 + k by ring] at this
  constructor
  · refine hloop _ _ ds 0 0 fun k ls hd => ?_
    obtain ⟨s, hs⟩ := h k ls hd
    simp only [zero_add, vmapEnv]
    rw [hs.vPC lin typ mem, show vSigma pm' (idxc k) = vSigma pm (idxc k) by simp only [vSigma, hs.1]]
  · refine hloop _ _ ds 0 0 fun k ls hd => ?_
    obtain ⟨s, hs⟩ := h k ls hd
    simp only [zero_add, vmapEnv]
    rw [hs.vPC lin typ mem, show vSigma pm' (idxc k) = vSigma pm (idxc k) by simp only [vSigma, hs.1]]

/-! ### Examples -/

/-- Two lines of one component, parameters from 3 and 7 on; both lags (5 and 9) moved by 7. -/
example (pm : ℕ → ℝ) : LagsShifted 1 2 0 (fun j => 3 + 4 * j) 7 pm
    (fun i => if i = 5 ∨ i = 9 then pm i + 7 else pm i) := by
  refine ⟨by simp, by simp, fun j hj => ?_⟩
  rcases (show j = 0 ∨ j = 1 by omega) with rfl | rfl
  · exact ⟨by simp, fun k hk => by rw [show k = 0 by omega]; simp⟩
  · exact ⟨by simp, fun k hk => by rw [show k = 0 by omega]; simp⟩

/-- Moving one lag only does change the covariance: the claim is about a common shift. -/
example : fpSll .tophat .tophat 1 ⟨1, 0, 1⟩ ⟨1, 0, 1⟩ 0 ≠ fpSll .tophat .tophat 1 ⟨1, 4, 1⟩ ⟨1, 0, 1⟩ 0 := by
  simp only [fpSll, sllTopTop]
  norm_num
  intro h
  have h6 : Real.exp (-6 : ℝ) < 1 := by rw [Real.exp_lt_one_iff]; norm_num
  linarith [Real.exp_pos (-2 : ℝ), Real.exp_pos (-4 : ℝ)]

/-- Two data sets, of two and three lines of a point each, Gaussian transfer functions with two components. -/
example : ∃ v, probVmap4 (vmapEnv 1 2 false (fun _ => .gauss) (fun i => i) (fun k => 100 * k) (fun k j => 100 * k + 3 + 7 * j)
    (fun _ => 0)) [[vOne, vOne], [vOne, vOne, vOne]] = .ok v := by
  refine ⟨_, C76_transfer_partial _ _ _ _ _ _ _ _ _ ?_ ?_ ?_ ?_⟩
  · simp
  · intro ls hls a ha
    have : a = vOne := by
      simp only [List.mem_cons, List.not_mem_nil, or_false] at hls
      rcases hls with rfl | rfl <;> simpa using ha
    subst this
    exact ⟨fun _ => ⟨0, by norm_num [vOne]⟩, fun x y _ => Subsingleton.elim (α := Fin 1) x y⟩
  · intro k ls _ j _ m _
    exact ⟨by simp [FarC], fun j' _ k' _ => by simp [FarL]⟩
  · intro k ls hk j a ha i _
    have : a = vOne := by
      have h1 := List.mem_of_getElem? hk
      have h2 := List.mem_of_getElem? ha
      simp only [List.mem_cons, List.not_mem_nil, or_false] at h1
      rcases h1 with rfl | rfl <;> simpa using h2
    subst this
    simp only [vOne]
    positivity

end Mica
