import Verif.Proof.Reorder

/-! # C97: the order of the lines of a data set and of the data sets does not matter -/

namespace Mica

open Matrix

/-- The parameters of a data set and of its lines, which are in another order: line `j` was line `π j`. -/
structure ParsMoved (ng J : ℕ) (pm pm' : ℕ → ℝ) (idxc idxc' : ℕ) (idxl idxl' : ℕ → ℕ) (π : ℕ → ℕ) : Prop where
  perm : PermOn J π
  con : ∀ r < 3, pm' (idxc' + r) = pm (idxc + r)
  line : ∀ j < J, ∀ r ≤ 3 * ng, pm' (idxl' j + r) = pm (idxl (π j) + r)

section
variable {ng J : ℕ} {pm pm' : ℕ → ℝ} {idxc idxc' : ℕ} {idxl idxl' : ℕ → ℕ} {π : ℕ → ℕ}

theorem ParsMoved.taud (h : ParsMoved ng J pm pm' idxc idxc' idxl idxl' π) (lin : Bool) (typ : ℕ → TF) :
    (KEnv.mk ng lin typ pm' idxc' idxl').taud = (KEnv.mk ng lin typ pm idxc idxl).taud := by
  simp only [KEnv.taud, h.con 2 (by omega)]

theorem ParsMoved.comp (h : ParsMoved ng J pm pm' idxc idxc' idxl idxl' π) (lin : Bool) (typ : ℕ → TF) {j k : ℕ}
    (hj : j < J) (hk : k < ng) :
    (KEnv.mk ng lin typ pm' idxc' idxl').comp j k = (KEnv.mk ng lin typ pm idxc idxl).comp (π j) k := by
  have h0 := h.line j hj (1 + 3 * k) (by omega)
  have h1 := h.line j hj (1 + 3 * k + 1) (by omega)
  have h2 := h.line j hj (1 + 3 * k + 2) (by omega)
  simp only [← add_assoc] at h0 h1 h2
  simp only [KEnv.comp, compAt, h0, h1, h2]

theorem ParsMoved.slc (h : ParsMoved ng J pm pm' idxc idxc' idxl idxl' π) (lin : Bool) (typ : ℕ → TF) {j : ℕ}
    (hj : j < J) (t1 t2 : ℝ) :
    (KEnv.mk ng lin typ pm' idxc' idxl').slc t1 t2 j = (KEnv.mk ng lin typ pm idxc idxl).slc t1 t2 (π j) := by
  rw [KEnv.slc, KEnv.slc, foldl_add_range, foldl_add_range, h.taud]
  congr 1
  refine Finset.sum_congr rfl fun k hk => ?_
  rw [h.comp lin typ hj (Finset.mem_range.1 hk)]

theorem ParsMoved.sll2 (h : ParsMoved ng J pm pm' idxc idxc' idxl idxl' π) (lin : Bool) (typ : ℕ → TF) {j l : ℕ}
    (hj : j < J) (hl : l < J) (t1 t2 : ℝ) :
    (KEnv.mk ng lin typ pm' idxc' idxl').sll2 t1 t2 j l = (KEnv.mk ng lin typ pm idxc idxl).sll2 t1 t2 (π j) (π l) := by
  rw [KEnv.sll2, KEnv.sll2, foldl_add_range2, foldl_add_range2, h.taud]
  congr 1
  refine Finset.sum_congr rfl fun k hk => Finset.sum_congr rfl fun k' hk' => ?_
  rw [h.comp lin typ hj (Finset.mem_range.1 hk), h.comp lin typ hl (Finset.mem_range.1 hk')]

theorem ParsMoved.far (h : ParsMoved ng J pm pm' idxc idxc' idxl idxl' π) (lin : Bool) (typ : ℕ → TF)
    (hF : (KEnv.mk ng lin typ pm idxc idxl).Far J) : (KEnv.mk ng lin typ pm' idxc' idxl').Far J := by
  intro j hj k hk
  rw [h.taud, h.comp lin typ hj hk]
  refine ⟨(hF _ (h.perm.1 j hj) k hk).1, fun j' hj' k' hk' => ?_⟩
  rw [h.comp lin typ hj' hk']
  exact (hF _ (h.perm.1 j hj) k hk).2 _ (h.perm.1 j' hj') k' hk'

/-- The place of a light curve (the continuum comes first). -/
def serPerm (π : ℕ → ℕ) : ℕ → ℕ
  | 0 => 0
  | s + 1 => π s + 1

theorem PermOn.ser {n : ℕ} (h : PermOn n π) : PermOn (n + 1) (serPerm π) := by
  refine ⟨fun i hi => ?_, fun i hi j hj hij => ?_⟩
  · rcases i with _ | i
    · simp [serPerm]
    · have := h.1 i (by omega)
      simp only [serPerm]; omega
  · rcases i with _ | i <;> rcases j with _ | j <;> simp only [serPerm] at hij
    all_goals first
      | omega
      | rw [h.2 i (by omega) j (by omega) (by omega)]

/-- The data sets `d` and `d'` have the same continuum, and the same lines in another order. -/
structure LinesMoved (d d' : DSet) (π : ℕ → ℕ) : Prop where
  con : d'.con = d.con
  len : d'.line.length = d.line.length
  perm : PermOn d.line.length π
  get : ∀ j < d.line.length, d'.line[j]? = d.line[π j]?

theorem LinesMoved.reord {d d' : DSet} (h : LinesMoved d d' π) : Reord d.series d'.series (serPerm π) where
  len := by simp only [DSet.series, List.length_cons, h.len]
  perm := by simp only [DSet.series, List.length_cons]; exact h.perm.ser
  get := by
    intro s hs
    rcases s with _ | s
    · simp [DSet.series, serPerm, h.con]
    · simp only [DSet.series, List.length_cons] at hs
      simp only [DSet.series, serPerm, List.getElem?_cons_succ]
      exact h.get s (by omega)

theorem LinesMoved.ser {d d' : DSet} (h : LinesMoved d d' π) {s : ℕ} (hs : s < d.series.length) :
    d'.ser s = d.ser (serPerm π s) := by
  simp only [DSet.ser, List.getD_eq_getElem?_getD, h.reord.get s hs]

theorem ParsMoved.sigCov {d d' : DSet} (hd : LinesMoved d d' π)
    (h : ParsMoved ng d.line.length pm pm' idxc idxc' idxl idxl' π) (lin : Bool) (typ : ℕ → TF)
    (hF : (KEnv.mk ng lin typ pm idxc idxl).Far d.line.length) (x y : ℕ × ℕ) (hx : x.1 < d.series.length)
    (hy : y.1 < d.series.length) :
    sigCov (KEnv.mk ng lin typ pm' idxc' idxl').kernels (Real.exp (pm' (idxc' + 2))) d' x y =
      Mica.sigCov (KEnv.mk ng lin typ pm idxc idxl).kernels (Real.exp (pm (idxc + 2))) d (serPerm π x.1, x.2)
        (serPerm π y.1, y.2) := by
  have hF' := h.far lin typ hF
  have hser := fun s hs => hd.ser (s := s) hs
  have hlen : d.series.length = d.line.length + 1 := by simp [DSet.series]
  have hρ := hd.reord.perm
  obtain ⟨s, i⟩ := x
  obtain ⟨s', m⟩ := y
  simp only at hx hy ⊢
  have e1 : Real.exp (pm' (idxc' + 2)) = (KEnv.mk ng lin typ pm' idxc' idxl').taud := rfl
  have e2 : Real.exp (pm (idxc + 2)) = (KEnv.mk ng lin typ pm idxc idxl).taud := rfl
  have r1 := hρ.1 s hx
  have r2 := hρ.1 s' hy
  rw [e1, e2, sigCov_ideal hF' d' _ _ (by simp only; omega) (by simp only; omega),
    sigCov_ideal hF d _ _ (by simp only; omega) (by simp only; omega)]
  rcases s with _ | s <;> rcases s' with _ | s'
  · simp only [serPerm]
    rw [sigIdeal_cc, sigIdeal_cc, hser 0 hx, h.taud]; rfl
  · simp only [serPerm] at r2 ⊢
    rw [sigIdeal_cl hF' d' (by omega), sigIdeal_cl hF d (by omega), h.slc lin typ (by omega), hser 0 hx, hser _ hy]; rfl
  · simp only [serPerm] at r1 ⊢
    rw [sigIdeal_comm, sigIdeal_cl hF' d' (by omega), sigIdeal_comm, sigIdeal_cl hF d (by omega), h.slc lin typ (by omega),
      hser 0 hy, hser _ hx]; rfl
  · simp only [serPerm] at r1 r2 ⊢
    rw [sigIdeal_ll hF' d' (by omega) (by omega), sigIdeal_ll hF d (by omega) (by omega), h.sll2 lin typ (by omega) (by omega),
      hser _ hx, hser _ hy]; rfl

theorem LinesMoved.point_iff {d d' : DSet} (hd : LinesMoved d d' π) {x y : ℕ × ℕ} (hx : x.1 < d.series.length)
    (hy : y.1 < d.series.length) : x = y ↔ (serPerm π x.1, x.2) = (serPerm π y.1, y.2) := by
  simp only [Prod.ext_iff]
  exact ⟨fun hh => ⟨by rw [hh.1], hh.2⟩, fun hh => ⟨hd.reord.perm.2 _ hx _ hy hh.1, hh.2⟩⟩

theorem ParsMoved.covEntry {d d' : DSet} (hd : LinesMoved d d' π)
    (h : ParsMoved ng d.line.length pm pm' idxc idxc' idxl idxl' π) (lin : Bool) (typ : ℕ → TF)
    (hF : (KEnv.mk ng lin typ pm idxc idxl).Far d.line.length) (x y : ℕ × ℕ) (hx : x.1 < d.series.length)
    (hy : y.1 < d.series.length) :
    covEntry (KEnv.mk ng lin typ pm' idxc' idxl').kernels d' pm' idxc' idxl' x y =
      Mica.covEntry (KEnv.mk ng lin typ pm idxc idxl).kernels d pm idxc idxl (serPerm π x.1, x.2) (serPerm π y.1, y.2) := by
  have hser := fun s hs => hd.ser (s := s) hs
  have hlen : d.series.length = d.line.length + 1 := by simp [DSet.series]
  have h0 := h.con 0 (by omega)
  have h1 := h.con 1 (by omega)
  have h2 := h.con 2 (by omega)
  rw [add_zero, add_zero] at h0
  have hsig : pmSigma pm' idxc' = pmSigma pm idxc := by simp only [pmSigma, pmTau, h1, h2]
  have hn : noiseVar d' pm' idxc' idxl' x = noiseVar d pm idxc idxl (serPerm π x.1, x.2) := by
    obtain ⟨s, i⟩ := x
    simp only at hx
    rcases s with _ | s
    · simp only [noiseVar, hsig, pmSyserr, h0, serPerm, hd.con, hser 0 hx]
    · have := h.line s (by omega) 0 (by omega)
      rw [add_zero, add_zero] at this
      simp only [noiseVar, hsig, pmSyserr, this, serPerm, hser (s + 1) hx]
  unfold Mica.covEntry
  rw [hn]
  simp only [hd.point_iff hx hy]
  congr 1
  exact h.sigCov hd lin typ hF x y hx hy

/-- The matrices of the two orders. -/
theorem ParsMoved.matrices {d d' : DSet} (hd : LinesMoved d d' π)
    (h : ParsMoved ng d.line.length pm pm' idxc idxc' idxl idxl' π) (nq : ℕ) (lin : Bool) (typ : ℕ → TF)
    (hF : (KEnv.mk ng lin typ pm idxc idxl).Far d.line.length) :
    ∃ (σ : Fin d'.nall ≃ Fin d.nall) (τ : Fin (nq * (1 + d'.line.length)) ≃ Fin (nq * (1 + d.line.length))),
      d'.cov (KEnv.mk ng lin typ pm' idxc' idxl').kernels pm' idxc' idxl' =
        (d.cov (KEnv.mk ng lin typ pm idxc idxl).kernels pm idxc idxl).submatrix σ σ ∧
      d'.trend nq = (d.trend nq).submatrix σ τ ∧ (fun i : Fin d'.nall => d'.fall i) = (fun i : Fin d.nall => d.fall i) ∘ σ := by
  have hr := hd.reord
  have hlen : d.series.length = 1 + d.line.length := by simp [DSet.series, add_comm]
  obtain ⟨σ, hσ⟩ := hr.points
  obtain ⟨τ, hτ⟩ := hr.perm.columns nq (q := nq * (1 + d.line.length)) (q' := nq * (1 + d'.line.length))
    (by rw [hlen]) (by rw [hlen, hd.len])
  refine ⟨σ, τ, ?_, ?_, ?_⟩
  · ext p q
    have hp := locate_series_lt d'.series p p.2
    have hq := locate_series_lt d'.series q q.2
    rw [hr.len] at hp hq
    rw [Matrix.submatrix_apply, DSet.cov, DSet.cov, Matrix.of_apply, Matrix.of_apply, h.covEntry hd lin typ hF _ _ hp hq]
    rw [← hσ p, ← hσ q]
    rfl
  · ext p c
    exact hr.trend nq (q := nq * (1 + d'.line.length)) (by rw [hlen, hd.len]) p.2 (σ p).2 (hσ p) c.2 (hτ c).1 (hτ c).2
  · ext p
    exact hr.fall LC.f p.2 (σ p).2 (hσ p)

end

/-- `ds'` with parameters `pm'` are the data sets `ds` with parameters `pm` in another order: data set `k` was
number `κ k`, its line `j` was line `π k j`. -/
structure Reordered (ng : ℕ) (pm pm' : ℕ → ℝ) (idxc idxc' : ℕ → ℕ) (idxl idxl' : ℕ → ℕ → ℕ) (ds ds' : List DSet)
    (κ : ℕ → ℕ) (π : ℕ → ℕ → ℕ) : Prop where
  len : ds'.length = ds.length
  perm : PermOn ds.length κ
  each : ∀ k d d', ds'[k]? = some d' → ds[κ k]? = some d → LinesMoved d d' (π k) ∧
    ParsMoved ng d.line.length pm pm' (idxc (κ k)) (idxc' k) (idxl (κ k)) (idxl' k) (π k)

theorem Reordered.exists {ng : ℕ} {pm pm' : ℕ → ℝ} {idxc idxc' : ℕ → ℕ} {idxl idxl' : ℕ → ℕ → ℕ} {ds ds' : List DSet}
    {κ : ℕ → ℕ} {π : ℕ → ℕ → ℕ} (h : Reordered ng pm pm' idxc idxc' idxl idxl' ds ds' κ π) {k : ℕ} {d' : DSet}
    (hd : ds'[k]? = some d') : ∃ d, ds[κ k]? = some d := by
  have hk := (List.getElem?_eq_some_iff.1 hd).1
  rw [h.len] at hk
  exact ⟨_, List.getElem?_eq_getElem (h.perm.1 k hk)⟩

/-- C97: the order of the data sets and, within each data set, the order of the lines changes none of the four
line likelihoods, the parameters being given in the same order; for data with positive definite covariance and
parameters outside the bands where the code replaces formulas by their limits. -/
theorem C97_order (nq ng : ℕ) (lin : Bool) (typ : ℕ → TF) (pm pm' : ℕ → ℝ) (idxc idxc' : ℕ → ℕ)
    (idxl idxl' : ℕ → ℕ → ℕ) (mem mem' : ℕ → ℝ) (ds ds' : List DSet) (κ : ℕ → ℕ) (π : ℕ → ℕ → ℕ)
    (h : Reordered ng pm pm' idxc idxc' idxl idxl' ds ds' κ π)
    (hF : ∀ k d, ds[k]? = some d → (KEnv.mk ng lin typ pm (idxc k) (idxl k)).Far d.line.length)
    (hok : LineDataOK (tfEnv nq ng lin typ pm idxc idxl mem) ds) :
    let e := tfEnv nq ng lin typ pm idxc idxl mem
    let e' := tfEnv nq ng lin typ pm' idxc' idxl' mem'
    probLine1 e' ds' = probLine1 e ds ∧ probLine2 e' ds' = probLine2 e ds ∧ probLine3 e' ds' = probLine3 e ds ∧
      probLine4 e' ds' = probLine4 e ds := by
  intro e e'
  have hok' : LineDataOK e' ds' := by
    intro k d' hd'
    obtain ⟨d, hd⟩ := h.exists hd'
    obtain ⟨hl, hp⟩ := h.each k d d' hd' hd
    obtain ⟨h1, h2, h3⟩ := hok _ d hd
    obtain ⟨σ, τ, m1, m2, m3⟩ := hp.matrices hl nq lin typ (hF _ d hd)
    refine ⟨?_, ?_, ?_⟩
    · have h0 := hp.con 0 (by omega)
      rw [add_zero, add_zero] at h0
      show ConOK d'.con ((Real.exp (pm' (idxc' k)) - 1) * d'.con.em)
      rw [hl.con, h0]
      exact h1
    · intro a ha
      obtain ⟨s, hs⟩ := List.mem_iff_getElem?.1 ha
      have hlt := (List.getElem?_eq_some_iff.1 hs).1
      rw [hl.reord.len] at hlt
      rw [hl.reord.get s hlt] at hs
      exact h2 a (List.mem_of_getElem? hs)
    · show (d'.cov (KEnv.mk ng lin typ pm' (idxc' k) (idxl' k)).kernels pm' (idxc' k) (idxl' k)).PosDef
      rw [m1]
      exact posDef_reindex σ h3
  have hsig : ∀ k d d', ds'[k]? = some d' → ds[κ k]? = some d → pmSigma pm' (idxc' k) = pmSigma pm (idxc (κ k)) := by
    intro k d d' hd' hd
    obtain ⟨_, hp⟩ := h.each k d d' hd' hd
    simp only [pmSigma, pmTau, hp.con 1 (by omega), hp.con 2 (by omega)]
  have v1 : (ds'.mapIdx fun k d => margLL (lineCov e' k d) (d.trend e'.nq) (fun i => d.fall i)).sum =
      (ds.mapIdx fun k d => margLL (lineCov e k d) (d.trend e.nq) (fun i => d.fall i)).sum := by
    refine mapIdx_sum_perm ds ds' κ h.perm h.len _ _ fun k d' d hd' hd => ?_
    obtain ⟨hl, hp⟩ := h.each k d d' hd' hd
    obtain ⟨σ, τ, m1, m2, m3⟩ := hp.matrices hl nq lin typ (hF _ d hd)
    refine Eq.trans ?_ (margLL_reindex σ τ (lineCov e (κ k) d) (d.trend nq) fun i => d.fall i)
    simp only [lineCov, e, e', tfEnv, m1, m2, m3, hsig k d d' hd' hd]
    rfl
  have v4 : (ds'.mapIdx fun k d => lineVal4 e' k d).sum = (ds.mapIdx fun k d => lineVal4 e k d).sum := by
    refine mapIdx_sum_perm ds ds' κ h.perm h.len _ _ fun k d' d hd' hd => ?_
    obtain ⟨hl, hp⟩ := h.each k d d' hd' hd
    obtain ⟨σ, τ, m1, m2, m3⟩ := hp.matrices hl nq lin typ (hF _ d hd)
    unfold lineVal4
    simp only [hl.len]
    split
    · rw [show e'.nq = nq from rfl, show e.nq = nq from rfl]
      rw [← margLL_reindex σ τ ((pmSigma e.pm (e.idxc (κ k)) * pmSigma e.pm (e.idxc (κ k))) •
        (DSet.cov (e.K (κ k)) d e.pm (e.idxc (κ k)) (e.idxl (κ k)))⁻¹) (d.trend nq) fun i => d.fall i]
      simp only [e, e', tfEnv, m1, m2, m3, hsig k d d' hd' hd, Matrix.inv_submatrix_equiv,
        Matrix.det_submatrix_equiv_self]
      rfl
    · refine Eq.trans ?_ (margLL_reindex σ τ (lineCov e (κ k) d) (d.trend nq) fun i => d.fall i)
      simp only [lineCov, e, e', tfEnv, m1, m2, m3, hsig k d d' hd' hd]
      rfl
  have w := line_value e ds hok
  have w' := line_value e' ds' hok'
  rw [w.1, w.2.1, w.2.2, w'.1, w'.2.1, w'.2.2, line_value4 e ds hok, line_value4 e' ds' hok', v1, v4]
  exact ⟨rfl, rfl, rfl, rfl⟩

/-! ### Without continuum -/

theorem vmap_matrices {ng : ℕ} {pm pm' : ℕ → ℝ} {idxc idxc' : ℕ → ℕ} {idxl idxl' : ℕ → ℕ → ℕ} {k k' : ℕ} {π : ℕ → ℕ}
    {ls ls' : List LC} (hd : LinesMoved (vSet ls) (vSet ls') π)
    (h : ParsMoved ng ls.length pm pm' (idxc k) (idxc' k') (idxl k) (idxl' k') π) (nq : ℕ) (lin : Bool) (typ : ℕ → TF)
    (mem mem' : ℕ → ℝ) (hF : (KEnv.mk ng lin typ pm (idxc k) (idxl k)).Far ls.length) :
    ∃ (σ : Fin (totalN ls') ≃ Fin (totalN ls)) (τ : Fin (nq * ls'.length) ≃ Fin (nq * ls.length)),
      vPC (KEnv.mk ng lin typ pm' (idxc' k') (idxl' k')).kernels pm' (idxc' k') (idxl' k') ls' mem' =
        (vPC (KEnv.mk ng lin typ pm (idxc k) (idxl k)).kernels pm (idxc k) (idxl k) ls mem).submatrix σ σ ∧
      vTrend nq ls' = (vTrend nq ls).submatrix σ τ ∧ vFall ls' = vFall ls ∘ σ := by
  have hlen : ls'.length = ls.length := hd.len
  have hr : Reord ls ls' π := ⟨hlen, hd.perm, hd.get⟩
  obtain ⟨σ, hσ⟩ := hr.points
  obtain ⟨τ, hτ⟩ := hr.perm.columns nq (q := nq * ls.length) (q' := nq * ls'.length) rfl (by rw [hlen])
  refine ⟨σ, τ, ?_, ?_, ?_⟩
  · ext p q
    have hp := locate_series_lt ls' p p.2
    have hq := locate_series_lt ls' q q.2
    rw [hlen] at hp hq
    have hsl : (vSet ls).series.length = ls.length + 1 := by simp [DSet.series, vSet]
    rw [Matrix.submatrix_apply, vPC_apply, vPC_apply, hσ p, hσ q]
    have hx : ((locate ls' p).1 + 1, (locate ls' p).2).1 < (vSet ls).series.length := by simp only [hsl]; omega
    have hy : ((locate ls' q).1 + 1, (locate ls' q).2).1 < (vSet ls).series.length := by simp only [hsl]; omega
    have hn : noiseVar (vSet ls') (vPm pm' (idxc' k') (idxl' k')) 0 (fun j => j + 3) ((locate ls' p).1 + 1, (locate ls' p).2) =
        noiseVar (vSet ls) (vPm pm (idxc k) (idxl k)) 0 (fun j => j + 3) (π (locate ls' p).1 + 1, (locate ls' p).2) := by
      have h0 := h.line _ hp 0 (by omega)
      rw [add_zero, add_zero] at h0
      simp only [noiseVar, vPm_sigma, hd.ser hx]
      simp only [vSigma, pmSyserr, vPm, h.con 1 (by omega), h0, serPerm]
    unfold covEntry
    rw [hn, vPm_tau, vPm_tau]
    simp only [hd.point_iff hx hy]
    rw [h.sigCov hd lin typ hF _ _ hx hy]
    rfl
  · ext p c
    exact hr.trend nq (q := nq * ls'.length) (by rw [hlen]) p.2 (σ p).2 (hσ p) c.2 (hτ c).1 (hτ c).2
  · ext p
    exact hr.fall LC.f p.2 (σ p).2 (hσ p)

/-- C97 for the mode without continuum. -/
theorem C97_order_vmap (nq ng : ℕ) (lin : Bool) (typ : ℕ → TF) (pm pm' : ℕ → ℝ) (idxc idxc' : ℕ → ℕ)
    (idxl idxl' : ℕ → ℕ → ℕ) (mem mem' : ℕ → ℝ) (ds ds' : List (List LC)) (κ : ℕ → ℕ) (π : ℕ → ℕ → ℕ)
    (hlen : ds'.length = ds.length) (hκ : PermOn ds.length κ)
    (h : ∀ k d d', ds'[k]? = some d' → ds[κ k]? = some d → LinesMoved (vSet d) (vSet d') (π k) ∧
      ParsMoved ng d.length pm pm' (idxc (κ k)) (idxc' k) (idxl (κ k)) (idxl' k) (π k))
    (hF : ∀ k d, ds[k]? = some d → (KEnv.mk ng lin typ pm (idxc k) (idxl k)).Far d.length)
    (hok : VmapOK (tfEnv nq ng lin typ pm idxc idxl mem) ds) :
    let e := tfEnv nq ng lin typ pm idxc idxl mem
    let e' := tfEnv nq ng lin typ pm' idxc' idxl' mem'
    probVmap3 e' ds' = probVmap3 e ds ∧ probVmap4 e' ds' = probVmap4 e ds := by
  intro e e'
  have hex : ∀ k d', ds'[k]? = some d' → ∃ d, ds[κ k]? = some d := by
    intro k d' hd
    have hk := (List.getElem?_eq_some_iff.1 hd).1
    rw [hlen] at hk
    exact ⟨_, List.getElem?_eq_getElem (hκ.1 k hk)⟩
  have hsig : ∀ k d d', ds'[k]? = some d' → ds[κ k]? = some d → vSigma pm' (idxc' k) = vSigma pm (idxc (κ k)) := by
    intro k d d' hd' hd
    simp only [vSigma, (h k d d' hd' hd).2.con 1 (by omega)]
  have hok' : VmapOK e' ds' := by
    intro k d' hd'
    obtain ⟨d, hd⟩ := hex k d' hd'
    obtain ⟨hl, hp⟩ := h k d d' hd' hd
    obtain ⟨h1, h2, h3⟩ := hok _ d hd
    obtain ⟨σ, τ, m1, m2, m3⟩ := vmap_matrices hl hp nq lin typ mem mem' (hF _ d hd)
    have hr : Reord d d' (π k) := ⟨hl.len, hl.perm, hl.get⟩
    refine ⟨?_, ?_, ?_⟩
    · intro h0
      have := hr.len
      rw [h0] at this
      exact h1 (List.length_eq_zero_iff.1 this.symm)
    · intro a ha
      obtain ⟨s, hs⟩ := List.mem_iff_getElem?.1 ha
      have hlt := (List.getElem?_eq_some_iff.1 hs).1
      rw [hr.len] at hlt
      rw [hr.get s hlt] at hs
      exact h2 a (List.mem_of_getElem? hs)
    · rw [← vPC_cov] at h3 ⊢
      have hs := hsig k d d' hd' hd
      simp only [e', tfEnv, m1, hs]
      exact posDef_reindex σ h3
  have v3 : (ds'.mapIdx fun k ls => margLL (vmapCov e' k ls) (vTrend e'.nq ls) (vFall ls)).sum =
      (ds.mapIdx fun k ls => margLL (vmapCov e k ls) (vTrend e.nq ls) (vFall ls)).sum := by
    refine mapIdx_sum_perm ds ds' κ hκ hlen _ _ fun k d' d hd' hd => ?_
    obtain ⟨hl, hp⟩ := h k d d' hd' hd
    obtain ⟨σ, τ, m1, m2, m3⟩ := vmap_matrices hl hp nq lin typ mem mem' (hF _ d hd)
    refine Eq.trans ?_ (margLL_reindex σ τ (vmapCov e (κ k) d) (vTrend nq d) (vFall d))
    rw [← vPC_cov, ← vPC_cov]
    simp only [e, e', tfEnv, m1, m2, m3, hsig k d d' hd' hd]
    rfl
  have v4 : (ds'.mapIdx fun k ls => vVal4 e' k ls).sum = (ds.mapIdx fun k ls => vVal4 e k ls).sum := by
    refine mapIdx_sum_perm ds ds' κ hκ hlen _ _ fun k d' d hd' hd => ?_
    obtain ⟨hl, hp⟩ := h k d d' hd' hd
    obtain ⟨σ, τ, m1, m2, m3⟩ := vmap_matrices hl hp nq lin typ mem mem' (hF _ d hd)
    have hle : d'.length = d.length := hl.len
    unfold vVal4
    simp only [hle, e, e', tfEnv, m1, m2, m3, hsig k d d' hd' hd, Matrix.inv_submatrix_equiv,
      Matrix.det_submatrix_equiv_self]
    split
    · congr 1
      exact margLL_reindex σ τ ((vSigma pm (idxc (κ k)) * vSigma pm (idxc (κ k))) •
        (vPC (KEnv.mk ng lin typ pm (idxc (κ k)) (idxl (κ k))).kernels pm (idxc (κ k)) (idxl (κ k)) d mem)⁻¹)
        (vTrend nq d) (vFall d)
    · exact margLL_reindex σ τ ((vSigma pm (idxc (κ k)) * vSigma pm (idxc (κ k))) •
        vPC (KEnv.mk ng lin typ pm (idxc (κ k)) (idxl (κ k))).kernels pm (idxc (κ k)) (idxl (κ k)) d mem)
        (vTrend nq d) (vFall d)
  have w := vmap_value e ds hok
  have w' := vmap_value e' ds' hok'
  rw [w.1, w.2, w'.1, w'.2, v3, v4]
  exact ⟨rfl, rfl⟩

/-- C97 for the continuum stage: the order of the data sets. -/
theorem C97_order_con (nq : ℕ) (pm pm' : ℕ → ℝ) (idx idx' : ℕ → ℕ) (mem mem' : ℕ → ℝ) (ds ds' : List LC) (κ : ℕ → ℕ)
    (hlen : ds'.length = ds.length) (hκ : PermOn ds.length κ) (hget : ∀ k < ds.length, ds'[k]? = ds[κ k]?)
    (hpm : ∀ k < ds.length, ∀ r < 3, pm' (idx' k + r) = pm (idx (κ k) + r)) (hok : ConDataOK nq pm idx ds) :
    probCon nq pm' idx' mem' ds' = probCon nq pm idx mem ds ∧ probConSemi nq pm' idx' ds' = probConSemi nq pm idx ds := by
  have hk : ∀ {k d'}, ds'[k]? = some d' → k < ds.length ∧ ds[κ k]? = some d' := by
    intro k d' hd
    have h1 := (List.getElem?_eq_some_iff.1 hd).1
    rw [hlen] at h1
    exact ⟨h1, (hget k h1).symm.trans hd⟩
  have hok' : ConDataOK nq pm' idx' ds' := by
    intro k d' hd'
    obtain ⟨h1, h2⟩ := hk hd'
    have h0 := hpm k h1 0 (by omega)
    rw [add_zero, add_zero] at h0
    rw [h0]
    exact hok _ _ h2
  have v : (ds'.mapIdx fun k d => margLL (conCov pm' (idx' k) d) (trendMat d.t d.n nq) (fun i => d.f i)).sum =
      (ds.mapIdx fun k d => margLL (conCov pm (idx k) d) (trendMat d.t d.n nq) (fun i => d.f i)).sum := by
    refine mapIdx_sum_perm ds ds' κ hκ hlen _ _ fun k d' d hd' hd => ?_
    obtain ⟨h1, h2⟩ := hk hd'
    obtain rfl : d' = d := Option.some.inj (h2.symm.trans hd)
    have h0 := hpm k h1 0 (by omega)
    rw [add_zero, add_zero] at h0
    have e : conCov pm' (idx' k) d' = conCov pm (idx (κ k)) d' := by
      simp only [conCov, h0, hpm k h1 1 (by omega), hpm k h1 2 (by omega)]
    rw [e]
  have w := con_value nq pm idx mem ds hok
  have w' := con_value nq pm' idx' mem' ds' hok'
  rw [w.1, w.2, w'.1, w'.2, v]
  exact ⟨rfl, rfl⟩

/-! ### Example: two data sets change places, and so do the two lines of the first -/

/-- Light curves of one point. -/
noncomputable def ordLC (t f : ℝ) : LC := ⟨1, fun _ => t, fun _ => f, fun _ => 1, 1⟩

/-- Two data sets, the first with two lines; its lines the other way round. -/
noncomputable def ordA : DSet := ⟨ordLC 0 3, [ordLC 5 2, ordLC 9 4]⟩
@[inherit_doc ordA] noncomputable def ordA' : DSet := ⟨ordLC 0 3, [ordLC 9 4, ordLC 5 2]⟩
@[inherit_doc ordA] noncomputable def ordB : DSet := ⟨ordLC 1 7, []⟩

/-- Parameters: first data set from 0 (lines at 3 and 7), second data set from 11. -/
noncomputable def ordPm : ℕ → ℝ := fun i => [0, 0, 0, 0, 1, 7, 0, 0, 2, 20, 1, 0, 2, 3].getD i 0
/-- The same for the other order: the second data set first, then the first with its lines exchanged. -/
noncomputable def ordPm' : ℕ → ℝ := fun i => [0, 2, 3, 0, 0, 0, 0, 2, 20, 1, 0, 1, 7, 0].getD i 0

def ordIdxc : ℕ → ℕ := fun k => if k = 0 then 0 else 11
def ordIdxl : ℕ → ℕ → ℕ := fun k j => ordIdxc k + 3 + 4 * j
def ordIdxc' : ℕ → ℕ := fun k => if k = 0 then 0 else 3
def ordIdxl' : ℕ → ℕ → ℕ := fun k j => ordIdxc' k + 3 + 4 * j
def ordSwap : ℕ → ℕ := fun k => 1 - k

theorem ordSwap_perm : PermOn 2 ordSwap := by
  refine ⟨fun i hi => ?_, fun i hi j hj h => ?_⟩
  · simp only [ordSwap]; omega
  · simp only [ordSwap] at h; omega

theorem ord_reordered : Reordered 1 ordPm ordPm' ordIdxc ordIdxc' ordIdxl ordIdxl' [ordA, ordB] [ordB, ordA'] ordSwap
    (fun _ => ordSwap) where
  len := rfl
  perm := ordSwap_perm
  each := by
    intro k d d' hd' hd
    rcases k with _ | _ | k
    · obtain rfl : ordB = d' := by simpa using hd'
      obtain rfl : ordB = d := by simpa [ordSwap] using hd
      refine ⟨⟨rfl, rfl, ⟨fun i hi => ?_, fun i hi => ?_⟩, fun j hj => ?_⟩, ⟨fun i hi => ?_, fun i hi => ?_⟩, fun r hr => ?_,
        fun j hj => ?_⟩
      · simp [ordB] at hi
      · simp [ordB] at hi
      · simp [ordB] at hj
      · simp [ordB] at hi
      · simp [ordB] at hi
      · interval_cases r <;> simp [ordPm, ordPm', ordIdxc, ordIdxc', ordSwap]
      · simp [ordB] at hj
    · obtain rfl : ordA' = d' := by simpa using hd'
      obtain rfl : ordA = d := by simpa [ordSwap] using hd
      refine ⟨⟨rfl, rfl, ordSwap_perm, fun j hj => ?_⟩, ordSwap_perm, fun r hr => ?_, fun j hj r hr => ?_⟩
      · have : j < 2 := hj
        interval_cases j <;> simp [ordA, ordA', ordSwap]
      · interval_cases r <;> simp [ordPm, ordPm', ordIdxc, ordIdxc', ordSwap]
      · have : j < 2 := hj
        have : r < 4 := by omega
        interval_cases j <;> interval_cases r <;> simp [ordPm, ordPm', ordIdxl, ordIdxl', ordIdxc, ordIdxc', ordSwap]
    · simp at hd'

theorem gauss_far (ng : ℕ) (lin : Bool) (pm : ℕ → ℝ) (idxc : ℕ) (idxl : ℕ → ℕ) (J : ℕ) :
    (KEnv.mk ng lin (fun _ => .gauss) pm idxc idxl).Far J := by
  intro j _ k _
  exact ⟨by simp [FarC], fun j' _ k' _ => by simp [FarL]⟩

example : probLine4 (tfEnv 1 1 true (fun _ => .gauss) ordPm' ordIdxc' ordIdxl' fun _ => 0) [ordB, ordA'] =
    probLine4 (tfEnv 1 1 true (fun _ => .gauss) ordPm ordIdxc ordIdxl fun _ => 0) [ordA, ordB] := by
  refine (C97_order 1 1 true _ _ _ _ _ _ _ _ _ _ _ _ _ ord_reordered (fun k d _ => gauss_far _ _ _ _ _ _) ?_).2.2.2
  have hone : ∀ t f, EnoughTimes (ordLC t f) 1 := fun t f =>
    ⟨fun _ => ⟨0, by simp [ordLC]⟩, fun x y _ => Subsingleton.elim x y⟩
  apply TransferOK.lineDataOK
  intro k d hd
  refine ⟨⟨1, true, fun _ => .gauss, rfl, gauss_far _ _ _ _ _ _, ?_⟩, ?_, ?_⟩
  · rcases k with _ | _ | k
    · obtain rfl : ordA = d := by simpa using hd
      refine ⟨fun i _ => by simp only [ordA, ordLC]; positivity, fun j a ha i _ => ?_⟩
      have := List.mem_of_getElem? ha
      simp only [ordA, List.mem_cons, List.not_mem_nil, or_false] at this
      rcases this with rfl | rfl <;> simp only [ordLC] <;> positivity
    · obtain rfl : ordB = d := by simpa using hd
      refine ⟨fun i _ => by simp only [ordB, ordLC]; positivity, fun j a ha i _ => ?_⟩
      simp [ordB] at ha
    · simp at hd
  · intro i hi
    rcases k with _ | _ | k
    · obtain rfl : ordA = d := by simpa using hd
      simp [ordA, ordLC] at hi
    · obtain rfl : ordB = d := by simpa using hd
      simp [ordB, ordLC] at hi
    · simp at hd
  · intro a ha
    rcases k with _ | _ | k
    · obtain rfl : ordA = d := by simpa using hd
      simp only [DSet.series, ordA, List.mem_cons, List.not_mem_nil, or_false] at ha
      rcases ha with rfl | rfl | rfl <;> exact hone _ _
    · obtain rfl : ordB = d := by simpa using hd
      simp only [DSet.series, ordB, List.mem_cons, List.not_mem_nil, or_false] at ha
      rcases ha with rfl; exact hone _ _
    · simp at hd

end Mica
