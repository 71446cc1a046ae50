import Verif.Proof.Mirror
import Verif.Props.TimeUnit
import Verif.Props.Order

/-! # C140: no arrow of time for symmetric transfer functions -/

namespace Mica

open Matrix

/-! ### Continuum -/

theorem margLL_con_mirror (nq : ℕ) {pm pm' : ℕ → ℝ} {idx : ℕ} (d : LC) (h0 : pm' idx = pm idx)
    (h1 : pm' (idx + 1) = pm (idx + 1)) (h2 : pm' (idx + 2) = pm (idx + 2))
    (hd : ConOK d ((Real.exp (pm idx) - 1) * d.em)) (ht : EnoughTimes d nq) :
    margLL (conCov pm' idx d.mirror) (trendMat d.mirror.t d.mirror.n nq) (fun i => d.mirror.f i) =
      margLL (conCov pm idx d) (trendMat d.t d.n nq) (fun i => d.f i) := by
  obtain ⟨n, t, f, fe, em⟩ := d
  obtain ⟨e, he⟩ := ht
  have hinj := trendMat_injective t n nq e he
  have hr : ∀ i : Fin n, ((Fin.revPerm i : Fin n) : ℕ) = n - 1 - i := fun i => by
    rw [Fin.revPerm_apply, Fin.val_rev]; omega
  simp only [LC.mirror]
  refine margLL_signs (n := n) (n' := n) (q := nq) (q' := nq) Fin.revPerm rfl id ?_ ?_ ?_
    (trend_posDef (conCov_posDef hd) hinj).det_pos.ne'
  · refine Matrix.ext fun (i j : Fin n) => ?_
    show _ = conCov pm idx ⟨n, t, f, fe, em⟩ (Fin.revPerm i) (Fin.revPerm j)
    unfold conCov drwCov
    simp only [h0, h1, h2, hr i, hr j]
    rw [show ∀ u v : ℝ, -u - -v = -(u - v) from fun u v => by ring, abs_neg]
    congr 1
    by_cases hij : i = j
    · subst hij; simp
    · rw [if_neg hij, if_neg fun h => hij (Fin.revPerm.injective h)]
  · intro i j
    simp only [trendMat, Fin.cast_eq_self, id, hr i]
    split
    · rename_i h; rw [h]; simp
    · rw [← mul_pow]; congr 1; ring
  · funext i
    exact congrArg f (hr i).symm

/-- C140, continuum: the likelihoods do not tell the direction of time. -/
theorem C140_con (nq : ℕ) (pm pm' : ℕ → ℝ) (idx : ℕ → ℕ) (mem mem' : ℕ → ℝ) (ds : List LC)
    (h : ConDataOK nq pm idx ds)
    (hp : ∀ k < ds.length, pm' (idx k) = pm (idx k) ∧ pm' (idx k + 1) = pm (idx k + 1) ∧
      pm' (idx k + 2) = pm (idx k + 2)) :
    ∃ v, probCon nq pm idx mem ds = .ok v ∧ probConSemi nq pm idx ds = some v ∧
      probCon nq pm' idx mem' (ds.map LC.mirror) = .ok v ∧ probConSemi nq pm' idx (ds.map LC.mirror) = some v := by
  have hlt : ∀ {k d}, ds[k]? = some d → k < ds.length := fun hd => (List.getElem?_eq_some_iff.1 hd).1
  have h' : ConDataOK nq pm' idx (ds.map LC.mirror) := by
    intro k d hd
    rw [List.getElem?_map, Option.map_eq_some_iff] at hd
    obtain ⟨d0, hd0, rfl⟩ := hd
    rw [(hp k (hlt hd0)).1]
    exact ⟨(h k d0 hd0).1.mirror, (h k d0 hd0).2.mirror⟩
  have hv := con_value nq pm idx mem ds h
  have hv' := con_value nq pm' idx mem' _ h'
  have e : ((ds.map LC.mirror).mapIdx fun k d =>
      margLL (conCov pm' (idx k) d) (trendMat d.t d.n nq) (fun i => d.f i)).sum =
      (ds.mapIdx fun k d => margLL (conCov pm (idx k) d) (trendMat d.t d.n nq) (fun i => d.f i)).sum := by
    rw [mapIdx_of_map]
    refine Eq.trans (sum_sub_const ds _ (fun k d => margLL (conCov pm (idx k) d) (trendMat d.t d.n nq) (fun i => d.f i))
      (fun _ => 0) 0 fun k d hd => ?_) (by simp)
    obtain ⟨h0, h1, h2⟩ := hp k (hlt hd)
    rw [mul_zero, sub_zero]
    exact margLL_con_mirror nq d h0 h1 h2 (h k d hd).1 (h k d hd).2
  exact ⟨_, hv.1, hv.2, by rw [hv'.1, e], by rw [hv'.2, e]⟩

/-! ### Lines -/

/-- Two environments that describe the same model in the two directions of time. -/
structure EnvMirror (e e' : LineEnv) : Prop where
  nq : e'.nq = e.nq
  pars : ∀ k, InUnit0 1 e.pm e'.pm (e.idxc k) (e'.idxc k) (e.idxl k) (e'.idxl k)
  K : ∀ k, (e.K k).Mirror (e'.K k)

theorem ser_of_get {d : DSet} {s : ℕ} {a : LC} (h : d.series[s]? = some a) : d.ser s = a := by
  unfold DSet.ser
  rw [List.getD_eq_getElem?_getD, h]; rfl

theorem lineVal_mirror {e e' : LineEnv} (he : EnvMirror e e') (k : ℕ) (d : DSet)
    (h2 : ∀ b ∈ d.series, EnoughTimes b e.nq) (h3 : (d.cov (e.K k) e.pm (e.idxc k) (e.idxl k)).PosDef) :
    margLL (lineCov e' k d.mirror) (d.mirror.trend e'.nq) (fun i => d.mirror.fall i) =
      margLL (lineCov e k d) (d.trend e.nq) (fun i => d.fall i) ∧
    lineVal4 e' k d.mirror = lineVal4 e k d ∧
    (d.mirror.cov (e'.K k) e'.pm (e'.idxc k) (e'.idxl k)).PosDef := by
  have hlen : d.mirror.line.length = d.line.length := by simp [DSet.mirror]
  have hs := pmSigma_pos e.pm (e.idxc k)
  have hinj := trend_injective d e.nq h2
  obtain ⟨σ, hσ⟩ : ∃ σ : Fin d.mirror.nall ≃ Fin d.nall, ∀ p, locate d.series (σ p) = ((locate d.mirror.series p).1,
        curveN d.series (locate d.mirror.series p).1 - 1 - (locate d.mirror.series p).2) := mirror_points d.series
  have hcov : d.mirror.cov (e'.K k) e'.pm (e'.idxc k) (e'.idxl k) =
      (d.cov (e.K k) e.pm (e.idxc k) (e.idxl k)).submatrix σ σ := by
    have hval : ∀ p : Fin d.mirror.nall, ∃ a, d.series[(locate d.mirror.series p).1]? = some a ∧
        (locate d.mirror.series p).2 < a.n := by
      intro p
      obtain ⟨a, ha, hi⟩ := locate_valid d.mirror.series p p.2
      rw [show d.mirror.series = d.series.map LC.mirror from rfl, List.getElem?_map, Option.map_eq_some_iff] at ha
      obtain ⟨b, hb, rfl⟩ := ha
      exact ⟨b, hb, hi⟩
    ext p r
    rw [DSet.cov, Matrix.of_apply, Matrix.submatrix_apply, DSet.cov, Matrix.of_apply, hσ, hσ]
    obtain ⟨a, ha, hi⟩ := hval p
    obtain ⟨b, hb, hj⟩ := hval r
    rw [curveN_some ha, curveN_some hb]
    have := covEntry_mirror (he.K k) d (he.pars k) (locate d.mirror.series p).1 (locate d.mirror.series r).1
      (locate d.mirror.series p).2 (locate d.mirror.series r).2 (List.getElem?_eq_some_iff.1 ha).1
      (List.getElem?_eq_some_iff.1 hb).1 (by rw [ser_of_get ha]; exact hi) (by rw [ser_of_get hb]; exact hj)
    rwa [ser_of_get ha, ser_of_get hb] at this
  have hq : e'.nq * (1 + d.mirror.line.length) = e.nq * (1 + d.line.length) := by rw [he.nq, hlen]
  have hL : ∀ i j, d.mirror.trend e'.nq i j = d.trend e.nq (σ i) (Fin.cast hq j) * (-1) ^ ((j : ℕ) % e.nq) := by
    intro i j
    have h0 : 0 < e.nq := by
      rcases Nat.eq_zero_or_pos e.nq with h0 | h0
      · exact absurd (j.2.trans_eq hq) (by rw [h0, zero_mul]; omega)
      · exact h0
    have hr : ∀ nq', nq' = e.nq → ∀ c, trendRow nq' d.mirror.series 0 i c = trendRow e.nq d.series 0 (σ i) c * (-1) ^ (c % e.nq) :=
      fun nq' hn c => hn ▸ trendRow_mirror nq' (hn ▸ h0) d.series i (σ i) c i.2 (σ i).2 (hσ i)
    exact hr _ he.nq j
  have hf : (fun i : Fin d.mirror.nall => d.mirror.fall i) = (fun i : Fin d.nall => d.fall i) ∘ σ := by
    funext i
    exact concat_mirror LC.f LC.f (fun _ _ => rfl) d.series i (σ i) i.2 (σ i).2 (hσ i)
  have hm : margLL (lineCov e' k d.mirror) (d.mirror.trend e'.nq) (fun i => d.mirror.fall i) =
      margLL (lineCov e k d) (d.trend e.nq) (fun i => d.fall i) := by
    refine margLL_signs σ hq (· % e.nq) ?_ hL hf
      (trend_posDef (C := lineCov e k d) (L := d.trend e.nq) (h3.smul (by positivity)) hinj).det_pos.ne'
    unfold lineCov
    rw [hcov, (he.pars k).sigma]; rfl
  refine ⟨hm, ?_, ?_⟩
  · unfold lineVal4
    by_cases hl : d.line.length = 0
    · rw [if_pos (hlen.trans hl), if_pos hl, (he.pars k).sigma]
      congr 1
      · refine margLL_signs σ hq (· % e.nq) ?_ hL hf (trend_posDef (C := (pmSigma e.pm (e.idxc k) * pmSigma e.pm (e.idxc k)) •
          (d.cov (e.K k) e.pm (e.idxc k) (e.idxl k))⁻¹) (L := d.trend e.nq) (h3.inv.smul (by positivity)) hinj).det_pos.ne'
        rw [hcov, Matrix.inv_submatrix_equiv]; rfl
      · rw [hcov, Matrix.det_submatrix_equiv_self]
    · rw [if_neg (fun h0 => hl (hlen.symm.trans h0)), if_neg hl]
      exact hm
  · rw [hcov]; exact posDef_reindex σ h3

theorem Mirrored.zero {ng : ℕ} {pm pm' : ℕ → ℝ} {idxc : ℕ} {idxl : ℕ → ℕ} (h : Mirrored ng pm pm' idxc idxl) :
    InUnit0 1 pm pm' idxc idxc idxl idxl :=
  ⟨h.sys, by unfold pmSigma pmTau; rw [h.sigma, h.tau], by unfold pmTau; rw [h.tau, one_mul], h.lineSys⟩

/-- C140, lines: with Gaussian and top-hat components in any mixture, the four line likelihoods are the same for the
light curves with time running backwards and the opposite lags. -/
theorem C140_line (nq ng : ℕ) (lin : Bool) (typ : ℕ → TF) (hT : ∀ k < ng, (typ k).Even) (pm pm' : ℕ → ℝ)
    (idxc : ℕ → ℕ) (idxl : ℕ → ℕ → ℕ) (mem mem' : ℕ → ℝ) (ds : List DSet)
    (h : LineDataOK (tfEnv nq ng lin typ pm idxc idxl mem) ds) (hp : ∀ k, Mirrored ng pm pm' (idxc k) (idxl k)) :
    ∃ v v4 : ℝ,
      (let e := tfEnv nq ng lin typ pm idxc idxl mem;
        probLine1 e ds = .ok v ∧ probLine2 e ds = .ok v ∧ probLine3 e ds = .ok v ∧ probLine4 e ds = .ok v4) ∧
      let e' := tfEnv nq ng lin typ pm' idxc idxl mem'
      probLine1 e' (ds.map DSet.mirror) = .ok v ∧ probLine2 e' (ds.map DSet.mirror) = .ok v ∧
      probLine3 e' (ds.map DSet.mirror) = .ok v ∧ probLine4 e' (ds.map DSet.mirror) = .ok v4 := by
  set e := tfEnv nq ng lin typ pm idxc idxl mem
  set e' := tfEnv nq ng lin typ pm' idxc idxl mem'
  have he : EnvMirror e e' := ⟨rfl, fun k => (hp k).zero, fun k => (hp k).kernels lin typ hT⟩
  have h' : LineDataOK e' (ds.map DSet.mirror) := by
    intro k d hd
    rw [List.getElem?_map, Option.map_eq_some_iff] at hd
    obtain ⟨d0, hd0, rfl⟩ := hd
    obtain ⟨h1, h2, h3⟩ := h k d0 hd0
    rw [(he.pars k).sys, he.nq]
    refine ⟨h1.mirror, fun b hb => ?_, (lineVal_mirror he k d0 h2 h3).2.2⟩
    rw [show d0.mirror.series = d0.series.map LC.mirror from rfl, List.mem_map] at hb
    obtain ⟨b0, hb0, rfl⟩ := hb
    exact (h2 b0 hb0).mirror
  have hv := line_value e ds h
  have hv' := line_value e' _ h'
  have e1 : ((ds.map DSet.mirror).mapIdx fun k d =>
      margLL (lineCov e' k d) (d.trend e'.nq) (fun i => d.fall i)).sum =
      (ds.mapIdx fun k d => margLL (lineCov e k d) (d.trend e.nq) (fun i => d.fall i)).sum := by
    rw [mapIdx_of_map]
    refine Eq.trans (sum_sub_const ds _ (fun k d => margLL (lineCov e k d) (d.trend e.nq) (fun i => d.fall i))
      (fun _ => 0) 0 fun k d hd => ?_) (by simp)
    rw [mul_zero, sub_zero]
    exact (lineVal_mirror he k d (h k d hd).2.1 (h k d hd).2.2).1
  have e4 : ((ds.map DSet.mirror).mapIdx fun k d => lineVal4 e' k d).sum =
      (ds.mapIdx fun k d => lineVal4 e k d).sum := by
    rw [mapIdx_of_map]
    refine Eq.trans (sum_sub_const ds _ (fun k d => lineVal4 e k d) (fun _ => 0) 0 fun k d hd => ?_) (by simp)
    rw [mul_zero, sub_zero]
    exact (lineVal_mirror he k d (h k d hd).2.1 (h k d hd).2.2).2.1
  refine ⟨_, _, ⟨hv.1, hv.2.1, hv.2.2, line_value4 e ds h⟩, ?_, ?_, ?_, ?_⟩
  · rw [hv'.1, e1]
  · rw [hv'.2.1, e1]
  · rw [hv'.2.2, e1]
  · rw [line_value4 e' _ h', e4]

/-! ### Without continuum -/

theorem vVal_mirror {e e' : LineEnv} (hnq : e'.nq = e.nq) (hK : ∀ k, (e.K k).Mirror (e'.K k))
    (k : ℕ) (ls : List LC) (hsig : e'.pm (e'.idxc k + 1) = e.pm (e.idxc k + 1))
    (htau : e'.pm (e'.idxc k + 2) = e.pm (e.idxc k + 2)) (hsys : ∀ j, e'.pm (e'.idxl k j) = e.pm (e.idxl k j))
    (h2 : ∀ b ∈ ls, EnoughTimes b e.nq) (h3 : (vmapCov e k ls).PosDef) :
    margLL (vmapCov e' k (ls.map LC.mirror)) (vTrend e'.nq (ls.map LC.mirror)) (vFall (ls.map LC.mirror)) =
      margLL (vmapCov e k ls) (vTrend e.nq ls) (vFall ls) ∧
    vVal4 e' k (ls.map LC.mirror) = vVal4 e k ls ∧ (vmapCov e' k (ls.map LC.mirror)).PosDef := by
  have hs := vSigma_pos e.pm (e.idxc k)
  have hse : vSigma e'.pm (e'.idxc k) = vSigma e.pm (e.idxc k) := by simp only [vSigma, hsig]
  have hlen : (ls.map LC.mirror).length = ls.length := List.length_map ..
  have hp : InUnit0 1 (vPm e.pm (e.idxc k) (e.idxl k)) (vPm e'.pm (e'.idxc k) (e'.idxl k)) 0 0 (fun j => j + 3)
      (fun j => j + 3) :=
    ⟨rfl, by rw [vPm_sigma, vPm_sigma, hse], by simp only [pmTau, vPm, htau, one_mul], hsys⟩
  obtain ⟨σ, hσ⟩ := mirror_points ls
  have hval : ∀ p : Fin (totalN (ls.map LC.mirror)), ∃ a, ls[(locate (ls.map LC.mirror) p).1]? = some a ∧
      (locate (ls.map LC.mirror) p).2 < a.n := by
    intro p
    obtain ⟨a, ha, hi⟩ := locate_valid _ p p.2
    rw [List.getElem?_map, Option.map_eq_some_iff] at ha
    obtain ⟨b, hb, rfl⟩ := ha
    exact ⟨b, hb, hi⟩
  have hvs : (vSet ls).mirror = vSet (ls.map LC.mirror) := by
    simp only [DSet.mirror, vSet, LC.mirror, neg_zero]
  have hcov : vPC (e'.K k) e'.pm (e'.idxc k) (e'.idxl k) (ls.map LC.mirror) e'.mem =
      (vPC (e.K k) e.pm (e.idxc k) (e.idxl k) ls e.mem).submatrix σ σ := by
    rw [vPC_eq, vPC_eq]
    ext p r
    rw [Matrix.of_apply, Matrix.submatrix_apply, Matrix.of_apply]
    unfold vEntry
    rw [hσ, hσ]
    obtain ⟨a, ha, hi⟩ := hval p
    obtain ⟨b, hb, hj⟩ := hval r
    have ha' : (vSet ls).series[(locate (ls.map LC.mirror) p).1 + 1]? = some a := ha
    have hb' : (vSet ls).series[(locate (ls.map LC.mirror) r).1 + 1]? = some b := hb
    rw [curveN_some ha, curveN_some hb]
    have := covEntry_mirror (hK k) (vSet ls) hp ((locate (ls.map LC.mirror) p).1 + 1) ((locate (ls.map LC.mirror) r).1 + 1)
      (locate (ls.map LC.mirror) p).2 (locate (ls.map LC.mirror) r).2 (List.getElem?_eq_some_iff.1 ha').1
      (List.getElem?_eq_some_iff.1 hb').1 (by rw [ser_of_get ha']; exact hi) (by rw [ser_of_get hb']; exact hj)
    rwa [ser_of_get ha', ser_of_get hb', hvs] at this
  have hq : e'.nq * (ls.map LC.mirror).length = e.nq * ls.length := by rw [hnq, hlen]
  have hL : ∀ i j, vTrend e'.nq (ls.map LC.mirror) i j = vTrend e.nq ls (σ i) (Fin.cast hq j) * (-1) ^ ((j : ℕ) % e.nq) := by
    intro i j
    have h0 : 0 < e.nq := by
      rcases Nat.eq_zero_or_pos e.nq with h0 | h0
      · exact absurd (j.2.trans_eq hq) (by rw [h0, zero_mul]; omega)
      · exact h0
    have hr : ∀ nq', nq' = e.nq → ∀ c, trendRow nq' (ls.map LC.mirror) 0 i c =
        trendRow e.nq ls 0 (σ i) c * (-1) ^ (c % e.nq) :=
      fun nq' hn c => hn ▸ trendRow_mirror nq' (hn ▸ h0) ls i (σ i) c i.2 (σ i).2 (hσ i)
    exact hr _ hnq j
  have hf : vFall (ls.map LC.mirror) = vFall ls ∘ σ := by
    funext i
    exact concat_mirror LC.f LC.f (fun _ _ => rfl) ls i (σ i) i.2 (σ i).2 (hσ i)
  have hinj := vTrend_injective e.nq ls h2
  have hPC := vPC_posDef h3
  have hvc : vmapCov e' k (ls.map LC.mirror) = (vmapCov e k ls).submatrix σ σ := by
    rw [← vPC_cov, ← vPC_cov, hcov, hse]; rfl
  have hm := margLL_signs σ hq (· % e.nq) hvc hL hf (trend_posDef h3 hinj).det_pos.ne'
  refine ⟨hm, ?_, ?_⟩
  · unfold vVal4
    simp only
    by_cases hl : ls.length = 1
    · rw [if_pos (hlen.trans hl), if_pos hl, hse]
      congr 1
      · refine margLL_signs σ hq (· % e.nq) ?_ hL hf (trend_posDef (C := (vSigma e.pm (e.idxc k) * vSigma e.pm (e.idxc k)) •
          (vPC (e.K k) e.pm (e.idxc k) (e.idxl k) ls e.mem)⁻¹) (hPC.inv.smul (by positivity)) hinj).det_pos.ne'
        rw [hcov, Matrix.inv_submatrix_equiv]; rfl
      · rw [hcov, Matrix.det_submatrix_equiv_self]
    · rw [if_neg (fun h0 => hl (hlen.symm.trans h0)), if_neg hl, vPC_cov, vPC_cov]
      exact hm
  · rw [hvc]; exact posDef_reindex σ h3

/-- C140, mode without continuum. -/
theorem C140_vmap (nq ng : ℕ) (lin : Bool) (typ : ℕ → TF) (hT : ∀ k < ng, (typ k).Even) (pm pm' : ℕ → ℝ)
    (idxc : ℕ → ℕ) (idxl : ℕ → ℕ → ℕ) (mem mem' : ℕ → ℝ) (ds : List (List LC))
    (h : VmapOK (tfEnv nq ng lin typ pm idxc idxl mem) ds) (hp : ∀ k, Mirrored ng pm pm' (idxc k) (idxl k)) :
    ∃ v v4 : ℝ,
      (let e := tfEnv nq ng lin typ pm idxc idxl mem; probVmap3 e ds = .ok v ∧ probVmap4 e ds = .ok v4) ∧
      let e' := tfEnv nq ng lin typ pm' idxc idxl mem'
      probVmap3 e' (ds.map fun ls => ls.map LC.mirror) = .ok v ∧
      probVmap4 e' (ds.map fun ls => ls.map LC.mirror) = .ok v4 := by
  set e := tfEnv nq ng lin typ pm idxc idxl mem
  set e' := tfEnv nq ng lin typ pm' idxc idxl mem'
  have hK : ∀ k, (e.K k).Mirror (e'.K k) := fun k => (hp k).kernels lin typ hT
  have key := fun k ls (hd : ds[k]? = some ls) => vVal_mirror (e := e) (e' := e') rfl hK k ls (hp k).sigma (hp k).tau
    (hp k).lineSys (h k ls hd).2.1 (h k ls hd).2.2
  have h' : VmapOK e' (ds.map fun ls => ls.map LC.mirror) := by
    intro k ls hd
    rw [List.getElem?_map, Option.map_eq_some_iff] at hd
    obtain ⟨l0, hd0, rfl⟩ := hd
    refine ⟨by simpa using (h k l0 hd0).1, fun b hb => ?_, (key k l0 hd0).2.2⟩
    obtain ⟨b0, hb0, rfl⟩ := List.mem_map.1 hb
    exact ((h k l0 hd0).2.1 b0 hb0).mirror
  obtain ⟨v3, v4⟩ := vmap_value e ds h
  obtain ⟨w3, w4⟩ := vmap_value e' _ h'
  refine ⟨_, _, ⟨v3, v4⟩, ?_, ?_⟩
  · rw [w3, mapIdx_of_map]
    congr 1
    refine Eq.trans (sum_sub_const ds _ (fun k ls => margLL (vmapCov e k ls) (vTrend e.nq ls) (vFall ls))
      (fun _ => 0) 0 fun k ls hd => ?_) (by simp)
    rw [mul_zero, sub_zero]
    exact (key k ls hd).1
  · rw [w4, mapIdx_of_map]
    congr 1
    refine Eq.trans (sum_sub_const ds _ (fun k ls => vVal4 e k ls) (fun _ => 0) 0 fun k ls hd => ?_) (by simp)
    rw [mul_zero, sub_zero]
    exact (key k ls hd).2.1

/-! ### One-sided transfer functions -/

/-- An exponential response points from the continuum to the line: no exponential component, whatever its amplitude, lag
and width, has the covariance with the continuum that the reversed light curves have.  Before the onset of the response
the covariance falls off as that of the continuum does; after it, not. -/
theorem C140_exp_fails {taud : ℝ} (ht : 0 < taud) (x y : Comp) (hxf : x.f ≠ 0) (hx : 0 < x.w) :
    ¬ ∀ Dt, fpSlc .exp taud y (-Dt) = fpSlc .exp taud x Dt := by
  intro h
  simp only [fpSlc] at h
  obtain ⟨D, hD1, hD2⟩ : ∃ D : ℝ, x.c - x.w < D ∧ -(y.c - y.w) ≤ D :=
    ⟨max (x.c - x.w) (-(y.c - y.w)) + 1, by have := le_max_left (x.c - x.w) (-(y.c - y.w)); linarith,
      by have := le_max_right (x.c - x.w) (-(y.c - y.w)); linarith⟩
  have hY : ∀ E ≥ D, slcExp taud y (-E) * Real.exp (E / taud) =
      Real.exp (-(y.c - y.w) / taud) / ((taud + y.w) / taud) * y.f := by
    intro E hE
    have e : Real.exp ((-E - (y.c - y.w)) / taud) * Real.exp (E / taud) = Real.exp (-(y.c - y.w) / taud) := by
      rw [← Real.exp_add]; congr 1; ring
    simp only [slcExp]
    rw [if_pos (by linarith), ← e]
    ring
  have hg : slcExp taud x D * Real.exp (D / taud) = slcExp taud x (D + taud) * Real.exp ((D + taud) / taud) := by
    rw [← h, ← h, hY D le_rfl, hY (D + taud) (by linarith)]
  have hp1 : (taud + x.w) / taud ≠ 0 := by positivity
  have hE : ∀ E : ℝ, Real.exp (-(E - (x.c - x.w)) / taud) * Real.exp (E / taud) = Real.exp ((x.c - x.w) / taud) := by
    intro E
    rw [← Real.exp_add]; congr 1; ring
  simp only [slcExp] at hg
  rw [if_neg (show ¬ D - (x.c - x.w) ≤ 0 by linarith), if_neg (show ¬ D + taud - (x.c - x.w) ≤ 0 by linarith)] at hg
  by_cases hb : |(taud - x.w) / taud| < kEPS
  · simp only [if_pos hb] at hg
    have e : ∀ E : ℝ, Real.exp (-(E - (x.c - x.w)) / taud) * ((E - (x.c - x.w)) / taud + 1 / ((taud + x.w) / taud)) * x.f *
        Real.exp (E / taud) = Real.exp ((x.c - x.w) / taud) * x.f * ((E - (x.c - x.w)) / taud + 1 / ((taud + x.w) / taud)) := by
      intro E; rw [← hE E]; ring
    rw [e, e] at hg
    have := mul_left_cancel₀ (mul_ne_zero (Real.exp_pos _).ne' hxf) hg
    have h2 : (D + taud - (x.c - x.w)) / taud = (D - (x.c - x.w)) / taud + 1 := by field_simp; ring
    rw [h2] at this
    linarith
  · simp only [if_neg hb] at hg
    have hne : taud - x.w ≠ 0 := by
      intro h0
      apply hb
      rw [h0, zero_div, abs_zero, kEPS]
      norm_num
    have hp2 : (taud - x.w) / taud ≠ 0 := div_ne_zero hne ht.ne'
    have hk : -1 / ((taud - x.w) / taud) + 1 / ((taud + x.w) / taud) ≠ 0 := by
      have : taud + x.w ≠ 0 := by positivity
      have e : -1 / ((taud - x.w) / taud) + 1 / ((taud + x.w) / taud) = -2 * x.w * taud / ((taud - x.w) * (taud + x.w)) := by
        field_simp
        ring
      rw [e]
      exact div_ne_zero (mul_ne_zero (mul_ne_zero (by norm_num) hx.ne') ht.ne') (mul_ne_zero hne this)
    have e : ∀ E : ℝ, (Real.exp (-(E - (x.c - x.w)) / taud) / ((taud - x.w) / taud) + Real.exp (-(E - (x.c - x.w)) / x.w) *
          (-1 / ((taud - x.w) / taud) + 1 / ((taud + x.w) / taud))) * x.f * Real.exp (E / taud) =
        Real.exp ((x.c - x.w) / taud) / ((taud - x.w) / taud) * x.f +
          (-1 / ((taud - x.w) / taud) + 1 / ((taud + x.w) / taud)) * x.f * Real.exp (-(E - (x.c - x.w)) / x.w + E / taud) := by
      intro E; rw [← hE E, Real.exp_add]; ring
    rw [e, e] at hg
    have h1 := Real.exp_injective (mul_left_cancel₀ (mul_ne_zero hk hxf) (add_left_cancel hg))
    have h2 : taud * (1 / taud - 1 / x.w) = 0 := by
      have h3 : (-(D + taud - (x.c - x.w)) / x.w + (D + taud) / taud) - (-(D - (x.c - x.w)) / x.w + D / taud) =
        taud * (1 / taud - 1 / x.w) := by ring
      rw [← h3, h1, sub_self]
    rcases mul_eq_zero.1 h2 with h3 | h3
    · exact ht.ne' h3
    · apply hne
      have := inv_injective (show taud⁻¹ = x.w⁻¹ by rw [← one_div, ← one_div]; linarith)
      linarith

/-! ### Examples -/

/-- A continuum of three points with a linear trend. -/
example : ∃ v, probConSemi 2 (fun _ => 0) (fun _ => 0)
      [(⟨3, fun i => (i : ℝ) ^ 2, fun i => (i : ℝ) ^ 3 + 1, fun _ => 1, 1⟩ : LC)] = some v ∧
    probConSemi 2 (fun _ => 0) (fun _ => 0)
      [(⟨3, fun i => -((3 - 1 - i : ℕ) : ℝ) ^ 2, fun i => ((3 - 1 - i : ℕ) : ℝ) ^ 3 + 1, fun _ => 1, 1⟩ : LC)] = some v := by
  obtain ⟨v, -, h1, -, h2⟩ := C140_con 2 (fun _ => 0) (fun _ => 0) (fun _ => 0) (fun _ => 0)
    (fun _ => 0) [(⟨3, fun i => (i : ℝ) ^ 2, fun i => (i : ℝ) ^ 3 + 1, fun _ => 1, 1⟩ : LC)] (by
      intro k d hd
      rcases k with _ | k <;> simp at hd
      subst hd
      refine ⟨⟨fun i _ => by push_cast; nlinarith [(Nat.cast_nonneg i : (0 : ℝ) ≤ i)],
        Or.inl fun i _ => by norm_num⟩, fun i => Fin.castLE (by norm_num) i, fun i j hij => Fin.ext ?_⟩
      have h := (sq_eq_sq₀ (Nat.cast_nonneg _) (Nat.cast_nonneg _)).1 hij
      simpa using h) (by intro k _; simp)
  exact ⟨v, h1, h2⟩

/-- A continuum at time 0 and lines at times 5 and 9 with lags 7 and 20, and the reversed light curves. -/
example : ∃ v,
    probLine4 (tfEnv 1 1 true (fun _ => .gauss) (fun i => if i = 5 then 7 else if i = 9 then 20 else 0) (fun _ => 0)
      (fun _ j => 3 + 4 * j) fun _ => 0) [ordA] = .ok v ∧
    probLine4 (tfEnv 1 1 true (fun _ => .gauss) (fun i => if i = 5 then -7 else if i = 9 then -20 else 0) (fun _ => 0)
      (fun _ j => 3 + 4 * j) fun _ => 0) [⟨ordLC (-0) 3, [ordLC (-5) 2, ordLC (-9) 4]⟩] = .ok v := by
  obtain ⟨v, v4, ⟨-, -, -, h1⟩, -, -, -, h2⟩ := C140_line 1 1 true (fun _ => .gauss) (fun _ _ => Or.inl rfl)
    (fun i => if i = 5 then 7 else if i = 9 then 20 else 0) (fun i => if i = 5 then -7 else if i = 9 then -20 else 0)
    (fun _ => 0) (fun _ j => 3 + 4 * j) (fun _ => 0) (fun _ => 0) [ordA] (by
      apply TransferOK.lineDataOK
      intro k d hd
      have : d = ordA := by
        rcases k with _ | k <;> simp at hd
        exact hd.symm
      subst this
      refine ⟨⟨1, true, fun _ => .gauss, rfl, gauss_far _ _ _ _ _ _, ?_⟩, fun i hi => ?_, fun a ha => ?_⟩
      · refine ⟨fun i _ => by simp only [ordA, ordLC]; positivity, fun j a ha i _ => ?_⟩
        have := List.mem_of_getElem? ha
        simp only [ordA, List.mem_cons, List.not_mem_nil, or_false] at this
        rcases this with rfl | rfl <;> simp only [ordLC] <;> positivity
      · simp [ordA, ordLC] at hi
      · simp only [DSet.series, ordA, List.mem_cons, List.not_mem_nil, or_false] at ha
        rcases ha with rfl | rfl | rfl <;>
          exact ⟨fun _ => ⟨0, by simp [ordLC]⟩, fun x y _ => Subsingleton.elim (α := Fin 1) x y⟩)
    (fun _ => by
      have e : ∀ j c : ℕ, c < 4 → c ≠ 2 → ∀ u v : ℝ, (if 3 + 4 * j + c = 5 then u else if 3 + 4 * j + c = 9 then v else 0) = 0 := by
        intro j c hc h2 u v
        rw [if_neg (by omega), if_neg (by omega)]
      refine ⟨by simp, by simp, by simp, fun j => ?_, fun j k hk => ?_, fun j k hk => ?_, fun j k hk => ?_⟩
      · exact (e j 0 (by omega) (by omega) _ _).trans (e j 0 (by omega) (by omega) _ _).symm
      · obtain rfl : k = 0 := by omega
        exact (e j 1 (by omega) (by omega) _ _).trans (e j 1 (by omega) (by omega) _ _).symm
      · obtain rfl : k = 0 := by omega
        simp only [mul_zero, add_zero]
        split
        · rfl
        · split
          · rfl
          · rw [neg_zero]
      · obtain rfl : k = 0 := by omega
        exact (e j 3 (by omega) (by omega) _ _).trans (e j 3 (by omega) (by omega) _ _).symm)
  exact ⟨v4, h1, h2⟩

/-- One line, one Gaussian component with lag 7, without continuum. -/
theorem vOneGauss_ok (c : ℝ) : VmapOK (tfEnv 1 1 false (fun _ => .gauss) (fun i => if i = 5 then c else 0) (fun _ => 0)
    (fun _ _ => 3) fun _ => 0) [[vOne]] := by
  intro k ls hd
  have : ls = [vOne] := by
    rcases k with _ | k <;> simp at hd
    exact hd.symm
  subst this
  refine ⟨by simp, fun a ha => ?_, ?_⟩
  · refine ⟨fun _ => ⟨0, ?_⟩, fun x y _ => Subsingleton.elim (α := Fin 1) x y⟩
    rw [List.mem_singleton.1 ha]
    norm_num [vOne]
  · obtain ⟨u, hu, h⟩ : ∃ u, 0 < u ∧
        vmapCov (tfEnv 1 1 false (fun _ => .gauss) (fun i => if i = 5 then c else 0) (fun _ => 0) (fun _ _ => 3) fun _ => 0) k
          [vOne] = (Matrix.diagonal fun _ => u : Matrix (Fin (totalN [vOne])) (Fin (totalN [vOne])) ℝ) := by
      refine ⟨sllGauGau 1 ⟨1, c, 1⟩ ⟨1, c, 1⟩ 0 + 1, ?_, ?_⟩
      · unfold sllGauGau; positivity
      rw [← vPC_cov]
      ext i j
      have hi := i.2
      have hj := j.2
      have hn : totalN [vOne] = 1 := rfl
      have hi' : (i : ℕ) = 0 := by omega
      have hj' : (j : ℕ) = 0 := by omega
      have l0 : locate [vOne] 0 = (0, 0) := by simp [locate, vOne]
      rw [Matrix.smul_apply, vPC_apply, diagonal_apply]
      simp only [Fin.ext_iff, hi', hj', l0]
      simp only [covEntry, sigCov, noiseVar, tfEnv, pmSigma, pmTau, pmSyserr, vPm, vSet, DSet.ser, DSet.series, vOne, vSigma,
        KEnv.kernels, KEnv.sll, KEnv.sll2, KEnv.comp, compAt, fpSll, KEnv.taud, List.range_succ]
      simp
    rw [h]
    exact Matrix.PosDef.diagonal fun _ => hu

example : ∃ v,
    probVmap4 (tfEnv 1 1 false (fun _ => .gauss) (fun i => if i = 5 then 7 else 0) (fun _ => 0) (fun _ _ => 3) fun _ => 0)
      [[vOne]] = .ok v ∧
    probVmap4 (tfEnv 1 1 false (fun _ => .gauss) (fun i => if i = 5 then -7 else 0) (fun _ => 0) (fun _ _ => 3) fun _ => 0)
      [[vOne.mirror]] = .ok v := by
  obtain ⟨v, v4, ⟨-, h1⟩, -, h2⟩ := C140_vmap 1 1 false (fun _ => .gauss) (fun _ _ => Or.inl rfl)
    (fun i => if i = 5 then 7 else 0) (fun i => if i = 5 then -7 else 0) (fun _ => 0) (fun _ _ => 3) (fun _ => 0)
    (fun _ => 0) [[vOne]] (vOneGauss_ok 7)
    (fun _ => ⟨by simp, by simp, by simp, fun _ => by simp, fun _ k hk => by obtain rfl : k = 0 := by omega
                                                                             simp,
      fun _ k hk => by obtain rfl : k = 0 := by omega
                       simp,
      fun _ k hk => by obtain rfl : k = 0 := by omega
                       simp⟩)
  exact ⟨v4, h1, h2⟩

end Mica
