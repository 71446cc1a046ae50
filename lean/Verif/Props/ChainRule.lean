import Verif.Proof.ChainRule
import Verif.Props.Merge
import Verif.Props.Recon

/-! C139: likelihood and reconstruction fit together: what a measurement contributes to the likelihood is its probability given the
reconstruction from the other measurements. -/

namespace Mica

open Matrix

/-- The light curve `a` without the measurement `i` (`em`: the mean error of the new light curve). -/
def LC.without (a : LC) (i : ℕ) (em : ℝ) : LC where
  n := a.n - 1
  t := fun p => a.t (skipAt i p)
  f := fun p => a.f (skipAt i p)
  fe := fun p => a.fe (skipAt i p)
  em := em

/-- The data set with a measurement of light curve `s` (0 the continuum) taken out. -/
def DSet.without (d : DSet) (s i : ℕ) (em : ℝ) : DSet :=
  match s with
  | 0 => ⟨d.con.without i em, d.line⟩
  | j + 1 => ⟨d.con, d.line.set j ((d.ser (j + 1)).without i em)⟩

/-- The logarithm of the probability density of a measurement `f` of a quantity predicted as `y` with error `err`, when the
variance of the measurement noise is `ν` (up to the constant `-log (2 pi) / 2`). -/
noncomputable def logPred (f y err ν : ℝ) : ℝ :=
  -(1 / 2) * ((f - y) ^ 2 / (err ^ 2 + ν)) - 1 / 2 * Real.log (err ^ 2 + ν)

theorem LC.without_conOK {a : LC} {i : ℕ} {se se' em : ℝ} (hi : i < a.n) (hse : se' = se) (h : ConOK a se) :
    ConOK (a.without i em) se' := by
  subst hse
  refine ⟨fun j hj => ?_, ?_⟩
  · have hj : j + 1 < a.n - 1 := hj
    show a.t (skipAt i j) ≤ a.t (skipAt i (j + 1))
    unfold skipAt
    by_cases h1 : j + 1 < i
    · rw [if_pos (by omega), if_pos h1]
      exact h.1 j (by omega)
    · rw [if_neg h1]
      by_cases h2 : j < i
      · rw [if_pos h2]
        exact (h.1 j (by omega)).trans (h.1 (j + 1) (by omega))
      · rw [if_neg h2]
        exact h.1 (j + 1) (by omega)
  · rcases h.2 with h' | h'
    · refine Or.inl fun j hj => h' (skipAt i j) ?_
      have hj : j < a.n - 1 := hj
      unfold skipAt; split <;> omega
    · refine Or.inr fun j hj => ?_
      have hj : j + 1 < a.n - 1 := hj
      show a.t (skipAt i j) < a.t (skipAt i (j + 1))
      unfold skipAt
      by_cases h1 : j + 1 < i
      · rw [if_pos (by omega), if_pos h1]
        exact h' j (by omega)
      · rw [if_neg h1]
        by_cases h2 : j < i
        · rw [if_pos h2]
          exact (h' j (by omega)).trans (h' (j + 1) (by omega))
        · rw [if_neg h2]
          exact h' (j + 1) (by omega)

theorem conCov_data (pm : ℕ → ℝ) (idx : ℕ) (d : LC) :
    conCov pm idx d = conDataCov (pmSigma pm idx) (pmTau pm idx) (pmSyserr pm idx d.em) d := by
  unfold conCov conDataCov pmSigma pmTau pmSyserr
  rw [mul_pow (Real.exp (pm (idx + 1))), Real.sq_sqrt (Real.exp_pos _).le]

/-- What one continuum measurement contributes. -/
theorem margLL_con_without (nq : ℕ) (pm : ℕ → ℝ) (idx : ℕ) (a : LC) (i : ℕ) (em : ℝ) (hi : i < a.n)
    (hse : pmSyserr pm idx em = pmSyserr pm idx a.em) (hc : ConOK a (pmSyserr pm idx a.em))
    (hq : EnoughTimes (a.without i em) nq) (memP memU : ℕ → ℝ) :
    ∃ (r : Recon nq 1) (x : ℝ), conRec nq (pmSigma pm idx) (pmTau pm idx) (pmSyserr pm idx em) (a.without i em) 1 (fun _ => a.t i) memP memU = .ok r ∧
      conRecSemi nq (pmSigma pm idx) (pmTau pm idx) (pmSyserr pm idx em) (a.without i em) 1 (fun _ => a.t i) memU = .ok r ∧
      r.err 0 = some x ∧ 0 ≤ x ∧ 0 < x ^ 2 + (a.fe i ^ 2 + pmSyserr pm idx a.em ^ 2) ∧
      margLL (conCov pm idx a) (trendMat a.t a.n nq) (fun i => a.f i) =
        margLL (conCov pm idx (a.without i em)) (trendMat (a.without i em).t (a.without i em).n nq) (fun p => (a.without i em).f p) +
          logPred (a.f i) (r.val 0) x (a.fe i ^ 2 + pmSyserr pm idx a.em ^ 2) := by
  have hc' : ConOK (a.without i em) (pmSyserr pm idx em) := LC.without_conOK hi hse hc
  have hs := pmSigma_pos pm idx
  have ht : 0 < pmTau pm idx := Real.exp_pos _
  obtain ⟨W, hW, h⟩ := C38_con (m := 1) (trec := fun _ => a.t i) hs ht hc' hq
  obtain ⟨r, r1, r2, r3, r4, _⟩ := h (a.without i em).f memP memU memU
  obtain ⟨r5, r6⟩ := r4 0
  have hP : (conCov pm idx a).PosDef := conCov_posDef hc
  have hL := trend_inj hq
  have hsk : ∀ p < (a.without i em).n, skipAt i p < a.n := by
    intro p hp
    have hp : p < a.n - 1 := hp
    unfold skipAt; split <;> omega
  have hinj : ∀ p r : Fin (a.without i em).n, skipAt i p = skipAt i r ↔ p = r := by
    intro p r
    constructor
    · intro h
      apply Fin.ext
      revert h
      unfold skipAt
      split <;> split <;> omega
    · rintro rfl; rfl
  have hdiag : ∀ p : Fin (a.without i em).n, skipAt i p ≠ i := by
    intro p
    unfold skipAt
    split <;> omega
  have key := margLL_chain_at (n := (a.without i em).n) (N := a.n) (q := nq) (q' := nq) (by show a.n = a.n - 1 + 1; omega) rfl i hi hsk
    (C := conCov pm idx a) (L := trendMat a.t a.n nq) (f := fun i => a.f i)
    (C' := conDataCov (pmSigma pm idx) (pmTau pm idx) (pmSyserr pm idx em) (a.without i em))
    (L' := powMat (fun p : Fin (a.without i em).n => (a.without i em).t p) nq) (f' := fun p => (a.without i em).f p)
    (s := conCross (pmSigma pm idx) (pmTau pm idx) (a.without i em) (a.t i)) (l := fun j => a.t i ^ (j : ℕ)) (a := pmSigma pm idx ^ 2)
    (ν := a.fe i ^ 2 + pmSyserr pm idx a.em ^ 2) (w := W 0) hP (by rw [← trendMat_pow]; exact hL)
    (by
      intro p r
      rw [conCov_data]
      simp only [conDataCov, drwCov, Fin.ext_iff, hinj, hse]
      rfl)
    (by
      intro p c
      rw [← trendMat_pow]
      rfl)
    (fun p => rfl)
    (by
      intro p
      rw [conCov_data]
      simp only [conDataCov, drwCov, conCross, Fin.ext_iff, Ne.symm (hdiag p), if_false, add_zero]
      congr 2
      show -|a.t i - a.t (skipAt i p)| / _ = _
      ring)
    (by
      intro c
      rw [trendMat_pow]
      rfl)
    (by
      rw [conCov_data]
      simp only [conDataCov, drwCov, if_true, sub_self, abs_zero, mul_zero, Real.exp_zero, mul_one])
    (hW 0)
  refine ⟨r, _, r1, r2, r6, Real.sqrt_nonneg _, ?_, ?_⟩
  · rw [Real.sq_sqrt r5]; exact key.1
  · rw [key.2, logPred, Real.sq_sqrt r5, r3, conCov_data pm idx (a.without i em), trendMat_pow (a.without i em).t]
    show _ - _ - _ = margLL (conDataCov _ _ (pmSyserr pm idx em) _) _ _ + _
    ring

/-- C139: for all continuum data, parameters and every measurement of every light curve: the logarithm of the likelihood is that
of the data without this measurement plus the logarithm of the density of its value, normal around the value that the reconstruction
gives at its time from the remaining data, with the squares of the error of the reconstruction, of the error of the measurement and
of the systematic error as variance. -/
theorem C139_con (nq : ℕ) (pm : ℕ → ℝ) (idx : ℕ → ℕ) (mem memP memU : ℕ → ℝ) (ds : List LC) (h : ConDataOK nq pm idx ds) (k : ℕ) (a : LC)
    (hk : ds[k]? = some a) (i : ℕ) (em : ℝ) (hi : i < a.n) (hse : pmSyserr pm (idx k) em = pmSyserr pm (idx k) a.em)
    (hq : EnoughTimes (a.without i em) nq) :
    ∃ (v : ℝ) (r : Recon nq 1) (x : ℝ),
      conRec nq (pmSigma pm (idx k)) (pmTau pm (idx k)) (pmSyserr pm (idx k) em) (a.without i em) 1 (fun _ => a.t i) memP memU = .ok r ∧
      conRecSemi nq (pmSigma pm (idx k)) (pmTau pm (idx k)) (pmSyserr pm (idx k) em) (a.without i em) 1 (fun _ => a.t i) memU = .ok r ∧
      r.err 0 = some x ∧ 0 ≤ x ∧ 0 < x ^ 2 + (a.fe i ^ 2 + pmSyserr pm (idx k) a.em ^ 2) ∧
      (probCon nq pm idx mem (ds.set k (a.without i em)) = .ok v ∧
        probCon nq pm idx mem ds = .ok (v + logPred (a.f i) (r.val 0) x (a.fe i ^ 2 + pmSyserr pm (idx k) a.em ^ 2))) ∧
      (probConSemi nq pm idx (ds.set k (a.without i em)) = some v ∧
        probConSemi nq pm idx ds = some (v + logPred (a.f i) (r.val 0) x (a.fe i ^ 2 + pmSyserr pm (idx k) a.em ^ 2))) := by
  obtain ⟨hc, -⟩ := h k a hk
  obtain ⟨r, x, r1, r2, r3, r4, r5, key⟩ := margLL_con_without nq pm (idx k) a i em hi hse hc hq memP memU
  have h' : ConDataOK nq pm idx (ds.set k (a.without i em)) := by
    intro k' d' hd'
    rw [List.getElem?_set] at hd'
    by_cases hkk : k = k'
    · subst hkk
      rw [if_pos rfl, if_pos (List.getElem?_eq_some_iff.1 hk).1, Option.some.injEq] at hd'
      subst hd'
      exact ⟨LC.without_conOK hi hse hc, hq⟩
    · rw [if_neg hkk] at hd'
      exact h k' d' hd'
  obtain ⟨a1, a2⟩ := con_value nq pm idx mem ds h
  obtain ⟨b1, b2⟩ := con_value nq pm idx mem _ h'
  have hsum := sum_mapIdx_set (fun k d => margLL (conCov pm (idx k) d) (trendMat d.t d.n nq) (fun i => d.f i)) ds hk
    (a.without i em)
  rw [key, add_sub_cancel_left] at hsum
  rw [hsum] at a1 a2
  exact ⟨_, r, x, r1, r2, r3, r4, r5, ⟨b1, a1⟩, ⟨b2, a2⟩⟩

/-! ### A measurement with a large error -/

/-- The light curve with another error of measurement `i`. -/
def LC.withErr (a : LC) (i : ℕ) (x em : ℝ) : LC := { a with fe := Function.update a.fe i x, em := em }

theorem LC.withErr_without (a : LC) (i : ℕ) (x em em' : ℝ) : (a.withErr i x em).without i em' = a.without i em' := by
  have : ∀ p, Function.update a.fe i x (skipAt i p) = a.fe (skipAt i p) := by
    intro p
    refine Function.update_of_ne ?_ _ _
    unfold skipAt; split <;> omega
  simp only [LC.without, LC.withErr, this]

theorem logPred_limit (f y err : ℝ) :
    Filter.Tendsto (fun x : ℝ => logPred f y err (x ^ 2) + Real.log x) Filter.atTop (nhds 0) := by
  have h2 : Filter.Tendsto (fun x : ℝ => x ^ 2) Filter.atTop Filter.atTop := Filter.tendsto_pow_atTop (by norm_num)
  have h3 : Filter.Tendsto (fun x : ℝ => err ^ 2 + x ^ 2) Filter.atTop Filter.atTop :=
    Filter.tendsto_atTop_add_const_left _ _ h2
  have h4 : Filter.Tendsto (fun x : ℝ => (f - y) ^ 2 / (err ^ 2 + x ^ 2)) Filter.atTop (nhds 0) :=
    Filter.Tendsto.div_atTop tendsto_const_nhds h3
  have h5 : Filter.Tendsto (fun x : ℝ => 1 + err ^ 2 / x ^ 2) Filter.atTop (nhds 1) := by
    have : Filter.Tendsto (fun x : ℝ => err ^ 2 / x ^ 2) Filter.atTop (nhds 0) := Filter.Tendsto.div_atTop tendsto_const_nhds h2
    simpa using this.const_add 1
  have h6 : Filter.Tendsto (fun x : ℝ => Real.log (1 + err ^ 2 / x ^ 2)) Filter.atTop (nhds 0) := by
    have := (Real.continuousAt_log (one_ne_zero)).tendsto.comp h5
    simpa [Function.comp_def] using this
  have h7 := (h4.const_mul (-(1 / 2))).sub (h6.const_mul (1 / 2))
  simp only [mul_zero, sub_zero] at h7
  refine h7.congr' ?_
  filter_upwards [Filter.eventually_gt_atTop 0] with x hx
  have e : err ^ 2 + x ^ 2 = x ^ 2 * (1 + err ^ 2 / x ^ 2) := by field_simp; ring
  unfold logPred
  rw [show Real.log (err ^ 2 + x ^ 2) = 2 * Real.log x + Real.log (1 + err ^ 2 / x ^ 2) by
    rw [e, Real.log_mul (by positivity) (by positivity), Real.log_pow]; norm_num]
  ring

/-- C139: a measurement has the less influence the larger its error, and none in the limit: for a light curve without
systematic error, as the error `x` of measurement `i` grows the logarithm of the likelihood, plus `log x`, tends to that of the
data without the measurement, whatever its value. -/
theorem C139_con_limit (nq : ℕ) (pm : ℕ → ℝ) (idx : ℕ → ℕ) (mem : ℕ → ℝ) (ds : List LC) (h : ConDataOK nq pm idx ds) (k : ℕ) (a : LC)
    (hk : ds[k]? = some a) (i : ℕ) (em : ℝ → ℝ) (em' : ℝ) (hi : i < a.n) (h0 : pm (idx k) = 0) (hq : EnoughTimes (a.without i em') nq) :
    ∃ (v : ℝ) (ll : ℝ → ℝ), probCon nq pm idx mem (ds.set k (a.without i em')) = .ok v ∧
      probConSemi nq pm idx (ds.set k (a.without i em')) = some v ∧
      (∀ x > 0, probCon nq pm idx mem (ds.set k (a.withErr i x (em x))) = .ok (ll x) ∧
        probConSemi nq pm idx (ds.set k (a.withErr i x (em x))) = some (ll x)) ∧
      Filter.Tendsto (fun x => ll x + Real.log x) Filter.atTop (nhds v) := by
  have hz : ∀ em, pmSyserr pm (idx k) em = 0 := fun em => by rw [pmSyserr, h0, Real.exp_zero]; ring
  obtain ⟨hc, hqa⟩ := h k a hk
  have hc : ConOK a (pmSyserr pm (idx k) a.em) := hc
  have hkl := (List.getElem?_eq_some_iff.1 hk).1
  obtain ⟨r, x0, r1, -, r3, -, -, -⟩ := margLL_con_without nq pm (idx k) a i em' hi (by rw [hz, hz]) hc hq mem mem
  have hX : ∀ x > 0, ConDataOK nq pm idx (ds.set k (a.withErr i x (em x))) := by
    intro x hx k' d' hd'
    rw [List.getElem?_set] at hd'
    by_cases hkk : k = k'
    · subst hkk
      rw [if_pos rfl, if_pos hkl, Option.some.injEq] at hd'
      subst hd'
      refine ⟨?_, hqa⟩
      show ConOK _ (pmSyserr pm (idx k) _)
      rw [hz] at hc ⊢
      refine ⟨hc.1, hc.2.imp (fun h' j hj => ?_) id⟩
      show 0 < Function.update a.fe i x j * Function.update a.fe i x j + _
      by_cases hji : j = i
      · subst hji
        rw [Function.update_self]; positivity
      · rw [Function.update_of_ne hji]; exact h' j hj
    · rw [if_neg hkk] at hd'
      exact h k' d' hd'
  have hD : ConDataOK nq pm idx (ds.set k (a.without i em')) := by
    intro k' d' hd'
    rw [List.getElem?_set] at hd'
    by_cases hkk : k = k'
    · subst hkk
      rw [if_pos rfl, if_pos hkl, Option.some.injEq] at hd'
      subst hd'
      exact ⟨LC.without_conOK hi (show pmSyserr pm (idx k) em' = pmSyserr pm (idx k) a.em by rw [hz, hz]) hc, hq⟩
    · rw [if_neg hkk] at hd'
      exact h k' d' hd'
  obtain ⟨v1, v2⟩ := con_value nq pm idx mem _ hD
  set v := ((ds.set k (a.without i em')).mapIdx fun k d => margLL (conCov pm (idx k) d) (trendMat d.t d.n nq) (fun i => d.f i)).sum
  refine ⟨v, fun x => v + logPred (a.f i) (r.val 0) x0 (x ^ 2), v1, v2, fun x hx => ?_, ?_⟩
  · obtain ⟨v', r', x', q1, -, q3, -, -, ⟨q4, q5⟩, ⟨q6, q7⟩⟩ := C139_con nq pm idx mem mem mem _ (hX x hx) k (a.withErr i x (em x))
      (by rw [List.getElem?_set, if_pos rfl, if_pos hkl]) i em' hi (by rw [hz, hz]) (by rw [LC.withErr_without]; exact hq)
    rw [LC.withErr_without] at q1 q4 q6
    rw [List.set_set] at q4 q6
    have hr : r' = r := by
      have := q1.symm.trans r1
      simpa using this
    subst hr
    have hx' : x' = x0 := Option.some.inj (q3.symm.trans r3)
    subst hx'
    have hv : v' = v := by rw [v2] at q6; exact (Option.some.inj q6).symm
    subst hv
    rw [hz] at q5 q7
    have e1 : (a.withErr i x (em x)).fe i ^ 2 + (0 : ℝ) ^ 2 = x ^ 2 := by
      show Function.update a.fe i x i ^ 2 + _ = _
      rw [Function.update_self]; ring
    rw [e1] at q5 q7
    exact ⟨q5, q7⟩
  · have := (logPred_limit (a.f i) (r.val 0) x0).const_add v
    rw [add_zero] at this
    exact this.congr fun x => by ring

/-! ### Lines -/

/-- The address of the systematic error parameter of light curve `s`. -/
def sysAt (idxc : ℕ) (idxl : ℕ → ℕ) : ℕ → ℕ
  | 0 => idxc
  | j + 1 => idxl j

section
variable {d : DSet} {s i : ℕ} (hs : s < d.series.length) (em : ℝ)

theorem DSet.without_series (d : DSet) (s i : ℕ) (em : ℝ) :
    (d.without s i em).series = d.series.set s ((d.ser s).without i em) := by
  cases s <;> rfl

theorem DSet.without_line (d : DSet) (s i : ℕ) (em : ℝ) : (d.without s i em).line.length = d.line.length := by
  cases s
  · rfl
  · simp [DSet.without]

include hs in
theorem DSet.without_ser (r : ℕ) : (d.without s i em).ser r = if r = s then (d.ser s).without i em else d.ser r := by
  unfold DSet.ser
  rw [DSet.without_series, List.getD_eq_getElem?_getD, List.getElem?_set]
  by_cases h : s = r
  · subst h
    rw [if_pos rfl, if_pos hs, if_pos rfl]; rfl
  · rw [if_neg h, if_neg (Ne.symm h), List.getD_eq_getElem?_getD]

/-- Where the measurement is in the arrays of all data, and where the others are. -/
theorem DSet.without_pos (hs : s < d.series.length) (hi : i < (d.ser s).n) :
    ∃ P, d.nall = (d.without s i em).nall + 1 ∧ P < d.nall ∧ (∀ p < (d.without s i em).nall, skipAt P p < d.nall) ∧
      locate d.series P = (s, i) ∧ (∀ p, locate d.series (skipAt P p) = liftPt s i (locate (d.without s i em).series p)) := by
  have hg := DSet.ser_get hs
  set a := d.ser s with ha
  obtain ⟨hsplit, hlen⟩ := take_split d.series hg
  set pre := d.series.take s with hpre
  set post := d.series.drop (s + 1) with hpost
  have hser' : (d.without s i em).series = pre ++ (a.without i em) :: post := by
    rw [DSet.without_series, List.set_eq_take_append_cons_drop, if_pos hs]
  have hn : a.n = (a.without i em).n + 1 := by
    show a.n = a.n - 1 + 1
    omega
  have hN : d.nall = (d.without s i em).nall + 1 := by
    rw [DSet.nall, DSet.nall, hser', hsplit, totalN_append, totalN_append, totalN, totalN, hn]
    omega
  refine ⟨totalN pre + i, hN, ?_, fun p hp => ?_, (locate_place d.series hg hi).2, fun p => ?_⟩
  · rw [DSet.nall, hsplit, totalN_append, totalN]; omega
  · unfold skipAt; split <;> omega
  · have := locate_merged pre post a (a.without i em) i p hn hi
    rw [hlen, ← hsplit, ← hser'] at this
    exact this

include hs in
theorem DSet.without_at (x : ℕ × ℕ) : ((d.without s i em).ser x.1).t x.2 = (d.ser x.1).t (liftPt s i x).2 ∧
    ((d.without s i em).ser x.1).f x.2 = (d.ser x.1).f (liftPt s i x).2 ∧
    ((d.without s i em).ser x.1).fe x.2 = (d.ser x.1).fe (liftPt s i x).2 := by
  rw [DSet.without_ser hs]
  unfold liftPt
  by_cases h : x.1 = s
  · rw [if_pos h, if_pos h, h]; exact ⟨rfl, rfl, rfl⟩
  · rw [if_neg h, if_neg h]; exact ⟨rfl, rfl, rfl⟩

include hs in
theorem DSet.without_pt {P p : ℕ} (h : locate d.series (skipAt P p) = liftPt s i (locate (d.without s i em).series p)) :
    (d.without s i em).pt p = d.pt (skipAt P p) := by
  rw [DSet.pt, DSet.pt, h, liftPt_fst, (DSet.without_at hs em _).1]

include hs in
theorem DSet.without_noise {pm : ℕ → ℝ} {idxc : ℕ} {idxl : ℕ → ℕ}
    (hse : pmSyserr pm (sysAt idxc idxl s) em = pmSyserr pm (sysAt idxc idxl s) (d.ser s).em)
    (x : ℕ × ℕ) : noiseVar (d.without s i em) pm idxc idxl x = noiseVar d pm idxc idxl (liftPt s i x) := by
  have h1 := (DSet.without_at hs em (i := i) x).2.2
  have h2 := liftPt_fst s i x
  unfold noiseVar
  simp only [h1, h2]
  congr 3
  obtain ⟨x1, x2⟩ := x
  simp only
  rcases x1 with _ | x1
  · rcases s with _ | s
    · exact hse
    · rfl
  · simp only
    by_cases hx : x1 + 1 = s
    · subst hx
      rw [DSet.without_ser hs, if_pos rfl]
      exact hse
    · rw [DSet.without_ser hs, if_neg hx]

end

theorem fall_at (d : DSet) {p : ℕ} (hp : p < d.nall) : d.fall p = (d.ser (locate d.series p).1).f (locate d.series p).2 := by
  obtain ⟨b, hb, hbn⟩ := locate_valid d.series p hp
  rw [DSet.fall, concat_locate LC.f d.series hp rfl hb hbn]
  congr 1
  unfold DSet.ser
  rw [List.getD_eq_getElem?_getD, hb]; rfl

theorem Noisy.without {e : KEnv} {d : DSet} (h : Noisy e d) {s i : ℕ} (em : ℝ) (hs : s < d.series.length)
    (hi : i < (d.ser s).n)
    (hse : pmSyserr e.pm (sysAt e.idxc e.idxl s) em =
      pmSyserr e.pm (sysAt e.idxc e.idxl s) (d.ser s).em) : Noisy e (d.without s i em) := by
  have hsk : ∀ j < (d.ser s).n - 1, skipAt i j < (d.ser s).n := by
    intro j hj; unfold skipAt; split <;> omega
  rcases s with _ | s
  · refine ⟨fun j hj => ?_, h.2⟩
    have := h.1 (skipAt i j) (hsk j hj)
    have hse : (Real.exp (e.pm e.idxc) - 1) * em = (Real.exp (e.pm e.idxc) - 1) * d.con.em := hse
    show 0 < d.con.fe (skipAt i j) ^ 2 + ((Real.exp (e.pm e.idxc) - 1) * em) ^ 2
    rw [hse]; exact this
  · refine ⟨h.1, fun j a ha m hm => ?_⟩
    have hse : (Real.exp (e.pm (e.idxl s)) - 1) * em = (Real.exp (e.pm (e.idxl s)) - 1) * (d.ser (s + 1)).em := hse
    have ha : (d.line.set s ((d.ser (s + 1)).without i em))[j]? = some a := ha
    rw [List.getElem?_set] at ha
    by_cases hj : s = j
    · subst hj
      have hsl : s < d.line.length := by simpa [DSet.series] using hs
      rw [if_pos rfl, if_pos hsl, Option.some.injEq] at ha
      subst ha
      have hd : d.line[s]? = some (d.ser (s + 1)) := by
        have := DSet.ser_get hs
        simpa [DSet.series] using this
      have := h.2 s _ hd (skipAt i m) (hsk m hm)
      show 0 < (d.ser (s + 1)).fe (skipAt i m) ^ 2 + ((Real.exp (e.pm (e.idxl s)) - 1) * em) ^ 2
      rw [hse]; exact this
    · rw [if_neg hj] at ha
      exact h.2 j a ha m hm

/-- What one measurement of a data set contributes. -/
theorem margLL_line_without {e : KEnv} {nq : ℕ} {d R : DSet} {s i : ℕ} (em : ℝ) (hs : s < d.series.length) (hi : i < (d.ser s).n)
    (hf : e.Far d.line.length) (hR : R.line.length ≤ d.line.length) (hne : d.line ≠ [])
    (hse : pmSyserr e.pm (sysAt e.idxc e.idxl s) em =
      pmSyserr e.pm (sysAt e.idxc e.idxl s) (d.ser s).em)
    (hcon : ConOK (d.without s i em).con (pmSyserr e.pm e.idxc (d.without s i em).con.em)) (hN : Noisy e d)
    (hL : ∀ a ∈ (d.without s i em).series, EnoughTimes a nq) (j : Fin R.nall) (hj : R.pt j = (s, (d.ser s).t i))
    (memP memU memA : ℕ → ℝ) :
    ∃ (r : Recon (nq * (1 + (d.without s i em).line.length)) R.nall) (x : ℝ),
      lineRecs e.kernels nq (d.without s i em) R e.pm e.idxc e.idxl (fun p => (d.without s i em).fall p) memP memU memA = (.ok r, r, r) ∧
      r.err j = some x ∧ 0 ≤ x ∧ 0 < x ^ 2 + pmSigma e.pm e.idxc ^ 2 * noiseVar d e.pm e.idxc e.idxl (s, i) ∧
      margLL (setCov e.kernels e.pm e.idxc e.idxl d) (d.trend nq) (fun p => d.fall p) =
        margLL (setCov e.kernels e.pm e.idxc e.idxl (d.without s i em)) ((d.without s i em).trend nq)
          (fun p => (d.without s i em).fall p) +
        logPred ((d.ser s).f i) (r.val j) x (pmSigma e.pm e.idxc ^ 2 * noiseVar d e.pm e.idxc e.idxl (s, i)) := by
  have hlen := DSet.without_line d s i em
  set d' := d.without s i em with hd'
  have hs2 : 0 < pmSigma e.pm e.idxc ^ 2 := by have := pmSigma_pos e.pm e.idxc; positivity
  have hC : (setCov e.kernels e.pm e.idxc e.idxl d).PosDef := (cov_posDef hf hN).smul hs2
  have hf' : e.Far d'.line.length := by rw [hlen]; exact hf
  have hN' : Noisy e d' := hN.without em hs hi hse
  have hC' : (setCov e.kernels e.pm e.idxc e.idxl d').PosDef := (cov_posDef hf' hN').smul hs2
  have hne' : d'.line ≠ [] := by
    intro h0
    rw [h0, List.length_nil] at hlen
    exact hne (List.length_eq_zero_iff.1 hlen.symm)
  obtain ⟨W, hW, hr⟩ := C38_line_partial (R := R) hcon hC' hL hne'
  obtain ⟨r, r1, r2, r3, -⟩ := hr (fun p => d'.fall p) memP memU memA
  have hW := hW j
  have hE := line_predErr_nonneg (d := d') hf' (hlen ▸ hR) j (W j)
  rw [show e.taud = pmTau e.pm e.idxc from rfl] at hE
  have r3 := r3 j
  rw [cSqrt, if_neg (not_lt.2 hE)] at r3
  rw [hj] at hW hE r3
  obtain ⟨P, hN1, hP, hsk, hlP, hloc⟩ := DSet.without_pos (d := d) em hs hi
  rw [← hd'] at hN1 hsk hloc
  have hpt : ∀ p, d'.pt p = d.pt (skipAt P p) := fun p => DSet.without_pt hs em (hloc p)
  have hptP : d.pt P = (s, (d.ser s).t i) := by rw [DSet.pt, hlP]
  have hcv : ∀ (D : DSet), e.Far D.line.length → ∀ p r : Fin D.nall, setCov e.kernels e.pm e.idxc e.idxl D p r =
      pmSigma e.pm e.idxc ^ 2 * (pointCov e.kernels (pmTau e.pm e.idxc) (D.pt p) (D.pt r) +
        if p = r then noiseVar D e.pm e.idxc e.idxl (locate D.series p) else 0) := fun D hD p r => by
    have := cov_pointCov D hD p r
    rw [show pmTau e.pm e.idxc = e.taud from rfl, ← this]
    rfl
  have hinj : ∀ p r : Fin d'.nall, skipAt P p = skipAt P r ↔ p = r := by
    intro p r
    constructor
    · intro h
      apply Fin.ext
      revert h
      unfold skipAt
      split <;> split <;> omega
    · rintro rfl; rfl
  have hdiag : ∀ p : Fin d'.nall, P ≠ skipAt P p := by
    intro p
    unfold skipAt
    split <;> omega
  have key := margLL_chain_at hN1 (q := nq * (1 + d.line.length)) (q' := nq * (1 + d'.line.length)) (by rw [hlen]) P hP hsk
    (L := d.trend nq) (f := fun p => d.fall p) (f' := fun p => d'.fall p)
    (ν := pmSigma e.pm e.idxc ^ 2 * noiseVar d e.pm e.idxc e.idxl (s, i)) hC
    (by rw [← setTrend_eq]; exact trend_injective d' nq hL)
    (by
      intro p r
      rw [hcv d' hf', hcv d hf, hpt, hpt, DSet.without_noise hs em hse, ← hloc]
      simp only [Fin.mk.injEq, hinj])
    (by
      intro p c
      rw [setTrend_eq]
      simp only [setTrend, hpt]
      rfl)
    (by
      intro p
      rw [fall_at d' p.2, fall_at d (hsk p p.2), hloc, liftPt_fst, (DSet.without_at hs em _).2.1])
    (by
      intro p
      rw [hcv d hf]
      simp only [setCross, Fin.mk.injEq, hdiag p, if_false, add_zero, hpt, hptP])
    (by
      intro c
      rw [setTrend_eq]
      simp only [setTrend, hptP]
      rfl)
    (by
      rw [hcv d hf]
      simp only [if_true, hptP, hlP]
      ring)
    hW
  rw [← setTrend_eq] at key
  refine ⟨r, _, r1, r3, Real.sqrt_nonneg _, ?_, ?_⟩
  · rw [Real.sq_sqrt hE]; exact key.1
  · rw [key.2, logPred, Real.sq_sqrt hE, r2]
    have : d.fall P = (d.ser s).f i := by rw [fall_at d hP, hlP]
    simp only [this]
    ring

/-- The variance of the noise of measurement `i` of light curve `s` of data set `k`: measurement error and systematic error. -/
noncomputable def lineNoise (e : LineEnv) (k : ℕ) (d : DSet) (s i : ℕ) : ℝ :=
  (d.ser s).fe i ^ 2 + pmSyserr e.pm (e.sysAddr k s) (d.ser s).em ^ 2

/-- C139 for lines (partial: widths in the band around the damping timescale are excluded, and all measurements have noise): for
every measurement `i` of every light curve `s` (0 the continuum), all four line likelihoods are the likelihood without it times the
normal density of its value around the reconstruction of that light curve at that time from the remaining data. -/
theorem C139_line_partial (e : LineEnv) (ds : List DSet) (h : TransferOK e ds) (hl : ∀ d ∈ ds, d.line ≠ []) (k : ℕ) (d R : DSet)
    (hk : ds[k]? = some d) (s i : ℕ) (em : ℝ) (hs : s < d.series.length) (hi : i < (d.ser s).n)
    (hse : pmSyserr e.pm (e.sysAddr k s) em = pmSyserr e.pm (e.sysAddr k s) (d.ser s).em)
    (hq : EnoughTimes ((d.ser s).without i em) e.nq) (hR : R.line.length ≤ d.line.length) (j : Fin R.nall)
    (hj : R.pt j = (s, (d.ser s).t i)) (memP memU memA : ℕ → ℝ) :
    ∃ v r x, lineRecs (e.K k) e.nq (d.without s i em) R e.pm (e.idxc k) (e.idxl k) (fun p => (d.without s i em).fall p)
        memP memU memA = (.ok r, r, r) ∧ r.err j = some x ∧ 0 ≤ x ∧ 0 < x ^ 2 + lineNoise e k d s i ∧
      (probLine1 e (ds.set k (d.without s i em)) = .ok v ∧
        probLine1 e ds = .ok (v + logPred ((d.ser s).f i) (r.val j) x (lineNoise e k d s i))) ∧
      (probLine2 e (ds.set k (d.without s i em)) = .ok v ∧
        probLine2 e ds = .ok (v + logPred ((d.ser s).f i) (r.val j) x (lineNoise e k d s i))) ∧
      (probLine3 e (ds.set k (d.without s i em)) = .ok v ∧
        probLine3 e ds = .ok (v + logPred ((d.ser s).f i) (r.val j) x (lineNoise e k d s i))) ∧
      (probLine4 e (ds.set k (d.without s i em)) = .ok v ∧
        probLine4 e ds = .ok (v + logPred ((d.ser s).f i) (r.val j) x (lineNoise e k d s i))) := by
  obtain ⟨⟨ng, lin, typ, hK, hF, hN⟩, ht, hE⟩ := h k d hk
  set ke : KEnv := ⟨ng, lin, typ, e.pm, e.idxc k, e.idxl k⟩ with hke
  have hkl := (List.getElem?_eq_some_iff.1 hk).1
  have hse' : pmSyserr ke.pm (sysAt ke.idxc ke.idxl s) em =
      pmSyserr ke.pm (sysAt ke.idxc ke.idxl s) (d.ser s).em := by
    cases s <;> exact hse
  have hT : TransferOK e (ds.set k (d.without s i em)) := by
    intro k' d' hd'
    rw [List.getElem?_set] at hd'
    by_cases hkk : k = k'
    · subst hkk
      rw [if_pos rfl, if_pos hkl, Option.some.injEq] at hd'
      subst hd'
      refine ⟨⟨ng, lin, typ, hK, ?_, hN.without em hs hi hse'⟩, ?_, ?_⟩
      · rw [DSet.without_line]; exact hF
      · rcases s with _ | s
        · have h1 : ConOK d.con (pmSyserr e.pm (e.idxc k) d.con.em) := (h.lineDataOK k d hk).1
          exact (LC.without_conOK (em := em) hi rfl h1).1
        · exact ht
      · intro a ha
        rw [DSet.without_series] at ha
        rcases List.mem_or_eq_of_mem_set ha with ha | rfl
        · exact hE a ha
        · exact hq
    · rw [if_neg hkk] at hd'
      exact h k' d' hd'
  have h0 := h.lineDataOK
  have h' := hT.lineDataOK
  have hd' : (ds.set k (d.without s i em))[k]? = some (d.without s i em) := by
    rw [List.getElem?_set, if_pos rfl, if_pos hkl]
  obtain ⟨hc', hq', -⟩ := h' k _ hd'
  obtain ⟨r, x, r1, r2, r3, r4, key⟩ := margLL_line_without (e := ke) em hs hi hF hR (hl d (List.mem_of_getElem? hk)) hse' hc' hN hq'
    j hj memP memU memA
  have hnoise : pmSigma ke.pm ke.idxc ^ 2 * noiseVar d ke.pm ke.idxc ke.idxl (s, i) = lineNoise e k d s i := by
    have hsg := pmSigma_pos e.pm (e.idxc k)
    unfold noiseVar lineNoise
    rcases s with _ | s
    · show pmSigma e.pm (e.idxc k) ^ 2 * (((d.ser 0).fe i ^ 2 + _) / pmSigma e.pm (e.idxc k) ^ 2) = _
      rw [mul_div_cancel₀ _ (by positivity)]
      rfl
    · show pmSigma e.pm (e.idxc k) ^ 2 * (((d.ser (s + 1)).fe i ^ 2 + _) / pmSigma e.pm (e.idxc k) ^ 2) = _
      rw [mul_div_cancel₀ _ (by positivity)]
      rfl
  rw [hnoise] at r4 key
  have hl' : ∀ x ∈ ds.set k (d.without s i em), x.line ≠ [] := by
    intro x hx
    rcases List.mem_or_eq_of_mem_set hx with hx | rfl
    · exact hl x hx
    · intro h
      have := DSet.without_line d s i em
      rw [h] at this
      exact hl d (List.mem_of_getElem? hk) (List.length_eq_zero_iff.1 this.symm)
  obtain ⟨a1, a2, a3⟩ := line_value e ds h0
  obtain ⟨b1, b2, b3⟩ := line_value e _ h'
  have a4 := line_value4_lines e ds h0 hl
  have b4 := line_value4_lines e _ h' hl'
  have hlc : ∀ D : DSet, lineCov e k D = setCov ke.kernels ke.pm ke.idxc ke.idxl D := by
    intro D
    rw [← hK]
    show (pmSigma e.pm (e.idxc k) * pmSigma e.pm (e.idxc k)) • _ = pmSigma e.pm (e.idxc k) ^ 2 • _
    rw [sq]; rfl
  have hsum := sum_mapIdx_set (fun k d => margLL (lineCov e k d) (d.trend e.nq) (fun i => d.fall i)) ds hk (d.without s i em)
  rw [hlc d, hlc, key, add_sub_cancel_left] at hsum
  simp only [hsum] at a1 a2 a3 a4
  rw [← hK] at r1
  exact ⟨_, r, x, r1, r2, r3, r4, ⟨b1, a1⟩, ⟨b2, a2⟩, ⟨b3, a3⟩, ⟨b4, a4⟩⟩

/-- The data set with another error of measurement `i` of light curve `s`. -/
def DSet.withErr (d : DSet) (s i : ℕ) (x em : ℝ) : DSet :=
  match s with
  | 0 => ⟨d.con.withErr i x em, d.line⟩
  | j + 1 => ⟨d.con, d.line.set j ((d.ser (j + 1)).withErr i x em)⟩

theorem DSet.withErr_series (d : DSet) (s i : ℕ) (x em : ℝ) :
    (d.withErr s i x em).series = d.series.set s ((d.ser s).withErr i x em) := by
  cases s <;> rfl

theorem DSet.withErr_line (d : DSet) (s i : ℕ) (x em : ℝ) : (d.withErr s i x em).line.length = d.line.length := by
  cases s
  · rfl
  · simp [DSet.withErr]

theorem DSet.withErr_ser {d : DSet} {s : ℕ} (hs : s < d.series.length) (i : ℕ) (x em : ℝ) :
    (d.withErr s i x em).ser s = (d.ser s).withErr i x em := by
  have : (d.withErr s i x em).series[s]? = some ((d.ser s).withErr i x em) := by
    rw [DSet.withErr_series, List.getElem?_set, if_pos rfl, if_pos hs]
  unfold DSet.ser at this ⊢
  rw [List.getD_eq_getElem?_getD, this]; rfl

theorem DSet.withErr_without {d : DSet} {s : ℕ} (hs : s < d.series.length) (i : ℕ) (x em em' : ℝ) :
    (d.withErr s i x em).without s i em' = d.without s i em' := by
  have h := DSet.withErr_ser hs i x em
  rcases s with _ | s
  · show (⟨(d.con.withErr i x em).without i em', d.line⟩ : DSet) = ⟨d.con.without i em', d.line⟩
    rw [LC.withErr_without]
  · show (⟨d.con, (d.line.set s ((d.ser (s + 1)).withErr i x em)).set s (((d.withErr (s + 1) i x em).ser (s + 1)).without i em')⟩ : DSet) =
      ⟨d.con, d.line.set s ((d.ser (s + 1)).without i em')⟩
    rw [h, LC.withErr_without, List.set_set]

/-- C139 for lines (partial: as above): a measurement without systematic error has no influence in the limit of large errors:
as its error `x` grows the logarithms of the four line likelihoods, plus `log x`, tend to that of the data without it. -/
theorem C139_line_limit_partial (e : LineEnv) (ds : List DSet) (h : TransferOK e ds) (hl : ∀ d ∈ ds, d.line ≠ []) (k : ℕ) (d : DSet)
    (hk : ds[k]? = some d) (s i : ℕ) (em : ℝ → ℝ) (em' : ℝ) (hs : s < d.series.length) (hi : i < (d.ser s).n)
    (h0 : e.pm (e.sysAddr k s) = 0) (hq : EnoughTimes ((d.ser s).without i em') e.nq) :
    ∃ (v : ℝ) (ll : ℝ → ℝ), (probLine1 e (ds.set k (d.without s i em')) = .ok v ∧ probLine2 e (ds.set k (d.without s i em')) = .ok v ∧
        probLine3 e (ds.set k (d.without s i em')) = .ok v ∧ probLine4 e (ds.set k (d.without s i em')) = .ok v) ∧
      (∀ x > 0, probLine1 e (ds.set k (d.withErr s i x (em x))) = .ok (ll x) ∧
        probLine2 e (ds.set k (d.withErr s i x (em x))) = .ok (ll x) ∧ probLine3 e (ds.set k (d.withErr s i x (em x))) = .ok (ll x) ∧
        probLine4 e (ds.set k (d.withErr s i x (em x))) = .ok (ll x)) ∧
      Filter.Tendsto (fun x => ll x + Real.log x) Filter.atTop (nhds v) := by
  have hz : ∀ em, pmSyserr e.pm (e.sysAddr k s) em = 0 := fun em => by rw [pmSyserr, h0, Real.exp_zero]; ring
  have hkl := (List.getElem?_eq_some_iff.1 hk).1
  obtain ⟨P, -, hP, -, hlP, -⟩ := DSet.without_pos (d := d) em' hs hi
  have hj : d.pt (⟨P, hP⟩ : Fin d.nall) = (s, (d.ser s).t i) := by
    show d.pt P = _
    rw [DSet.pt, hlP]
  obtain ⟨v, r, x0, r1, r2, -, -, ⟨v1, -⟩, ⟨v2, -⟩, ⟨v3, -⟩, ⟨v4, -⟩⟩ := C139_line_partial e ds h hl k d d hk s i em' hs hi (by rw [hz, hz]) hq le_rfl ⟨P, hP⟩ hj
    (fun _ => 0) (fun _ => 0) (fun _ => 0)
  have hX : ∀ x > 0, TransferOK e (ds.set k (d.withErr s i x (em x))) := by
    intro x hx k' d' hd'
    rw [List.getElem?_set] at hd'
    by_cases hkk : k = k'
    · subst hkk
      rw [if_pos rfl, if_pos hkl, Option.some.injEq] at hd'
      subst hd'
      obtain ⟨⟨ng, lin, typ, hK, hF, hN⟩, ht, hE⟩ := h k d hk
      refine ⟨⟨ng, lin, typ, hK, ?_, ?_⟩, ?_, ?_⟩
      · rw [DSet.withErr_line]; exact hF
      · rcases s with _ | s
        · have h0 : e.pm (e.idxc k) = 0 := h0
          refine ⟨fun m hm => ?_, hN.2⟩
          have := hN.1 m hm
          simp only [h0, Real.exp_zero, sub_self, zero_mul] at this ⊢
          show 0 < Function.update d.con.fe i x m ^ 2 + _
          by_cases hmi : m = i
          · subst hmi; rw [Function.update_self]; positivity
          · rw [Function.update_of_ne hmi]; exact this
        · have h0 : e.pm (e.idxl k s) = 0 := h0
          refine ⟨hN.1, fun j a ha m hm => ?_⟩
          have ha : (d.line.set s ((d.ser (s + 1)).withErr i x (em x)))[j]? = some a := ha
          rw [List.getElem?_set] at ha
          by_cases hjs : s = j
          · subst hjs
            have hsl : s < d.line.length := by simpa [DSet.series] using hs
            rw [if_pos rfl, if_pos hsl, Option.some.injEq] at ha
            subst ha
            have hd : d.line[s]? = some (d.ser (s + 1)) := by
              have := DSet.ser_get hs
              simpa [DSet.series] using this
            have := hN.2 s _ hd m hm
            simp only [h0, Real.exp_zero, sub_self, zero_mul] at this ⊢
            show 0 < Function.update (d.ser (s + 1)).fe i x m ^ 2 + _
            by_cases hmi : m = i
            · subst hmi; rw [Function.update_self]; positivity
            · rw [Function.update_of_ne hmi]; exact this
          · rw [if_neg hjs] at ha
            exact hN.2 j a ha m hm
      · rcases s with _ | s
        · exact ht
        · exact ht
      · intro a ha
        rw [DSet.withErr_series] at ha
        rcases List.mem_or_eq_of_mem_set ha with ha | rfl
        · exact hE a ha
        · exact hE (d.ser s) (List.mem_of_getElem? (DSet.ser_get hs))
    · rw [if_neg hkk] at hd'
      exact h k' d' hd'
  refine ⟨v, fun x => v + logPred ((d.ser s).f i) (r.val ⟨P, hP⟩) x0 (x ^ 2), ⟨v1, v2, v3, v4⟩, fun x hx => ?_, ?_⟩
  · have hser := DSet.withErr_ser hs i x (em x)
    obtain ⟨v', r', x', q1, q2, -, -, ⟨w1, y1⟩, ⟨w2, y2⟩, ⟨w3, y3⟩, ⟨w4, y4⟩⟩ := C139_line_partial e _ (hX x hx)
      (by
        intro D hD
        rcases List.mem_or_eq_of_mem_set hD with hD | rfl
        · exact hl D hD
        · intro h'
          have := DSet.withErr_line d s i x (em x)
          rw [h'] at this
          exact hl d (List.mem_of_getElem? hk) (List.length_eq_zero_iff.1 this.symm))
      k (d.withErr s i x (em x)) d (by rw [List.getElem?_set, if_pos rfl, if_pos hkl]) s i em'
      (by rw [DSet.withErr_series, List.length_set]; exact hs) (by rw [hser]; exact hi) (by rw [hz, hz])
      (by rw [hser, LC.withErr_without]; exact hq) (by rw [DSet.withErr_line]) ⟨P, hP⟩ (by rw [hser]; exact hj)
      (fun _ => 0) (fun _ => 0) (fun _ => 0)
    rw [List.set_set] at w1
    have hwo := DSet.withErr_without hs i x (em x) em'
    generalize (d.withErr s i x (em x)).without s i em' = D at *
    subst hwo
    have hr : r' = r := by
      have := q1.symm.trans r1
      simp only [Prod.mk.injEq] at this
      exact this.2.1
    subst hr
    have hx' : x' = x0 := Option.some.inj (q2.symm.trans r2)
    subst hx'
    have hv : v' = v := by
      have := w1.symm.trans v1
      simpa using this
    subst hv
    have e1 : lineNoise e k (d.withErr s i x (em x)) s i = x ^ 2 := by
      unfold lineNoise
      rw [hz, hser]
      show Function.update (d.ser s).fe i x i ^ 2 + _ = _
      rw [Function.update_self]; ring
    rw [e1, hser] at y1 y2 y3 y4
    exact ⟨y1, y2, y3, y4⟩
  · have := (logPred_limit ((d.ser s).f i) (r.val ⟨P, hP⟩) x0).const_add v
    rw [add_zero] at this
    exact this.congr fun x => by ring

/-- Three measurements, the last of them taken out, with a constant trend. -/
example (pm : ℕ → ℝ) (mem : ℕ → ℝ) :
    let a : LC := ⟨3, fun p => p, fun p => 2 * p, fun _ => 1, 1⟩
    ∃ (v : ℝ) (r : Recon 1 1) (x : ℝ),
      conRecSemi 1 (pmSigma pm 0) (pmTau pm 0) (pmSyserr pm 0 1) (a.without 2 1) 1 (fun _ => 2) mem = .ok r ∧ r.err 0 = some x ∧
      probConSemi 1 pm (fun _ => 0) [a.without 2 1] = some v ∧
      probConSemi 1 pm (fun _ => 0) [a] = some (v + logPred 4 (r.val 0) x (1 ^ 2 + pmSyserr pm 0 1 ^ 2)) := by
  intro a
  have hd : ConDataOK 1 pm (fun _ => 0) [a] := by
    intro k d hk
    have : d = a := by
      rcases k with _ | k <;> simp at hk
      exact hk.symm
    subst this
    refine ⟨⟨fun i _ => by simp [a], Or.inl fun i _ => ?_⟩, fun _ => ⟨0, by simp [a]⟩, fun x y _ => Subsingleton.elim x y⟩
    simp only [a]
    nlinarith [mul_self_nonneg ((Real.exp (pm 0) - 1) * 1)]
  obtain ⟨v, r, x, _, h2, h3, _, _, _, h4, h5⟩ := C139_con 1 pm (fun _ => 0) mem mem mem [a] hd 0 a rfl 2 1 (by simp [a]) rfl
    ⟨fun _ => ⟨0, by simp [a, LC.without]⟩, fun x y _ => Subsingleton.elim x y⟩
  refine ⟨v, r, x, ?_, h3, h4, ?_⟩
  · simpa [a] using h2
  · have e : (4 : ℝ) = a.f 2 := by simp only [a]; norm_num
    rw [e]; exact h5

/-- One of the two measurements of the line of `twinSet` taken out. -/
example (R : DSet) (hR : R.line.length ≤ 1) (j : Fin R.nall) (hj : R.pt j = (1, 0)) (mem : ℕ → ℝ) :
    let e : LineEnv := ⟨1, mixEnv.pm, fun _ => mixEnv.idxc, fun _ => mixEnv.idxl, fun _ => mixEnv.kernels, fun _ => 0⟩
    ∃ v r x, lineRecs mixEnv.kernels 1 (twinSet.without 1 1 1) R e.pm (e.idxc 0) (e.idxl 0)
        (fun p => (twinSet.without 1 1 1).fall p) mem mem mem = (.ok r, r, r) ∧ r.err j = some x ∧
      probLine4 e [twinSet.without 1 1 1] = .ok v ∧
      probLine4 e [twinSet] = .ok (v + logPred 6 (r.val j) x (lineNoise e 0 twinSet 1 1)) := by
  intro e
  obtain ⟨v, r, x, h1, h2, _, _, _, _, _, h3, h4⟩ := C139_line_partial e [twinSet] twinSet_ok (by simp [twinSet]) 0 twinSet R rfl 1 1 1
    (by simp [DSet.series, twinSet]) (by simp [DSet.ser, DSet.series, twinSet])
    (by simp [DSet.ser, DSet.series, twinSet, e, LineEnv.sysAddr])
    ⟨fun _ => ⟨0, by simp [DSet.ser, DSet.series, twinSet, LC.without]⟩, fun x y _ => Subsingleton.elim (α := Fin 1) x y⟩ (by simpa [twinSet] using hR) j
    (by rw [hj]; simp [DSet.ser, DSet.series, twinSet]) mem mem mem
  refine ⟨v, r, x, h1, h2, h3, ?_⟩
  have e6 : (6 : ℝ) = (twinSet.ser 1).f 1 := by simp [DSet.ser, DSet.series, twinSet]; norm_num
  rw [e6]; exact h4

end Mica
