import Verif.Proof.Merge
import Verif.Proof.Reorder

/-! C137: two measurements of one light curve at the same time may be averaged. -/

namespace Mica

/-- The light curve `a` with the measurements `i` and `i+1` replaced by their average weighted with the inverse squares of
their errors (`em`: the mean error of the new light curve). -/
noncomputable def LC.merged (a : LC) (i : ℕ) (em : ℝ) : LC where
  n := a.n - 1
  t := fun p => a.t (skipAt i p)
  f := fun p => if p = i then (a.f i / a.fe i ^ 2 + a.f (i + 1) / a.fe (i + 1) ^ 2) / (1 / a.fe i ^ 2 + 1 / a.fe (i + 1) ^ 2)
    else a.f (skipAt i p)
  fe := fun p => if p = i then 1 / Real.sqrt (1 / a.fe i ^ 2 + 1 / a.fe (i + 1) ^ 2) else a.fe (skipAt i p)
  em := em

/-- The measurements `i` and `i+1` of the light curve were taken at the same time and have errors. -/
structure LC.Twin (a : LC) (i : ℕ) : Prop where
  lt : i + 1 < a.n
  time : a.t i = a.t (i + 1)
  err : 0 < a.fe i
  err' : 0 < a.fe (i + 1)

/-- What the average changes in the logarithm of the likelihood: the probability of the difference of the two values. -/
noncomputable def LC.twinTerm (a : LC) (i : ℕ) : ℝ :=
  -(1 / 2) * ((a.f i - a.f (i + 1)) ^ 2 / (a.fe i ^ 2 + a.fe (i + 1) ^ 2)) -
    1 / 2 * Real.log (a.fe i ^ 2 + a.fe (i + 1) ^ 2)

/-- The data set with this done in light curve `s` (0 the continuum). -/
noncomputable def DSet.merged (d : DSet) (s i : ℕ) (em : ℝ) : DSet :=
  match s with
  | 0 => ⟨d.con.merged i em, d.line⟩
  | j + 1 => ⟨d.con, d.line.set j ((d.ser (j + 1)).merged i em)⟩

section
variable {a : LC} {i : ℕ} (h : a.Twin i) (em : ℝ)
include h

theorem LC.Twin.value : (a.merged i em).f i = (a.fe (i + 1) ^ 2 * a.f i + a.fe i ^ 2 * a.f (i + 1)) / (a.fe i ^ 2 + a.fe (i + 1) ^ 2) := by
  have h1 := h.err
  have h2 := h.err'
  simp only [LC.merged, if_true]
  field_simp
  try ring

theorem LC.Twin.error : (a.merged i em).fe i ^ 2 = a.fe i ^ 2 * a.fe (i + 1) ^ 2 / (a.fe i ^ 2 + a.fe (i + 1) ^ 2) := by
  have h1 := h.err
  have h2 := h.err'
  simp only [LC.merged, if_true]
  rw [div_pow, Real.sq_sqrt (by positivity)]
  field_simp
  try ring

end

/-! ### Positions -/

theorem locate_merged (pre post : List LC) (a a' : LC) (i p : ℕ) (hn : a.n = a'.n + 1) (hi : i < a.n) :
    locate (pre ++ a :: post) (skipAt (totalN pre + i) p) =
      if (locate (pre ++ a' :: post) p).1 = pre.length then
        (pre.length, skipAt i (locate (pre ++ a' :: post) p).2) else locate (pre ++ a' :: post) p := by
  induction pre generalizing p with
  | nil =>
    simp only [List.nil_append, locate, totalN, zero_add, List.length_nil]
    by_cases hp : p < a'.n
    · have : skipAt i p < a.n := by unfold skipAt; split <;> omega
      rw [if_pos this, if_pos hp, if_pos rfl]
    · have e : skipAt i p = p + 1 := by unfold skipAt; rw [if_neg (by omega)]
      rw [e, if_neg (by omega), if_neg hp, if_neg (by simp), show p + 1 - a.n = p - a'.n by omega]
  | cons b pre ih =>
    simp only [List.cons_append, locate, totalN, List.length_cons]
    by_cases hp : p < b.n
    · have e : skipAt (b.n + totalN pre + i) p = p := by unfold skipAt; rw [if_pos (by omega)]
      rw [e, if_pos hp, if_pos hp, if_neg (by simp)]
    · have e : skipAt (b.n + totalN pre + i) p - b.n = skipAt (totalN pre + i) (p - b.n) := by
        unfold skipAt; split <;> split <;> omega
      have e' : ¬ skipAt (b.n + totalN pre + i) p < b.n := by unfold skipAt; split <;> omega
      rw [if_neg e', if_neg hp, e, ih]
      simp only [Nat.add_right_cancel_iff]
      split <;> rfl

/-- The point of the old data set that corresponds to a point of the new one. -/
def liftPt (s i : ℕ) (x : ℕ × ℕ) : ℕ × ℕ := if x.1 = s then (s, skipAt i x.2) else x

theorem liftPt_fst (s i : ℕ) (x : ℕ × ℕ) : (liftPt s i x).1 = x.1 := by
  unfold liftPt; split
  · rename_i h; exact h.symm
  · rfl

theorem skipAt_le {i x y : ℕ} : skipAt i y ≤ skipAt i x ↔ y ≤ x := by
  unfold skipAt; split <;> split <;> omega

section
variable {d : DSet} {s i : ℕ} (hs : s < d.series.length) (em : ℝ)

theorem DSet.merged_series (d : DSet) (s i : ℕ) (em : ℝ) :
    (d.merged s i em).series = d.series.set s ((d.ser s).merged i em) := by
  cases s <;> rfl

theorem DSet.merged_line (d : DSet) (s i : ℕ) (em : ℝ) : (d.merged s i em).line.length = d.line.length := by
  cases s
  · rfl
  · simp [DSet.merged]

include hs in
theorem DSet.merged_ser (r : ℕ) : (d.merged s i em).ser r = if r = s then (d.ser s).merged i em else d.ser r := by
  unfold DSet.ser
  rw [DSet.merged_series, List.getD_eq_getElem?_getD, List.getElem?_set]
  by_cases h : s = r
  · subst h
    rw [if_pos rfl, if_pos hs, if_pos rfl]; rfl
  · rw [if_neg h, if_neg (Ne.symm h), List.getD_eq_getElem?_getD]

include hs in
theorem DSet.ser_get : d.series[s]? = some (d.ser s) := by
  unfold DSet.ser
  rw [List.getD_eq_getElem?_getD, List.getElem?_eq_getElem hs]
  rfl

include hs in
theorem DSet.merged_time (x : ℕ × ℕ) : ((d.merged s i em).ser x.1).t x.2 = (d.ser x.1).t (liftPt s i x).2 := by
  rw [DSet.merged_ser hs]
  unfold liftPt
  by_cases h : x.1 = s
  · rw [if_pos h, if_pos h, h]; rfl
  · rw [if_neg h, if_neg h]

include hs in
theorem sigCov_merged (K : Kernels) (tau : ℝ) (x y : ℕ × ℕ) :
    sigCov K tau (d.merged s i em) x y = sigCov K tau d (liftPt s i x) (liftPt s i y) := by
  have hx := DSet.merged_time hs (i := i) em x
  have hy := DSet.merged_time hs (i := i) em y
  have ex := liftPt_fst s i x
  have ey := liftPt_fst s i y
  have hle : x.1 = y.1 → ((liftPt s i y).2 ≤ (liftPt s i x).2 ↔ y.2 ≤ x.2) := by
    intro h
    unfold liftPt
    by_cases hs : x.1 = s
    · rw [if_pos hs, if_pos (h ▸ hs)]; exact skipAt_le
    · rw [if_neg hs, if_neg (h ▸ hs)]
  unfold sigCov
  rw [ex, ey]
  obtain ⟨x1, x2⟩ := x
  obtain ⟨y1, y2⟩ := y
  simp only at hx hy hle ⊢
  rcases x1 with _ | x1 <;> rcases y1 with _ | y1
  · simp only [hx, hy]
  · simp only [hx, hy]
  · simp only [hx, hy]
  · by_cases he : x1 = y1
    · subst he
      simp only [if_true, hx, hy, hle]
    · simp only [he, if_false, hx, hy]

/-- Points of one light curve at one time have the same covariances with everything. -/
theorem sigCov_time (K : Kernels) (tau : ℝ) (d : DSet) (s i : ℕ) (ht : (d.ser s).t i = (d.ser s).t (i + 1)) (y : ℕ × ℕ) :
    sigCov K tau d (s, i) y = sigCov K tau d (s, i + 1) y ∧ sigCov K tau d y (s, i) = sigCov K tau d y (s, i + 1) := by
  obtain ⟨y1, y2⟩ := y
  unfold sigCov
  rcases s with _ | s <;> rcases y1 with _ | y1 <;> simp only [ht, true_and]
  by_cases he : s = y1
  · subst he
    simp only [if_true]
    constructor
    · by_cases h1 : y2 ≤ i
      · rw [if_pos h1, if_pos (by omega)]
      · rw [if_neg h1]
        split
        · rw [show y2 = i + 1 by omega]
        · rfl
    · by_cases h1 : i + 1 ≤ y2
      · rw [if_pos h1, if_pos (by omega), ht]
      · rw [if_neg h1]
        split
        · rw [show y2 = i by omega, ht]
        · rw [ht]
  · have he' : y1 ≠ s := Ne.symm he
    simp only [he, he', if_false]
    trivial

end

/-- Address of the parameter of the systematic error of light curve `s` of data set `k`. -/
def LineEnv.sysAddr (e : LineEnv) (k s : ℕ) : ℕ :=
  match s with
  | 0 => e.idxc k
  | j + 1 => e.idxl k j

/-- One data set: the new covariance is positive definite, and the likelihood changes by the term of the two values. -/
theorem margLL_line_merged (e : LineEnv) (k : ℕ) (d : DSet) (s i : ℕ) (em : ℝ) (hs : s < d.series.length)
    (h : (d.ser s).Twin i) (h0 : e.pm (e.sysAddr k s) = 0) (hpd : (d.cov (e.K k) e.pm (e.idxc k) (e.idxl k)).PosDef) :
    ((d.merged s i em).cov (e.K k) e.pm (e.idxc k) (e.idxl k)).PosDef ∧
    margLL (lineCov e k d) (d.trend e.nq) (fun i => d.fall i) =
      margLL (lineCov e k (d.merged s i em)) ((d.merged s i em).trend e.nq) (fun p => (d.merged s i em).fall p) +
        (d.ser s).twinTerm i := by
  set d' := d.merged s i em with hd'
  set a := d.ser s with ha
  set a' := a.merged i em with ha'
  have hg : d.series[s]? = some a := DSet.ser_get hs
  obtain ⟨hsplit, hlen⟩ := take_split d.series hg
  set pre := d.series.take s with hpre
  set post := d.series.drop (s + 1) with hpost
  have hser' : d'.series = pre ++ a' :: post := by
    rw [hd', DSet.merged_series, List.set_eq_take_append_cons_drop, if_pos hs]
  have hn : a.n = a'.n + 1 := by
    have := h.lt
    show a.n = a.n - 1 + 1
    omega
  have hia : i + 1 < a.n := h.lt
  set n := d'.nall with hnn
  have hN : d.nall = n + 1 := by
    rw [hnn, DSet.nall, DSet.nall, hser', hsplit, totalN_append, totalN_append, totalN, totalN, hn]
    omega
  set P := totalN pre + i with hP
  have hPn : P < n := by
    rw [hnn, DSet.nall, hser', totalN_append, totalN]
    omega
  have hloc : ∀ p, locate d.series (skipAt P p) = liftPt s i (locate d'.series p) := by
    intro p
    have := locate_merged pre post a a' i p hn (by omega)
    rw [hlen, ← hsplit, ← hser'] at this
    exact this
  have hlP : locate d.series P = (s, i) := (locate_place d.series hg (by omega)).2
  have hlP1 : locate d.series (P + 1) = (s, i + 1) := by
    have := (locate_place d.series hg (i := i + 1) (by omega)).2
    rwa [← add_assoc] at this
  have hlP' : locate d'.series P = (s, i) := by
    have := locate_split pre a' post i (by omega)
    rwa [← hser', hlen] at this
  have hsig := pmSigma_pos e.pm (e.idxc k)
  set σ := pmSigma e.pm (e.idxc k) with hσ
  set S : ℕ → ℕ → ℝ := fun p r => σ * σ * sigCov (e.K k) (pmTau e.pm (e.idxc k)) d (locate d.series p) (locate d.series r)
    with hS
  set N : ℕ → ℝ := fun p => σ * σ * noiseVar d e.pm (e.idxc k) (e.idxl k) (locate d.series p) with hNdef
  set C : ℕ → ℕ → ℝ := fun p q => σ * σ * covEntry (e.K k) d e.pm (e.idxc k) (e.idxl k) (locate d.series p) (locate d.series q)
    with hC
  set C' : ℕ → ℕ → ℝ := fun p q => σ * σ * covEntry (e.K k) d' e.pm (e.idxc k) (e.idxl k) (locate d'.series p)
    (locate d'.series q) with hC'
  have hse : ∀ em, pmSyserr e.pm (e.sysAddr k s) em = 0 := by
    intro em
    rw [pmSyserr, h0, Real.exp_zero]; ring
  have hnz : ∀ m, σ * σ * noiseVar d e.pm (e.idxc k) (e.idxl k) (s, m) = a.fe m ^ 2 := by
    intro m
    have : noiseVar d e.pm (e.idxc k) (e.idxl k) (s, m) = a.fe m ^ 2 / σ ^ 2 := by
      unfold noiseVar
      rcases s with _ | s
      · simp only [LineEnv.sysAddr] at hse
        simp only [hse, ← hσ, ha]; ring
      · simp only [LineEnv.sysAddr] at hse
        simp only [hse, ← hσ, ha]; ring
    rw [this]; field_simp
  have hnz' : ∀ x : ℕ × ℕ, σ * σ * noiseVar d' e.pm (e.idxc k) (e.idxl k) x = if x.1 = s then a'.fe x.2 ^ 2 else
      σ * σ * noiseVar d e.pm (e.idxc k) (e.idxl k) x := by
    intro x
    obtain ⟨x1, x2⟩ := x
    simp only
    by_cases hx : x1 = s
    · subst hx
      rw [if_pos rfl]
      have : noiseVar d' e.pm (e.idxc k) (e.idxl k) (x1, x2) = a'.fe x2 ^ 2 / σ ^ 2 := by
        unfold noiseVar
        rcases x1 with _ | s
        · simp only [LineEnv.sysAddr] at hse
          simp only [hse, ← hσ, hd', DSet.merged_ser hs, if_true]; ring
        · simp only [LineEnv.sysAddr] at hse
          simp only [hse, ← hσ, hd', DSet.merged_ser hs, if_true]; ring
      rw [this]; field_simp
    · rw [if_neg hx]
      congr 1
      unfold noiseVar
      rcases x1 with _ | x1
      · have : d'.con = d.con := by
          rcases s with _ | s
          · exact absurd rfl hx
          · rfl
        rw [hd'] at this
        simp only [this, hd', DSet.merged_ser hs, hx, if_false]
      · simp only [hd', DSet.merged_ser hs, hx, if_false]
  have hNP : N P = a.fe i ^ 2 := by rw [hNdef]; simp only [hlP]; exact hnz i
  have hNP1 : N (P + 1) = a.fe (i + 1) ^ 2 := by rw [hNdef]; simp only [hlP1]; exact hnz (i + 1)
  have heta : ∀ x : ℕ × ℕ, x = (x.1, x.2) := fun _ => rfl
  have e1 := h.err
  have e2 := h.err'
  have hsk : ∀ p < n, skipAt P p < n + 1 := by intro p hp; unfold skipAt; split <;> omega
  have hinj' : ∀ p < n, ∀ r < n, locate d'.series p = locate d'.series r ↔ p = r := fun p hp r hr =>
    ⟨fun h => locate_inj d'.series p r hp hr h, fun h => h ▸ rfl⟩
  have hinj : ∀ p ≤ n, ∀ r ≤ n, locate d.series p = locate d.series r ↔ p = r := fun p hp r hr =>
    ⟨fun h => locate_inj d.series p r (by show p < d.nall; omega) (by show r < d.nall; omega) h, fun h => h ▸ rfl⟩
  have hpdC : (Matrix.of fun i j : Fin (n + 1) => C i j).PosDef := by
    have : (lineCov e k d).PosDef := hpd.smul (show 0 < _ by positivity)
    have hc : ∀ m, m = d.nall → (Matrix.of fun i j : Fin m => C i j).PosDef := by
      rintro m rfl
      exact this
    exact hc _ hN.symm
  have main := margLLN_merge n (e.nq * (1 + d.line.length)) P hPn S (trendRow e.nq d.series 0) N (concat LC.f d.series) C C'
    (trendRow e.nq d'.series 0) (concat LC.f d'.series) (by rw [hNP]; positivity) (by rw [hNP1]; positivity)
    (by
      intro p hp r hr
      rw [hC, hS, hNdef]
      simp only [covEntry, hinj p hp r hr, mul_add, mul_ite, mul_zero])
    (by
      intro r _
      rw [hS]
      simp only [hlP, hlP1, (sigCov_time (e.K k) _ d s i h.time _).1])
    (by
      intro r _
      rw [hS]
      simp only [hlP, hlP1, (sigCov_time (e.K k) _ d s i h.time _).2])
    (by
      intro p hp r hr
      rw [hC', hS]
      simp only [covEntry, hinj' p hp r hr, mul_add, mul_ite, mul_zero, hloc]
      rw [hd', sigCov_merged hs, ← hd']
      congr 1
      by_cases hpr : p = r
      · rw [if_pos hpr, if_pos hpr, hnz']
        by_cases hpP : p = P
        · rw [if_pos hpP, hpP, hlP', if_pos rfl, hNP, hNP1]
          exact h.error em
        · rw [if_neg hpP, hNdef]
          simp only [hloc]
          by_cases hx : (locate d'.series p).1 = s
          · rw [if_pos hx]
            unfold liftPt
            rw [if_pos hx, hnz]
            have : (locate d'.series p).2 ≠ i := by
              intro h2
              refine hpP ((hinj' p hp P hPn).1 ?_)
              rw [hlP']
              exact Prod.ext hx h2
            simp only [ha', LC.merged, this, if_false]
          · rw [if_neg hx]
            unfold liftPt
            rw [if_neg hx]
      · rw [if_neg hpr, if_neg hpr])
    (by
      intro c hc
      have hq : 0 < e.nq := Nat.pos_of_ne_zero fun h => by rw [h] at hc; omega
      rw [trendRow_locate e.nq hq d.series c (by show P < d.nall; omega) hlP hg (by omega),
        trendRow_locate e.nq hq d.series c (by show P + 1 < d.nall; omega) hlP1 hg hia, h.time])
    (by
      intro p hp c hc
      have hq : 0 < e.nq := Nat.pos_of_ne_zero fun h => by rw [h] at hc; omega
      obtain ⟨b, hb, hbn⟩ := locate_valid d'.series p hp
      rw [trendRow_locate e.nq hq d'.series c hp (heta _) hb hbn]
      have hsp : skipAt P p < totalN d.series := by have := hsk p hp; show _ < d.nall; omega
      obtain ⟨b', hb', hbn'⟩ := locate_valid d.series _ hsp
      rw [trendRow_locate e.nq hq d.series c hsp (heta _) hb' hbn', hloc, liftPt_fst]
      have ht := DSet.merged_time hs (i := i) em (locate d'.series p)
      rw [← hd'] at ht
      have h1 : d'.ser (locate d'.series p).1 = b := by
        unfold DSet.ser
        rw [List.getD_eq_getElem?_getD, hb]; rfl
      have h2 : d.ser (locate d'.series p).1 = b' := by
        rw [hloc, liftPt_fst] at hb'
        unfold DSet.ser
        rw [List.getD_eq_getElem?_getD, hb']; rfl
      rw [h1, h2] at ht
      rw [ht])
    (by
      intro p hp
      obtain ⟨b, hb, hbn⟩ := locate_valid d'.series p hp
      rw [concat_locate LC.f d'.series hp (heta _) hb hbn]
      have h1 : d'.ser (locate d'.series p).1 = b := by
        unfold DSet.ser
        rw [List.getD_eq_getElem?_getD, hb]; rfl
      rw [← h1, hd', DSet.merged_ser hs, ← hd']
      by_cases hpP : p = P
      · rw [if_pos hpP, hpP, hlP', if_pos rfl, hNP, hNP1,
          concat_locate LC.f d.series (by show P < d.nall; omega) hlP hg (by omega),
          concat_locate LC.f d.series (by show P + 1 < d.nall; omega) hlP1 hg hia]
        exact h.value em
      · rw [if_neg hpP]
        have hsp : skipAt P p < totalN d.series := by have := hsk p hp; show _ < d.nall; omega
        obtain ⟨b', hb', hbn'⟩ := locate_valid d.series _ hsp
        rw [concat_locate LC.f d.series hsp (heta _) hb' hbn', hloc]
        have h2 : d.ser (locate d'.series p).1 = b' := by
          rw [hloc, liftPt_fst] at hb'
          unfold DSet.ser
          rw [List.getD_eq_getElem?_getD, hb']; rfl
        rw [← h2]
        unfold liftPt
        by_cases hx : (locate d'.series p).1 = s
        · rw [if_pos hx, if_pos hx, hx]
          have : (locate d'.series p).2 ≠ i := by
            intro h2
            refine hpP ((hinj' p hp P hPn).1 ?_)
            rw [hlP']
            exact Prod.ext hx h2
          simp only [LC.merged, this, if_false]
        · rw [if_neg hx, if_neg hx])
    hpdC
  obtain ⟨hp', heq⟩ := main
  constructor
  · have : (Matrix.of fun i j : Fin n => C' i j) = (σ * σ) • d'.cov (e.K k) e.pm (e.idxc k) (e.idxl k) := rfl
    rw [this] at hp'
    have h2 := hp'.smul (show 0 < (σ * σ)⁻¹ by positivity)
    rwa [smul_smul, inv_mul_cancel₀ (by positivity), one_smul] at h2
  · rw [margLLN_line, margLLN_line, hd', DSet.merged_line, ← hd']
    rw [show totalN d.series = n + 1 from hN]
    refine heq.trans ?_
    rw [hNP, hNP1, concat_locate LC.f d.series (by show P < d.nall; omega) hlP hg (by omega),
      concat_locate LC.f d.series (by show P + 1 < d.nall; omega) hlP1 hg hia]
    show _ = margLLN n _ C' _ _ + _
    unfold LC.twinTerm
    ring

/-! ### The conditions on the data -/

theorem LC.Twin.enough {a : LC} {i : ℕ} (h : a.Twin i) (em : ℝ) {nq : ℕ} (hq : EnoughTimes a nq) :
    EnoughTimes (a.merged i em) nq := by
  obtain ⟨e, he⟩ := hq
  have hlt := h.lt
  let g : ℕ → ℕ := fun x => if x ≤ i then x else x - 1
  have hg : ∀ x < a.n, g x < a.n - 1 := by
    intro x hx
    simp only [g]
    split <;> omega
  have ht : ∀ x, a.t (skipAt i (g x)) = a.t x := by
    intro x
    simp only [g, skipAt]
    by_cases h1 : x ≤ i
    · rw [if_pos h1]
      by_cases h2 : x < i
      · rw [if_pos h2]
      · rw [if_neg h2, show x = i by omega, h.time]
    · rw [if_neg h1, if_neg (by omega), show x - 1 + 1 = x by omega]
  refine ⟨fun k => ⟨g (e k), hg _ (e k).2⟩, ?_⟩
  intro x y hxy
  refine he ?_
  have : a.t (skipAt i (g (e x))) = a.t (skipAt i (g (e y))) := hxy
  rwa [ht, ht] at this

theorem LC.Twin.conOK {a : LC} {i : ℕ} (h : a.Twin i) (em : ℝ) (hc : ConOK a 0) : ConOK (a.merged i em) 0 := by
  have hlt := h.lt
  have e1 := h.err
  have e2 := h.err'
  refine ⟨fun j hj => ?_, Or.inl fun j hj => ?_⟩
  · have hj : j + 1 < a.n - 1 := hj
    show a.t (skipAt i j) ≤ a.t (skipAt i (j + 1))
    unfold skipAt
    by_cases h1 : j + 1 < i
    · rw [if_pos (by omega), if_pos h1]
      exact hc.1 j (by omega)
    · rw [if_neg h1]
      by_cases h2 : j < i
      · rw [if_pos h2]
        exact (hc.1 j (by omega)).trans (hc.1 (j + 1) (by omega))
      · rw [if_neg h2]
        exact hc.1 (j + 1) (by omega)
  · have hj : j < a.n - 1 := hj
    rcases hc.2 with h' | h'
    · rw [mul_zero, add_zero]
      by_cases hji : j = i
      · subst hji
        rw [← pow_two, h.error]
        positivity
      · have := h' (skipAt i j) (by unfold skipAt; split <;> omega)
        rw [mul_zero, add_zero] at this
        simp only [LC.merged, hji, if_false]
        exact this
    · exact absurd h.time (h' i hlt).ne

theorem LineDataOK.merged {e : LineEnv} {ds : List DSet} (h : LineDataOK e ds) {k : ℕ} {d : DSet} (hk : ds[k]? = some d)
    {s i : ℕ} (em : ℝ) (hs : s < d.series.length) (ht : (d.ser s).Twin i) (h0 : e.pm (e.sysAddr k s) = 0) :
    LineDataOK e (ds.set k (d.merged s i em)) := by
  intro k' d' hd'
  rw [List.getElem?_set] at hd'
  by_cases hkk : k = k'
  · subst hkk
    rw [if_pos rfl, if_pos (List.getElem?_eq_some_iff.1 hk).1, Option.some.injEq] at hd'
    subst hd'
    obtain ⟨h1, h2, h3⟩ := h k d hk
    refine ⟨?_, ?_, (margLL_line_merged e k d s i em hs ht h0 h3).1⟩
    · rcases s with _ | s
      · have h0 : e.pm (e.idxc k) = 0 := h0
        rw [h0, Real.exp_zero, sub_self, zero_mul] at h1 ⊢
        exact ht.conOK em h1
      · exact h1
    · intro a ha
      rw [DSet.merged_series] at ha
      rcases List.mem_or_eq_of_mem_set ha with ha | rfl
      · exact h2 a ha
      · exact ht.enough em (h2 _ (List.mem_of_getElem? (DSet.ser_get hs)))
  · rw [if_neg hkk] at hd'
    exact h k' d' hd'

theorem sum_mapIdx_set {α : Type*} (F : ℕ → α → ℝ) (l : List α) {k : ℕ} {d : α} (h : l[k]? = some d) (d' : α) :
    (l.mapIdx F).sum = ((l.set k d').mapIdx F).sum + (F k d - F k d') := by
  induction l generalizing F k with
  | nil => simp at h
  | cons a l ih =>
    rcases k with _ | k
    · simp only [List.getElem?_cons_zero, Option.some.injEq] at h
      subst h
      simp only [List.set_cons_zero, List.mapIdx_cons, List.sum_cons]
      ring
    · simp only [List.getElem?_cons_succ] at h
      simp only [List.set_cons_succ, List.mapIdx_cons, List.sum_cons]
      rw [ih (fun i => F (i + 1)) h]
      ring

/-- C137: two measurements of a light curve (continuum or line) at the same time may be replaced by their average,
weighted with the inverse squares of their errors: all line likelihoods, whatever the parameters and the transfer
functions, change by the same number, which is made of the two values and errors only.  The light curve must be without
systematic error (the default: that parameter is fixed to 0). -/
theorem C137_line (e : LineEnv) (ds : List DSet) (h : LineDataOK e ds) (hl : ∀ d ∈ ds, d.line ≠ []) (k : ℕ) (d : DSet)
    (hk : ds[k]? = some d) (s i : ℕ) (em : ℝ) (hs : s < d.series.length) (ht : (d.ser s).Twin i)
    (h0 : e.pm (e.sysAddr k s) = 0) :
    ∃ v, (probLine1 e (ds.set k (d.merged s i em)) = .ok v ∧ probLine1 e ds = .ok (v + (d.ser s).twinTerm i)) ∧
      (probLine2 e (ds.set k (d.merged s i em)) = .ok v ∧ probLine2 e ds = .ok (v + (d.ser s).twinTerm i)) ∧
      (probLine3 e (ds.set k (d.merged s i em)) = .ok v ∧ probLine3 e ds = .ok (v + (d.ser s).twinTerm i)) ∧
      (probLine4 e (ds.set k (d.merged s i em)) = .ok v ∧ probLine4 e ds = .ok (v + (d.ser s).twinTerm i)) := by
  have h' := h.merged hk em hs ht h0
  have hl' : ∀ x ∈ ds.set k (d.merged s i em), x.line ≠ [] := by
    intro x hx
    rcases List.mem_or_eq_of_mem_set hx with hx | rfl
    · exact hl x hx
    · intro h
      have := DSet.merged_line d s i em
      rw [h] at this
      exact hl d (List.mem_of_getElem? hk) (List.length_eq_zero_iff.1 this.symm)
  obtain ⟨a1, a2, a3⟩ := line_value e ds h
  obtain ⟨b1, b2, b3⟩ := line_value e _ h'
  have a4 := line_value4_lines e ds h hl
  have b4 := line_value4_lines e _ h' hl'
  have hsum := sum_mapIdx_set (fun k d => margLL (lineCov e k d) (d.trend e.nq) (fun i => d.fall i)) ds hk (d.merged s i em)
  rw [(margLL_line_merged e k d s i em hs ht h0 (h k d hk).2.2).2, add_sub_cancel_left] at hsum
  simp only [hsum] at a1 a2 a3 a4
  exact ⟨_, ⟨b1, a1⟩, ⟨b2, a2⟩, ⟨b3, a3⟩, ⟨b4, a4⟩⟩

/-- C137 for the likelihoods of the continuum stage. -/
theorem C137_con (nq : ℕ) (pm : ℕ → ℝ) (idx : ℕ → ℕ) (mem : ℕ → ℝ) (ds : List LC) (h : ConDataOK nq pm idx ds) (k : ℕ) (a : LC)
    (hk : ds[k]? = some a) (i : ℕ) (em : ℝ) (ht : a.Twin i) (h0 : pm (idx k) = 0) :
    ∃ v, (probCon nq pm idx mem (ds.set k (a.merged i em)) = .ok v ∧ probCon nq pm idx mem ds = .ok (v + a.twinTerm i)) ∧
      (probConSemi nq pm idx (ds.set k (a.merged i em)) = some v ∧ probConSemi nq pm idx ds = some (v + a.twinTerm i)) := by
  obtain ⟨hc, hq⟩ := h k a hk
  have e1 := ht.err
  have e2 := ht.err'
  have hlt := ht.lt
  have hc0 : ConOK a 0 := by rwa [h0, Real.exp_zero, sub_self, zero_mul] at hc
  have h' : ConDataOK nq pm idx (ds.set k (a.merged i em)) := by
    intro k' d' hd'
    rw [List.getElem?_set] at hd'
    by_cases hkk : k = k'
    · subst hkk
      rw [if_pos rfl, if_pos (List.getElem?_eq_some_iff.1 hk).1, Option.some.injEq] at hd'
      subst hd'
      rw [h0, Real.exp_zero, sub_self, zero_mul]
      exact ⟨ht.conOK em hc0, ht.enough em hq⟩
    · rw [if_neg hkk] at hd'
      exact h k' d' hd'
  have key : margLL (conCov pm (idx k) a) (trendMat a.t a.n nq) (fun i => a.f i) =
      margLL (conCov pm (idx k) (a.merged i em)) (trendMat (a.merged i em).t (a.merged i em).n nq)
        (fun p => (a.merged i em).f p) + a.twinTerm i := by
    obtain ⟨n, hn⟩ : ∃ n, a.n = n + 1 := ⟨a.n - 1, by omega⟩
    have hn' : (a.merged i em).n = n := by show a.n - 1 = n; omega
    set A := Real.exp (pm (idx k + 1)) ^ 2 * Real.exp (pm (idx k + 2)) with hA
    set c := 1 / Real.exp (pm (idx k + 2)) with hcc
    have conv : ∀ (b : LC) (m : ℕ), b.n = m → margLL (conCov pm (idx k) b) (trendMat b.t b.n nq) (fun i => b.f i) =
        margLLN m nq (fun p r => A * Real.exp (-c * |b.t p - b.t r|) + if p = r then b.fe p ^ 2 else 0)
          (fun p j => if j = 0 then 1 else b.t p ^ j) b.f := by
      rintro b m rfl
      unfold margLLN
      congr 1
      ext p r
      simp only [conCov, drwCov, h0, Real.exp_zero, sub_self, zero_mul, Matrix.of_apply, Fin.ext_iff, ne_eq,
        OfNat.ofNat_ne_zero, not_false_eq_true, zero_pow, add_zero, hA, hcc]
    rw [conv a (n + 1) hn, conv _ n hn']
    have hpd : (Matrix.of fun i j : Fin (n + 1) =>
        (fun p r : ℕ => A * Real.exp (-c * |a.t p - a.t r|) + if p = r then a.fe p ^ 2 else 0) i j).PosDef := by
      have hp := conCov_posDef hc
      have : ∀ m, a.n = m → (Matrix.of fun i j : Fin m =>
        (fun p r : ℕ => A * Real.exp (-c * |a.t p - a.t r|) + if p = r then a.fe p ^ 2 else 0) i j).PosDef := by
        rintro m rfl
        convert hp using 1
        ext p r
        simp only [conCov, drwCov, h0, Real.exp_zero, sub_self, zero_mul, Matrix.of_apply, Fin.ext_iff, ne_eq,
          OfNat.ofNat_ne_zero, not_false_eq_true, zero_pow, add_zero, hA, hcc]
      exact this _ hn
    refine (margLLN_merge n nq i (by omega) (fun p r => A * Real.exp (-c * |a.t p - a.t r|))
      (fun p j => if j = 0 then 1 else a.t p ^ j) (fun p => a.fe p ^ 2) a.f _
      (fun p r => A * Real.exp (-c * |(a.merged i em).t p - (a.merged i em).t r|) +
        if p = r then (a.merged i em).fe p ^ 2 else 0)
      (fun p j => if j = 0 then 1 else (a.merged i em).t p ^ j) (a.merged i em).f (by positivity) (by positivity) (fun p _ r _ => rfl) (fun r _ => by simp only [ht.time]) (fun r _ => by simp only [ht.time])
      (fun p hp r hr => ?_) (fun j _ => by simp only [ht.time]) (fun p hp j hj => ?_) (fun p hp => ?_) hpd).2.trans ?_
    · show A * Real.exp (-c * |a.t (skipAt i p) - a.t (skipAt i r)|) + _ = _
      congr 1
      by_cases hpr : p = r
      · rw [if_pos hpr, if_pos hpr]
        by_cases hpi : p = i
        · rw [if_pos hpi, hpi]; exact ht.error em
        · rw [if_neg hpi]
          simp only [LC.merged, hpi, if_false]
      · rw [if_neg hpr, if_neg hpr]
    · rfl
    · by_cases hpi : p = i
      · rw [if_pos hpi, hpi]; exact ht.value em
      · rw [if_neg hpi]
        simp only [LC.merged, hpi, if_false]
    · unfold LC.twinTerm
      ring
  obtain ⟨a1, a2⟩ := con_value nq pm idx mem ds h
  obtain ⟨b1, b2⟩ := con_value nq pm idx mem _ h'
  have hsum := sum_mapIdx_set (fun k d => margLL (conCov pm (idx k) d) (trendMat d.t d.n nq) (fun i => d.f i)) ds hk
    (a.merged i em)
  rw [key, add_sub_cancel_left] at hsum
  rw [hsum] at a1 a2
  exact ⟨_, ⟨b1, a1⟩, ⟨b2, a2⟩⟩

/-- One continuum point and a line measured twice at time 0, with different values and errors. -/
noncomputable def twinSet : DSet :=
  ⟨⟨1, fun _ => 0, fun _ => 3, fun _ => 1, 1⟩, [⟨2, fun _ => 0, fun p => 5 + p, fun p => 1 + p, 1⟩]⟩

theorem twinSet_ok : TransferOK ⟨1, mixEnv.pm, fun _ => mixEnv.idxc, fun _ => mixEnv.idxl, fun _ => mixEnv.kernels, fun _ => 0⟩
    [twinSet] := by
  intro k d hd
  have : d = twinSet := by
    rcases k with _ | k <;> simp at hd
    exact hd.symm
  subst this
  refine ⟨⟨3, true, mixEnv.typ, rfl, mixEnv_far _, ?_⟩, fun i hi => ?_, fun a ha => ?_⟩
  · refine ⟨fun i _ => ?_, fun j a ha i _ => ?_⟩
    · simp only [twinSet]; positivity
    · rcases j with _ | j
      · have := Option.some.inj ha
        rw [← this]; positivity
      · simp [twinSet] at ha
  · simp [twinSet] at hi
  · refine ⟨fun _ => ⟨0, ?_⟩, fun x y _ => Subsingleton.elim (α := Fin 1) x y⟩
    simp only [DSet.series, twinSet, List.mem_cons, List.not_mem_nil, or_false] at ha
    rcases ha with rfl | rfl <;> norm_num

theorem twinSet_twin : (twinSet.ser 1).Twin 0 where
  lt := by simp [DSet.ser, DSet.series, twinSet]
  time := by simp [DSet.ser, DSet.series, twinSet]
  err := by simp [DSet.ser, DSet.series, twinSet]
  err' := by simp [DSet.ser, DSet.series, twinSet]

/-- Averaging the two (errors 1 and 2) leaves the shape of the likelihood. -/
example (em : ℝ) :
    let e : LineEnv := ⟨1, mixEnv.pm, fun _ => mixEnv.idxc, fun _ => mixEnv.idxl, fun _ => mixEnv.kernels, fun _ => 0⟩
    ∃ v, probLine4 e [twinSet.merged 1 0 em] = .ok v ∧ probLine4 e [twinSet] = .ok (v + (twinSet.ser 1).twinTerm 0) := by
  intro e
  obtain ⟨v, -, -, -, h⟩ := C137_line e [twinSet] twinSet_ok.lineDataOK (by simp [twinSet]) 0 twinSet rfl 1 0 em
    (by simp [DSet.series, twinSet]) twinSet_twin (by simp [e, LineEnv.sysAddr, mixEnv])
  exact ⟨v, h⟩

example : (LC.mk 3 (fun p => [0, 1, 1].getD p 2) (fun p => p) (fun _ => 1) 1).Twin 1 :=
  ⟨by norm_num, by simp, by norm_num, by norm_num⟩

end Mica
