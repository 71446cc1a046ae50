import Verif.Proof.MoreData
import Verif.Props.VmapRec
import Verif.Model.Scale

/-! C138: more or better measurements never make the reconstruction less certain (parameters given). -/

namespace Mica

open Matrix

/-! ### Continuum -/

/-- C138: if all measurements of `d'` are in `d` (as measurement `ι i`, with total errors that are not larger), the errors of the
continuum reconstructed from `d`, by either implementation, are nowhere larger than those from `d'`, whatever the fluxes are; without
a trend they are at most the standard deviation of the continuum. -/
theorem C138_con_partial {nq m : ℕ} {sigma tau syserr syserr' : ℝ} {d d' : LC} {trec : ℕ → ℝ} (hs : 0 < sigma) (ht : 0 < tau)
    (hd : ConOK d syserr) (hd' : ConOK d' syserr') (hq' : EnoughTimes d' nq) (ι : ℕ → ℕ)
    (hinj : ∀ i < d'.n, ∀ j < d'.n, ι i = ι j → i = j)
    (hι : ∀ i < d'.n, ι i < d.n ∧ d'.t i = d.t (ι i) ∧ d.fe (ι i) ^ 2 + syserr ^ 2 ≤ d'.fe i ^ 2 + syserr' ^ 2)
    (memP memU memP' memU' : ℕ → ℝ) :
    ∃ r r' : Recon nq m, conRec nq sigma tau syserr d m trec memP memU = .ok r ∧
      conRecSemi nq sigma tau syserr d m trec memU = .ok r ∧
      conRec nq sigma tau syserr' d' m trec memP' memU' = .ok r' ∧
      conRecSemi nq sigma tau syserr' d' m trec memU' = .ok r' ∧
      ∀ i, ∃ v v', r.err i = some v ∧ r'.err i = some v' ∧ 0 ≤ v ∧ v ≤ v' ∧ (nq = 0 → v' ≤ sigma) := by
  have hq : EnoughTimes d nq := by
    obtain ⟨e, he⟩ := hq'
    refine ⟨fun k => ⟨ι (e k), (hι _ (e k).2).1⟩, fun a b hab => he ?_⟩
    simp only at hab ⊢
    rwa [(hι _ (e a).2).2.1, (hι _ (e b).2).2.1]
  obtain ⟨W, hW, h⟩ := C38_con (m := m) (trec := trec) hs ht hd hq
  obtain ⟨W', hW', h'⟩ := C38_con (m := m) (trec := trec) hs ht hd' hq'
  obtain ⟨r, r1, r2, _, r3, _⟩ := h d.f memP memU memU
  obtain ⟨r', r1', r2', _, r3', _⟩ := h' d'.f memP' memU' memU'
  refine ⟨r, r', r1, r2, r1', r2', fun i => ⟨_, _, (r3 i).2, (r3' i).2, Real.sqrt_nonneg _, Real.sqrt_le_sqrt ?_, ?_⟩⟩
  · refine predErr_more (fun p : Fin d'.n => ⟨ι p, (hι p p.2).1⟩)
      (fun p => (d'.fe p ^ 2 + syserr' ^ 2) - (d.fe (ι p) ^ 2 + syserr ^ 2)) (fun p => sub_nonneg.2 (hι p p.2).2.2) ?_ rfl ?_ ?_ ?_
      (hW i) (hW' i).1
    · intro p r
      simp only [conDataCov, drwCov, (hι p p.2).2.1, (hι r r.2).2.1, Fin.ext_iff]
      by_cases he : p = r
      · subst he; simp
      · have h1 : ¬ (p : ℕ) = r := fun h => he (Fin.ext h)
        have h2 : ¬ ι p = ι r := fun h => h1 (hinj _ p.2 _ r.2 h)
        simp [h1, h2]
    · intro p c
      simp only [powMat, (hι p p.2).2.1, Fin.cast_eq_self]
    · intro c; rfl
    · intro p
      simp only [conCross, (hι p p.2).2.1]
  · rintro rfl
    have h0 : predErr (conDataCov sigma tau syserr' d') (conCross sigma tau d' (trec i)) (sigma ^ 2) (W' i) ≤ sigma ^ 2 := by
      have h1 : predErr (conDataCov sigma tau syserr' d') (conCross sigma tau d' (trec i)) (sigma ^ 2) 0 = sigma ^ 2 := by
        simp [predErr]
      by_cases he : (0 : Fin d'.n → ℝ) = W' i
      · rw [← he, h1]
      · have := (hW' i).2 0 (fun p => by simp [dotProduct]) he
        rw [h1] at this
        exact this.le
    calc Real.sqrt _ ≤ Real.sqrt (sigma ^ 2) := Real.sqrt_le_sqrt h0
      _ = sigma := Real.sqrt_sq hs.le

/-! ### Lines -/

/-- The factors of the systematic errors of the light curves of a data set. -/
noncomputable def sysFactor (pm : ℕ → ℝ) (idxc : ℕ) (idxl : ℕ → ℕ) (s : ℕ) : ℝ :=
  Real.exp (pm (match s with | 0 => idxc | j + 1 => idxl j)) - 1

section
variable {d d' : DSet} {pm : ℕ → ℝ} {idxc : ℕ} {idxl : ℕ → ℕ} {ι : ℕ → ℕ → ℕ}
  (h : MoreData d.series d'.series (sysFactor pm idxc idxl) ι)
include h

theorem MoreData.ser {p : ℕ} (hp : p < d'.nall) :
    (d'.ser (Mica.locate d'.series p).1).t (Mica.locate d'.series p).2 =
      (d.ser (Mica.locate d'.series p).1).t (ι (Mica.locate d'.series p).1 (Mica.locate d'.series p).2) ∧
    noiseVar d pm idxc idxl ((Mica.locate d'.series p).1, ι (Mica.locate d'.series p).1 (Mica.locate d'.series p).2) ≤
      noiseVar d' pm idxc idxl (Mica.locate d'.series p) := by
  obtain ⟨a, a', ha, ha', _, _, ht, hN⟩ := h.at hp
  generalize Mica.locate d'.series p = x at *
  obtain ⟨s, i⟩ := x
  have e1 : d.ser s = a := by simp only [DSet.ser, List.getD, ha, Option.getD_some]
  have e2 : d'.ser s = a' := by simp only [DSet.ser, List.getD, ha', Option.getD_some]
  refine ⟨by simp only [e1, e2, ht], ?_⟩
  unfold noiseVar
  simp only [e1, e2]
  refine div_le_div_of_nonneg_right ?_ (sq_nonneg _)
  rcases s with _ | s
  · have e3 : d.con = a := by simpa [DSet.series] using ha
    have e4 : d'.con = a' := by simpa [DSet.series] using ha'
    simpa [pmSyserr, sysFactor, e3, e4] using hN
  · simpa [pmSyserr, sysFactor, e1, e2] using hN

theorem MoreData.pt {p : ℕ} (hp : p < d'.nall) : d'.pt p = d.pt (morePos d.series d'.series ι p) := by
  rw [DSet.pt, DSet.pt, h.locate hp, (h.ser hp).1]

theorem MoreData.sigCov (K : Kernels) (tau : ℝ) {p r : ℕ} (hp : p < d'.nall) (hr : r < d'.nall) :
    Mica.sigCov K tau d' (Mica.locate d'.series p) (Mica.locate d'.series r) =
      Mica.sigCov K tau d (Mica.locate d.series (morePos d.series d'.series ι p))
        (Mica.locate d.series (morePos d.series d'.series ι r)) := by
  have e1 := (h.ser hp).1
  have e2 := (h.ser hr).1
  have e3 := h.le_iff hp hr
  rw [h.locate hp, h.locate hr]
  generalize Mica.locate d'.series p = x at *
  generalize Mica.locate d'.series r = y at *
  obtain ⟨s, i⟩ := x
  obtain ⟨s', j⟩ := y
  simp only at e1 e2 e3
  unfold Mica.sigCov
  rcases s with _ | s <;> rcases s' with _ | s' <;> simp only [e1, e2]
  by_cases he : s = s'
  · subst he
    have e4 := e3 rfl
    simp only [if_true, e4, e2]
  · simp only [he, if_false]

end

/-- C138 (lines; partial: the data sets have a line): for all covariance functions and parameters for which the covariances of the data are positive definite, the
errors of continuum and lines reconstructed from `d` are nowhere larger than those from `d'`, if all measurements of `d'` are in
`d`, with total errors that are not larger. -/
theorem C138_line_partial {K : Kernels} {nq : ℕ} {d d' R : DSet} {pm : ℕ → ℝ} {idxc : ℕ} {idxl : ℕ → ℕ} {ι : ℕ → ℕ → ℕ}
    (h : MoreData d.series d'.series (sysFactor pm idxc idxl) ι) (hne : d'.line ≠ [])
    (hcon : ConOK d.con (pmSyserr pm idxc d.con.em)) (hC : (setCov K pm idxc idxl d).PosDef)
    (hcon' : ConOK d'.con (pmSyserr pm idxc d'.con.em)) (hC' : (setCov K pm idxc idxl d').PosDef)
    (hL' : ∀ a ∈ d'.series, EnoughTimes a nq)
    (f : Fin d.nall → ℝ) (f' : Fin d'.nall → ℝ) (memP memU memA memP' memU' memA' : ℕ → ℝ) :
    ∃ r r', lineRecs K nq d R pm idxc idxl f memP memU memA = (.ok r, r, r) ∧
      lineRecs K nq d' R pm idxc idxl f' memP' memU' memA' = (.ok r', r', r') ∧
      ∀ i v v', r.err i = some v → r'.err i = some v' → v ≤ v' := by
  have hlen : d'.line.length = d.line.length := by have := h.len; simpa [DSet.series] using this
  have hne0 : d.line ≠ [] := by
    intro h0
    rw [h0, List.length_nil, List.length_eq_zero_iff] at hlen
    exact hne hlen
  have hL := h.enough hL'
  obtain ⟨W, hW, hr⟩ := C38_line_partial (R := R) hcon hC hL hne0
  obtain ⟨W', hW', hr'⟩ := C38_line_partial (R := R) hcon' hC' hL' hne
  obtain ⟨r, r1, _, r2, _⟩ := hr f memP memU memA
  obtain ⟨r', r1', _, r2', _⟩ := hr' f' memP' memU' memA'
  refine ⟨r, r', r1, r1', fun i v v' hv hv' => ?_⟩
  rw [r2] at hv
  rw [r2'] at hv'
  refine cSqrt_mono ?_ hv hv'
  have hs2 : 0 ≤ pmSigma pm idxc ^ 2 := sq_nonneg _
  refine predErr_more (fun p : Fin d'.nall => ⟨morePos d.series d'.series ι p, h.pos_lt p.2⟩)
    (fun p => pmSigma pm idxc ^ 2 * (noiseVar d' pm idxc idxl (locate d'.series p) -
      noiseVar d pm idxc idxl (locate d.series (morePos d.series d'.series ι p)))) (fun p => ?_) ?_
      (by rw [hlen]) ?_ ?_ ?_ (hW i) (hW' i).1
  · refine mul_nonneg hs2 (sub_nonneg.2 ?_)
    rw [h.locate p.2]
    exact (h.ser p.2).2
  · intro p r
    simp only [setCov, Matrix.smul_apply, Matrix.of_apply, smul_eq_mul, Mica.covEntry]
    rw [h.sigCov K _ p.2 r.2]
    by_cases he : p = r
    · subst he
      simp only [if_true]
      ring
    · have h1 : ¬ locate d'.series p = locate d'.series r := fun h2 => he (Fin.ext (locate_inj _ _ _ p.2 r.2 h2))
      have h3 : ¬ locate d.series (morePos d.series d'.series ι p) = locate d.series (morePos d.series d'.series ι r) := fun h2 =>
        he (Fin.ext (h.pos_inj p.2 r.2 (locate_inj _ _ _ (h.pos_lt p.2) (h.pos_lt r.2) h2)))
      simp only [h1, h3, he, if_false]
      ring
  · intro p c
    simp only [setTrend, trendAt, h.pt p.2, Fin.val_cast]
  · intro c
    simp only [trendAt, Fin.val_cast]
  · intro p
    simp only [setCross, h.pt p.2]

/-- C138 (lines; partial: as above, and widths in the band around the damping timescale are excluded): with the transfer functions of the code, all measurements having noise, the errors are
numbers and nowhere larger. -/
theorem C138_transfer_partial {e : KEnv} {nq : ℕ} {d d' R : DSet} {ι : ℕ → ℕ → ℕ}
    (h : MoreData d.series d'.series (sysFactor e.pm e.idxc e.idxl) ι) (hne : d'.line ≠ [])
    (hf : e.Far d.line.length) (hR : R.line.length ≤ d.line.length)
    (hcon : ConOK d.con (pmSyserr e.pm e.idxc d.con.em)) (hN : Noisy e d)
    (hcon' : ConOK d'.con (pmSyserr e.pm e.idxc d'.con.em)) (hN' : Noisy e d')
    (hL' : ∀ a ∈ d'.series, EnoughTimes a nq)
    (f : Fin d.nall → ℝ) (f' : Fin d'.nall → ℝ) (memP memU memA memP' memU' memA' : ℕ → ℝ) :
    ∃ r r', lineRecs e.kernels nq d R e.pm e.idxc e.idxl f memP memU memA = (.ok r, r, r) ∧
      lineRecs e.kernels nq d' R e.pm e.idxc e.idxl f' memP' memU' memA' = (.ok r', r', r') ∧
      ∀ i, ∃ v v', r.err i = some v ∧ r'.err i = some v' ∧ 0 ≤ v ∧ v ≤ v' := by
  have hlen : d'.line.length = d.line.length := by have := h.len; simpa [DSet.series] using this
  have hs2 : 0 < pmSigma e.pm e.idxc ^ 2 := by have := pmSigma_pos e.pm e.idxc; positivity
  have hC : (setCov e.kernels e.pm e.idxc e.idxl d).PosDef := (cov_posDef hf hN).smul hs2
  have hf' : e.Far d'.line.length := by rw [hlen]; exact hf
  have hC' : (setCov e.kernels e.pm e.idxc e.idxl d').PosDef := (cov_posDef hf' hN').smul hs2
  obtain ⟨r, r', h1, h2, h3⟩ := C138_line_partial (R := R) h hne hcon hC hcon' hC' hL' f f' memP memU memA memP' memU' memA'
  have hne0 : d.line ≠ [] := by
    intro h0
    rw [h0, List.length_nil, List.length_eq_zero_iff] at hlen
    exact hne hlen
  obtain ⟨q', g1', g2'⟩ := C38_line_error_partial hf' (hlen ▸ hR) hcon' hC' hL' hne f' memP' memU' memA'
  obtain ⟨q, g1, g2⟩ := C38_line_error_partial (nq := nq) hf hR hcon hC (h.enough hL') hne0 f memP memU memA
  rw [h1] at g1
  rw [h2] at g1'
  obtain rfl : r = q := (Prod.mk.inj (Prod.mk.inj g1).2).1
  obtain rfl : r' = q' := (Prod.mk.inj (Prod.mk.inj g1').2).1
  refine ⟨r, r', h1, h2, fun i => ?_⟩
  obtain ⟨v, hv, hv0⟩ := g2 i
  obtain ⟨v', hv', _⟩ := g2' i
  exact ⟨v, v', hv, hv', hv0, h3 i v v' hv hv'⟩

/-! ### Virtual continuum -/

section
variable {e : LineEnv} {k : ℕ} {ls ls' : List LC} {ι : ℕ → ℕ → ℕ}
  (h : MoreData ls ls' (fun s => Real.exp (e.pm (e.idxl k s)) - 1) ι)
include h

theorem MoreData.vLine {p : ℕ} (hp : p < totalN ls') :
    (Mica.vLine ls' (Mica.locate ls' p).1).t (Mica.locate ls' p).2 =
      (Mica.vLine ls (Mica.locate ls' p).1).t (ι (Mica.locate ls' p).1 (Mica.locate ls' p).2) ∧
    (Mica.vLine ls (Mica.locate ls' p).1).fe (ι (Mica.locate ls' p).1 (Mica.locate ls' p).2) ^ 2 +
        ((Real.exp (e.pm (e.idxl k (Mica.locate ls' p).1)) - 1) * (Mica.vLine ls (Mica.locate ls' p).1).em) ^ 2 ≤
      (Mica.vLine ls' (Mica.locate ls' p).1).fe (Mica.locate ls' p).2 ^ 2 +
        ((Real.exp (e.pm (e.idxl k (Mica.locate ls' p).1)) - 1) * (Mica.vLine ls' (Mica.locate ls' p).1).em) ^ 2 := by
  obtain ⟨a, a', ha, ha', _, _, ht, hN⟩ := h.at hp
  have e1 : Mica.vLine ls (Mica.locate ls' p).1 = a := by simp only [Mica.vLine, List.getD, ha, Option.getD_some]
  have e2 : Mica.vLine ls' (Mica.locate ls' p).1 = a' := by simp only [Mica.vLine, List.getD, ha', Option.getD_some]
  rw [e1, e2]
  exact ⟨ht, hN⟩

/-- The noise of all data of the set of which `p` is an element. -/
noncomputable def vNoise (e : LineEnv) (k : ℕ) (ls : List LC) (x : ℕ × ℕ) : ℝ :=
  (Mica.vLine ls x.1).fe x.2 ^ 2 + ((Real.exp (e.pm (e.idxl k x.1)) - 1) * (Mica.vLine ls x.1).em) ^ 2

theorem MoreData.vmapCov (p r : Fin (totalN ls')) :
    Mica.vmapCov e k ls' p r = Mica.vmapCov e k ls ⟨morePos ls ls' ι p, h.pos_lt p.2⟩ ⟨morePos ls ls' ι r, h.pos_lt r.2⟩ +
      if p = r then vNoise e k ls' (Mica.locate ls' p) - vNoise e k ls (Mica.locate ls (morePos ls ls' ι p)) else 0 := by
  have e1 := (h.vLine p.2).1
  have e2 := (h.vLine r.2).1
  have e3 := h.le_iff p.2 r.2
  have hpr : (morePos ls ls' ι p = morePos ls ls' ι r) ↔ p = r :=
    ⟨fun h2 => Fin.ext (h.pos_inj p.2 r.2 h2), fun h2 => by rw [h2]⟩
  simp only [Mica.vmapCov, Matrix.of_apply, h.locate p.2, h.locate r.2, e1, e2, Fin.mk.injEq, hpr, vNoise]
  by_cases he : (Mica.locate ls' p).1 = (Mica.locate ls' r).1
  · simp only [if_pos he, e3 he]
    split <;> split <;> ring
  · simp only [if_neg he]
    split <;> split <;> ring

theorem MoreData.vNoise_le (p : Fin (totalN ls')) :
    vNoise e k ls (Mica.locate ls (morePos ls ls' ι p)) ≤ vNoise e k ls' (Mica.locate ls' p) := by
  rw [h.locate p.2]
  exact (h.vLine p.2).2

end

/-- C138 (mode vmap): the same for the virtual continuum and the lines. -/
theorem C138_vmap_partial (e : LineEnv) (k : ℕ) (ls ls' : List LC) (R : DSet) {ι : ℕ → ℕ → ℕ}
    (h : MoreData ls ls' (fun s => Real.exp (e.pm (e.idxl k s)) - 1) ι)
    (hC : (vmapCov e k ls).PosDef) (hC' : (vmapCov e k ls').PosDef) (hL' : ∀ a ∈ ls', EnoughTimes a e.nq)
    (f : Fin (totalN ls) → ℝ) (f' : Fin (totalN ls') → ℝ) (memP memU memA memP' memU' memA' : ℕ → ℝ) :
    ∃ r r', vmapRec (e.K k) e.nq ls R e.pm (e.idxc k) (e.idxl k) f memP memU memA = .ok r ∧
      vmapRec (e.K k) e.nq ls' R e.pm (e.idxc k) (e.idxl k) f' memP' memU' memA' = .ok r' ∧
      ∀ i v v', r.err i = some v → r'.err i = some v' → v ≤ v' := by
  obtain ⟨W, V, hW, hV, hr⟩ := C84_reconstruct e k ls R hC (h.enough hL')
  obtain ⟨W', V', hW', hV', hr'⟩ := C84_reconstruct e k ls' R hC' hL'
  obtain ⟨r, r1, _, r2, r3, _⟩ := hr f memP memU memA
  obtain ⟨r', r1', _, r2', r3', _⟩ := hr' f' memP' memU' memA'
  refine ⟨r, r', r1, r1', fun i v v' hv hv' => ?_⟩
  have hcross : ∀ p : Fin (totalN ls'), vmapCross e k ls' (R.pt i) p =
      vmapCross e k ls (R.pt i) ⟨morePos ls ls' ι p, h.pos_lt p.2⟩ := by
    intro p
    simp only [vmapCross, h.locate p.2, (h.vLine p.2).1]
  rcases lt_or_ge (i : ℕ) R.con.n with hi | hi
  · rw [r3 i hi] at hv
    rw [r3' i hi] at hv'
    refine cSqrt_mono ?_ hv hv'
    exact predErr_more (L := fun _ (c : Fin 0) => c.elim0) (L' := fun _ (c : Fin 0) => c.elim0) (l := fun c => c.elim0)
      (l' := fun c => c.elim0) (fun p : Fin (totalN ls') => ⟨morePos ls ls' ι p, h.pos_lt p.2⟩)
      _ (fun p => sub_nonneg.2 (h.vNoise_le p)) h.vmapCov rfl (fun _ c => c.elim0) (fun c => c.elim0) hcross
      ⟨fun p => by simp [Matrix.mulVec, dotProduct], fun w' _ hw => hV i w' hw⟩ (fun p => by simp [Matrix.mulVec, dotProduct])
  · rw [r2 i hi] at hv
    rw [r2' i hi] at hv'
    refine cSqrt_mono ?_ hv hv'
    refine predErr_more (fun p : Fin (totalN ls') => ⟨morePos ls ls' ι p, h.pos_lt p.2⟩)
      _ (fun p => sub_nonneg.2 (h.vNoise_le p)) h.vmapCov (by rw [h.len]) (fun p c => ?_) (fun c => ?_) hcross (hW i) (hW' i).1
    · simp only [vmapBasisMat, vmapBasis, h.locate p.2, (h.vLine p.2).1, Fin.val_cast]
    · simp only [vmapBasis, Fin.val_cast]

/-! ### Where it fails -/

/-- One measurement, with error 1. -/
def oneMeas : LC := ⟨1, fun _ => 0, fun _ => 0, fun _ => 1, 1⟩

/-- A second one at the same time, with error 9. -/
noncomputable def twoMeas : LC := ⟨2, fun _ => 0, fun _ => 0, fun i => if i = 0 then 1 else 9, 5⟩

theorem meas_mean : errorMean [((0 : ℝ), (0 : ℝ), (1 : ℝ))] = oneMeas.em ∧
    errorMean [((0 : ℝ), (0 : ℝ), (1 : ℝ)), (0, 0, 9)] = twoMeas.em := by
  constructor <;> norm_num [errorMean, meanC, oneMeas, twoMeas]

/-- C138 fails: the systematic error is a multiple of the mean of the measurement errors, so that a further, poor measurement makes
the reconstruction less certain.  Here the systematic error is the mean measurement error (parameter log 2), the continuum has
standard deviation 1, and the error at the time of the measurement, for any damping timescale, grows from less than 0.82 to more
than 0.94. -/
theorem C138_fails {tau : ℝ} (ht : 0 < tau) (pm : ℕ → ℝ) (hp : pm 0 = Real.log 2) (memP memU : ℕ → ℝ) :
    errorMean [((0 : ℝ), (0 : ℝ), (1 : ℝ))] = oneMeas.em ∧
    errorMean [((0 : ℝ), (0 : ℝ), (1 : ℝ)), (0, 0, 9)] = twoMeas.em ∧
    ∃ r r' : Recon 0 1, conRec 0 1 tau (pmSyserr pm 0 twoMeas.em) twoMeas 1 (fun _ => 0) memP memU = .ok r ∧
      conRec 0 1 tau (pmSyserr pm 0 oneMeas.em) oneMeas 1 (fun _ => 0) memP memU = .ok r' ∧
      ∃ v v', r.err 0 = some v ∧ r'.err 0 = some v' ∧ v' < 0.82 ∧ 0.94 < v := by
  have s2 : pmSyserr pm 0 twoMeas.em = 5 := by
    simp only [pmSyserr, hp, twoMeas, Real.exp_log (by norm_num : (0 : ℝ) < 2)]; norm_num
  have s1 : pmSyserr pm 0 oneMeas.em = 1 := by
    simp only [pmSyserr, hp, oneMeas, Real.exp_log (by norm_num : (0 : ℝ) < 2)]; norm_num
  rw [s1, s2]
  obtain ⟨W, hW, h⟩ := C38_con (nq := 0) (m := 1) (sigma := 1) (tau := tau) (syserr := 5) (d := twoMeas) (trec := fun _ => 0)
    one_pos ht ⟨fun i _ => le_rfl, Or.inl fun i _ => by nlinarith [mul_self_nonneg (twoMeas.fe i)]⟩ ⟨fun k => k.elim0, fun k => k.elim0⟩
  obtain ⟨W', hW', h'⟩ := C38_con (nq := 0) (m := 1) (sigma := 1) (tau := tau) (syserr := 1) (d := oneMeas) (trec := fun _ => 0)
    one_pos ht ⟨fun i _ => le_rfl, Or.inl fun i _ => by nlinarith [mul_self_nonneg (oneMeas.fe i)]⟩ ⟨fun k => k.elim0, fun k => k.elim0⟩
  obtain ⟨r, r1, _, _, r2, _⟩ := h twoMeas.f memP memU memU
  obtain ⟨r', r1', _, _, r2', _⟩ := h' oneMeas.f memP memU memU
  refine ⟨meas_mean.1, meas_mean.2, r, r', r1, r1', _, _, (r2 0).2, (r2' 0).2, ?_, ?_⟩
  · have e1 : ∀ w : Fin 1 → ℝ, predErr (conDataCov 1 tau 1 oneMeas) (conCross 1 tau oneMeas 0) (1 ^ 2) w =
        1 - 2 * w 0 + 3 * w 0 ^ 2 := by
      intro w
      change 1 ^ 2 - 2 * (∑ i : Fin 1, w i * conCross 1 tau oneMeas 0 i) +
        ∑ i : Fin 1, w i * ∑ j : Fin 1, conDataCov 1 tau 1 oneMeas i j * w j = _
      simp only [Fin.sum_univ_one, conCross, conDataCov, drwCov, oneMeas, sub_self, abs_zero, neg_zero, zero_div, mul_zero, Real.exp_zero, if_true]
      ring
    have e2 : predErr (conDataCov 1 tau 1 oneMeas) (conCross 1 tau oneMeas 0) (1 ^ 2) (W' 0) ≤ 2 / 3 := by
      have e3 := e1 fun _ => 1 / 3
      norm_num at e3
      by_cases he : (fun _ => 1 / 3 : Fin oneMeas.n → ℝ) = W' 0
      · rw [← he]
        norm_num
        exact e3.le
      · have := (hW' 0).2 _ (fun p => by simp [Matrix.mulVec, dotProduct]) he
        norm_num at this ⊢
        exact (this.trans_eq e3).le
    rw [Real.sqrt_lt' (by norm_num)]
    exact e2.trans_lt (by norm_num)
  · refine Real.lt_sqrt_of_sq_lt ?_
    have e1 : ∀ w : Fin 2 → ℝ, predErr (conDataCov 1 tau 5 twoMeas) (conCross 1 tau twoMeas 0) (1 ^ 2) w =
        1 - 2 * (w 0 + w 1) + (w 0 + w 1) ^ 2 + 26 * w 0 ^ 2 + 106 * w 1 ^ 2 := by
      intro w
      change 1 ^ 2 - 2 * (∑ i : Fin 2, w i * conCross 1 tau twoMeas 0 i) +
        ∑ i : Fin 2, w i * ∑ j : Fin 2, conDataCov 1 tau 5 twoMeas i j * w j = _
      simp [Fin.sum_univ_two, conCross, conDataCov, drwCov, twoMeas]
      ring
    refine lt_of_lt_of_eq ?_ (e1 (W 0)).symm
    nlinarith [sq_nonneg (27 * W 0 (0 : Fin 2) + W 0 (1 : Fin 2) - 1), sq_nonneg (107 * W 0 (1 : Fin 2) + W 0 (0 : Fin 2) - 1),
      sq_nonneg (W 0 (0 : Fin 2) - 4 * W 0 (1 : Fin 2))]

/-! ### The hypotheses can be met -/

/-- Three continuum points and two of a line. -/
noncomputable def moreSet : DSet :=
  ⟨⟨3, fun i => i, fun i => i, fun _ => 1, 1⟩, [⟨2, fun i => 5 * i, fun i => i, fun _ => 1, 1⟩]⟩

/-- The same without the second continuum point, and with larger errors of the line. -/
noncomputable def lessSet : DSet :=
  ⟨⟨2, fun i => 2 * i, fun i => i, fun _ => 1, 1⟩, [⟨2, fun i => 5 * i, fun i => i, fun _ => 2, 2⟩]⟩

theorem lessSet_more (c : ℕ → ℝ) : MoreData moreSet.series lessSet.series c (fun s i => if s = 0 then 2 * i else i) where
  len := rfl
  mono := by
    intro s a' _ i j hij _
    split <;> omega
  get := by
    intro s a a' ha ha' i hi
    rcases s with _ | _ | s
    · obtain rfl := Option.some.inj ha
      obtain rfl := Option.some.inj ha'
      simp only [lessSet, moreSet] at hi ⊢
      refine ⟨by simp; omega, by simp, le_rfl⟩
    · obtain rfl := Option.some.inj ha
      obtain rfl := Option.some.inj ha'
      simp only [lessSet, moreSet] at hi ⊢
      refine ⟨by simpa using hi, by simp, ?_⟩
      nlinarith [sq_nonneg (c (0 + 1))]
    · simp [moreSet, DSet.series] at ha

example (R : DSet) (hR : R.line.length = 1) (f : Fin moreSet.nall → ℝ) (f' : Fin lessSet.nall → ℝ) :
    ∃ r r', lineRecs mixEnv.kernels 1 moreSet R mixEnv.pm mixEnv.idxc mixEnv.idxl f (fun _ => 0) (fun _ => 0) (fun _ => 0) = (.ok r, r, r) ∧
      lineRecs mixEnv.kernels 1 lessSet R mixEnv.pm mixEnv.idxc mixEnv.idxl f' (fun _ => 0) (fun _ => 0) (fun _ => 0) = (.ok r', r', r') ∧
      ∀ i, ∃ v v', r.err i = some v ∧ r'.err i = some v' ∧ 0 ≤ v ∧ v ≤ v' := by
  refine C138_transfer_partial (lessSet_more _) (by simp [lessSet]) (mixEnv_far _) (by rw [hR]; simp [moreSet])
    ⟨fun i _ => by simp [moreSet], Or.inr fun i _ => by simp [moreSet]⟩
    ⟨fun i _ => by simp only [moreSet]; positivity, fun j a ha i _ => ?_⟩
    ⟨fun i _ => by simp [lessSet], Or.inr fun i _ => by simp [lessSet]⟩
    ⟨fun i _ => by simp only [lessSet]; positivity, fun j a ha i _ => ?_⟩ (fun a ha => ?_) f f' _ _ _ _ _ _
  · rcases j with _ | j
    · rw [← Option.some.inj ha]; positivity
    · simp [moreSet] at ha
  · rcases j with _ | j
    · rw [← Option.some.inj ha]; positivity
    · simp [lessSet] at ha
  · refine ⟨fun _ => ⟨0, ?_⟩, fun x y _ => Subsingleton.elim (α := Fin 1) x y⟩
    simp only [DSet.series, lessSet, List.mem_cons, List.not_mem_nil, or_false] at ha
    rcases ha with rfl | rfl <;> norm_num

/-- Continuum alone: three points instead of two. -/
example (trec : ℕ → ℝ) : ∃ r r' : Recon 2 7, conRec 2 3 5 0 moreSet.con 7 trec (fun _ => 0) (fun _ => 0) = .ok r ∧
    conRec 2 3 5 0 lessSet.con 7 trec (fun _ => 0) (fun _ => 0) = .ok r' ∧
    ∀ i, ∃ v v', r.err i = some v ∧ r'.err i = some v' ∧ v ≤ v' := by
  obtain ⟨r, r', h1, _, h2, _, h3⟩ := C138_con_partial (nq := 2) (m := 7) (sigma := 3) (tau := 5) (syserr := 0) (syserr' := 0) (trec := trec)
    (d := moreSet.con) (d' := lessSet.con) (by norm_num) (by norm_num)
    ⟨fun i _ => by simp [moreSet], Or.inr fun i _ => by simp [moreSet]⟩ ⟨fun i _ => by simp [lessSet], Or.inr fun i _ => by simp [lessSet]⟩
    ⟨fun k => k, fun a b hab => by simpa [lessSet, Fin.ext_iff] using hab⟩ (fun i => 2 * i) (fun i _ j _ h => by simpa using h)
    (fun i hi => ⟨by simp only [lessSet, moreSet] at hi ⊢; omega, by simp [lessSet, moreSet], le_rfl⟩)
    (fun _ => 0) (fun _ => 0) (fun _ => 0) (fun _ => 0)
  exact ⟨r, r', h1, h2, fun i => (h3 i).imp fun v h => h.imp fun v' h => ⟨h.1, h.2.1, h.2.2.2.1⟩⟩

/-- Virtual continuum: a second measurement in the first of two lines. -/
example (f : Fin (totalN [moreSet.con, vOne]) → ℝ) (f' : Fin (totalN [lessSet.con, vOne]) → ℝ) (R : DSet) :
    let e := vmapEnv 1 1 false (fun _ => .gauss) (fun i => i) (fun _ => 0) (fun _ j => 3 + 4 * j) (fun _ => 0)
    ∃ r r', vmapRec (e.K 0) e.nq [moreSet.con, vOne] R e.pm (e.idxc 0) (e.idxl 0) f (fun _ => 0) (fun _ => 0) (fun _ => 0) = .ok r ∧
      vmapRec (e.K 0) e.nq [lessSet.con, vOne] R e.pm (e.idxc 0) (e.idxl 0) f' (fun _ => 0) (fun _ => 0) (fun _ => 0) = .ok r' ∧
      ∀ i v v', r.err i = some v → r'.err i = some v' → v ≤ v' := by
  intro e
  have hpd : ∀ a : LC, a = moreSet.con ∨ a = lessSet.con → (vmapCov e 0 [a, vOne]).PosDef := by
    intro a ha
    refine vmap_posDef 1 1 false _ _ _ _ _ 0 _ ?_ ?_
    · intro j _ m _
      exact ⟨by simp [FarC], fun j' _ k' _ => by simp [FarL]⟩
    · intro j b hb i _
      have : b = a ∨ b = vOne := by simpa using List.mem_of_getElem? hb
      rcases this with rfl | rfl
      · rcases ha with rfl | rfl <;> simp only [moreSet, lessSet] <;> positivity
      · simp only [vOne]; positivity
  refine C138_vmap_partial e 0 [moreSet.con, vOne] [lessSet.con, vOne] R (ι := fun s i => if s = 0 then 2 * i else i) ⟨rfl, ?_, ?_⟩ (hpd moreSet.con (Or.inl rfl))
    (hpd lessSet.con (Or.inr rfl)) ?_ f f' _ _ _ _ _ _
  · intro s a' _ i j hij _
    split <;> omega
  · intro s a a' ha ha' i hi
    rcases s with _ | _ | s
    · obtain rfl := Option.some.inj ha
      obtain rfl := Option.some.inj ha'
      simp only [lessSet, moreSet] at hi ⊢
      refine ⟨by simp; omega, by simp, le_rfl⟩
    · obtain rfl := Option.some.inj ha
      obtain rfl := Option.some.inj ha'
      exact ⟨by simpa using hi, by simp, by simp⟩
    · simp at ha
  · intro a ha
    refine ⟨fun _ => ⟨0, ?_⟩, fun x y _ => Subsingleton.elim (α := Fin 1) x y⟩
    simp only [List.mem_cons, List.not_mem_nil, or_false] at ha
    rcases ha with rfl | rfl
    · simp [lessSet]
    · simp [vOne]

end Mica
