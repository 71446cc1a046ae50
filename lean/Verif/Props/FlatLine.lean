import Verif.Proof.FlatLine
import Verif.Proof.Workspace
import Verif.Props.Kernel

/-!
# C108: The likelihood of continuum and lines depends on nothing left in memory

The likelihood used for sampling is computed piece by piece in shared arrays that still hold whatever earlier calls and earlier
data sets left there; the sizes of the light curves are kept as `int`s in the same array of doubles.
-/

namespace Mica

open Matrix

/-- `nall_max`. -/
def nallMax (ds : List DSet) : ℕ := (maxima (ds.map fun d => ⟨d.con.n, d.line.map LC.n⟩)).nall

/-- `nlset_max`. -/
def nlsetMax (ds : List DSet) : ℕ := (maxima (ds.map fun d => ⟨d.con.n, d.line.map LC.n⟩)).nlset

/-- What is assumed of the data: no empty light curve, not more trend coefficients than continuum points, and a covariance that
can be inverted. -/
def LineFlatOK (e : LineEnv) (ds : List DSet) : Prop :=
  ∀ (k : ℕ) d, ds[k]? = some d → e.nq ≤ d.con.n ∧ (∀ a ∈ d.line, 0 < a.n) ∧
    ConOK d.con ((Real.exp (e.pm (e.idxc k)) - 1) * d.con.em) ∧ (d.cov (e.K k) e.pm (e.idxc k) (e.idxl k)).PosDef

theorem linePtrs_laid {sz : Arr → ℕ} {nq nmax lmax n l : ℕ} (hn : n ≤ nmax) (hl : l ≤ lmax)
    (hw : nmax * ((1 + lmax) * nq) + nmax * ((1 + lmax) * nq) + nmax + (1 + lmax) * nq + ((1 + lmax) * nq) * ((1 + lmax) * nq) +
      nmax + nmax + nmax + nmax + (l + 2) / 2 ≤ sz (.sh .workspace)) :
    (linePtrs nq nmax lmax).Laid sz n (nq * (1 + l)) l := by
  have m0 : nq * (1 + l) ≤ (1 + lmax) * nq := by rw [Nat.mul_comm]; exact Nat.mul_le_mul_right _ (by omega)
  have m1 : n * (nq * (1 + l)) ≤ nmax * ((1 + lmax) * nq) := Nat.mul_le_mul hn m0
  have m2 : nq * (1 + l) * (nq * (1 + l)) ≤ (1 + lmax) * nq * ((1 + lmax) * nq) := Nat.mul_le_mul m0 m0
  constructor <;> first | rfl | (simp only [linePtrs, DPtr.plus]; omega)

theorem fLineLoop_spec {E : IntCells} {sz : Arr → ℕ} {P : LinePtrs} {e : LineEnv} (hq : 0 < e.nq) (ds : List DSet) :
    ∀ (k : ℕ) (prob : ℝ) (M : Mem),
      (∀ (i : ℕ) (d : DSet), ds[i]? = some d → 0 < d.con.n ∧ (∀ a ∈ d.line, 0 < a.n) ∧
        P.Laid sz d.nall (e.nq * (1 + d.line.length)) d.line.length ∧
        d.nall ≤ sz (.sh .ipiv) ∧ e.nq * (1 + d.line.length) ≤ sz (.sh .ipiv) ∧
        2 * (d.nall * d.nall) ≤ sz (.sh .inv) ∧ d.nall * d.nall ≤ sz (.sh .pcmat)) →
      (∀ (i : ℕ) (d : DSet), ds[i]? = some d → d.nall ≤ sz (.fall (k + i)) ∧ ∀ l < d.nall, M (.fall (k + i)) l = d.fall l) →
      (∀ (i : ℕ) (d : DSet), ds[i]? = some d → ConOK d.con (pmSyserr e.pm (e.idxc (k + i)) d.con.em) ∧
        (d.cov (e.K (k + i)) e.pm (e.idxc (k + i)) (e.idxl (k + i))).PosDef) →
      ∃ v, fLineLoop E sz P e ds k prob M = .ok (some v) ∧
        probLineLoop (fun k d => lineTerm4 e.nq d e.pm (e.idxc k) (e.PC k d)) ds k prob = .ok v := by
  induction ds with
  | nil => intro k prob M _ _ _; exact ⟨prob, rfl, rfl⟩
  | cons d ds ih =>
    intro k prob M hd hf hc
    obtain ⟨g1, g2, g3, g4, g5, g6, g7⟩ := hd 0 d rfl
    have f0 := hf 0 d rfl
    have c0 := hc 0 d rfl
    rw [Nat.add_zero] at f0 c0
    rw [fLineLoop, probLineLoop, LineEnv.PC, PCarr_eq]
    rcases fLineTerm_spec (E := E) (k := k) (M := M) hq g1 g2 g3 g4 g5 g6 g7 f0.1 f0.2 c0.1 c0.2 with
      ⟨h1, h2⟩ | ⟨v, M', h1, h2, h3⟩
    · rw [h1, h2]
      exact ⟨_, rfl, rfl⟩
    · rw [h1, h2, thenO_some, Res.ok_bind]
      dsimp only
      refine ih (k + 1) (prob + v) M' (fun i d' h => hd (i + 1) d' (by simpa using h)) (fun i d' h => ?_) (fun i d' h => ?_)
      · have := hf (i + 1) d' (by simpa using h)
        rw [show k + 1 + i = k + (i + 1) by omega]
        exact ⟨this.1, fun l hl => (h3 _ _ (by simp)).trans (this.2 l hl)⟩
      · have := hc (i + 1) d' (by simpa using h)
        rw [show k + 1 + i = k + (i + 1) by omega]
        exact this

/-- **C108.** For every content of the work arrays and every layout of `int`s in them the likelihood used for sampling is computed
without touching an element outside of an array or handing overlapping pieces to a library routine, and its value is the one
given by the formula (in which no memory occurs). -/
theorem C108_line (E : IntCells) (e : LineEnv) (ds : List DSet) (M : Mem) (h1 : 1 ≤ e.nq) (hd : LineFlatOK e ds)
    (hf : HoldsFlux ds M) :
    ∃ v, fProbLine E (memSizes e.nq ds) (nallMax ds) (nlsetMax ds) e ds M = .ok (some v) ∧ probLine4 e ds = .ok v := by
  unfold fProbLine probLine4
  refine fLineLoop_spec (by omega) ds 0 0 M (fun i d hi => ?_) (fun i d hi => ?_) (fun i d hi => ?_)
  · obtain ⟨c1, c2, -, -⟩ := hd i d hi
    have hd' : (⟨d.con.n, d.line.map LC.n⟩ : DSize) ∈ ds.map fun d => (⟨d.con.n, d.line.map LC.n⟩ : DSize) :=
      List.mem_map.2 ⟨d, List.mem_of_getElem? hi, rfl⟩
    obtain ⟨-, -, f3, f4, f5, -⟩ := maxima_fits hd'
    unfold nallMax nlsetMax memSizes
    dsimp only
    simp only [DSize.all, DSize.nl, List.length_map, ← totalN_eq_sum] at f3 f4 f5
    have hall : d.con.n + totalN d.line = d.nall := rfl
    rw [hall] at f3
    generalize maxima (ds.map fun d => (⟨d.con.n, d.line.map LC.n⟩ : DSize)) = m at *
    have hexp := ws_expand e.nq m
    have hns : e.nq ≤ wsCols e.nq m := Nat.le_mul_of_pos_left _ (by omega)
    have hsq : d.nall * d.nall ≤ m.nall * m.nall := Nat.mul_le_mul f3 f3
    have hrec : e.nq * (1 + d.line.length) ≤ m.nrec := by
      have := Nat.mul_le_mul_right (1 + d.line.length) c1
      omega
    have hrec2 : d.line.length + 1 ≤ m.nrec := by
      have := Nat.mul_le_mul_right (1 + d.line.length) h1
      omega
    have hrw : m.nrec ≤ m.nrec * wsCols e.nq m := Nat.le_mul_of_pos_right _ (by omega)
    refine ⟨by omega, c2, linePtrs_laid f3 f4 ?_, ?_, ?_, ?_, ?_⟩
    · show _ ≤ sharedSize e.nq m .workspace
      rw [hexp]
      show m.nall * wsCols e.nq m + m.nall * wsCols e.nq m + m.nall + wsCols e.nq m + wsCols e.nq m * wsCols e.nq m +
        m.nall + m.nall + m.nall + m.nall + (d.line.length + 2) / 2 ≤ _
      omega
    · simp only [sharedSize]; split <;> omega
    · simp only [sharedSize]; split <;> omega
    · simp only [sharedSize]
      have : 3 * m.nall * m.nall = 3 * (m.nall * m.nall) := by ring
      omega
    · simp only [sharedSize]; omega
  · rw [Nat.zero_add]
    exact ⟨by simp [memSizes, hi], (hf i d hi).2⟩
  · rw [Nat.zero_add]
    exact ⟨(hd i d hi).2.2.1, (hd i d hi).2.2.2⟩

/-- **C108.** Two calls with the same parameters give the same value, whatever was computed in between. -/
theorem C108_leftovers (E : IntCells) (e : LineEnv) (ds : List DSet) (M M' : Mem) (h1 : 1 ≤ e.nq) (hd : LineFlatOK e ds)
    (hf : HoldsFlux ds M) (hk : ∀ k i, M' (.flux k) i = M (.flux k) i ∧ M' (.fall k) i = M (.fall k) i) :
    fProbLine E (memSizes e.nq ds) (nallMax ds) (nlsetMax ds) e ds M =
      fProbLine E (memSizes e.nq ds) (nallMax ds) (nlsetMax ds) e ds M' := by
  have hf' : HoldsFlux ds M' := by
    intro k d hd
    exact ⟨fun i hi => ((hk k i).1).trans ((hf k d hd).1 i hi), fun i hi => ((hk k i).2).trans ((hf k d hd).2 i hi)⟩
  obtain ⟨v, e1, g1⟩ := C108_line E e ds M h1 hd hf
  obtain ⟨v', e2, g2⟩ := C108_line E e ds M' h1 hd hf'
  rw [g1] at g2
  cases g2
  rw [e1, e2]

theorem EnoughTimes.le {d : LC} {nq : ℕ} (h : EnoughTimes d nq) : nq ≤ d.n := by
  obtain ⟨f, hf⟩ := h
  have := Fintype.card_le_of_injective f fun a b hab => hf (by beta_reduce; rw [hab])
  simpa using this

/-- The conditions under which the value is known are stronger. -/
theorem LineDataOK.flat {e : LineEnv} {ds : List DSet} (h1 : 1 ≤ e.nq) (h : LineDataOK e ds) : LineFlatOK e ds := by
  intro k d hd
  obtain ⟨g1, g2, g3⟩ := h k d hd
  refine ⟨(g2 d.con (by simp [DSet.series])).le, fun a ha => ?_, g1, g3⟩
  have := (g2 a (by simp [DSet.series, ha])).le
  omega

/-- **C108.** If every data set has a line and enough different times, the value is that of the variants which treat the matrix as
a whole, the sum of the marginal likelihoods. -/
theorem C108_value (E : IntCells) (e : LineEnv) (ds : List DSet) (M : Mem) (h1 : 1 ≤ e.nq) (hd : LineDataOK e ds) (hl : ∀ d ∈ ds, d.line ≠ []) (hf : HoldsFlux ds M) :
    fProbLine E (memSizes e.nq ds) (nallMax ds) (nlsetMax ds) e ds M =
      .ok (some (ds.mapIdx fun k d => margLL (lineCov e k d) (d.trend e.nq) (fun i => d.fall i)).sum) := by
  obtain ⟨v, e1, g1⟩ := C108_line E e ds M h1 (hd.flat h1) hf
  rw [line_value4_lines e ds hd hl] at g1
  cases g1
  exact e1

/-- There is a layout of pairs of numbers in a number. -/
noncomputable def exampleCells : IntCells where
  put h v x := if h then (Nat.pair (Nat.unpair ⌊x⌋₊).1 v : ℕ) else (Nat.pair v (Nat.unpair ⌊x⌋₊).2 : ℕ)
  get h x := if h then (Nat.unpair ⌊x⌋₊).2 else (Nat.unpair ⌊x⌋₊).1
  get_put h v x := by cases h <;> simp
  get_put_other h v x := by cases h <;> simp

/-- The data set with a line and the three kinds of transfer functions, twice, in memory full of sevens apart from the
fluxes. -/
example : ∃ (e : LineEnv) (M : Mem), LineDataOK e [exSet, exSet] ∧ 1 ≤ e.nq ∧ (∀ d ∈ [exSet, exSet], d.line ≠ []) ∧
    HoldsFlux [exSet, exSet] M ∧ ∀ b x, M (.sh b) x = 7 := by
  refine ⟨_, fun A x => match A with
    | .sh _ => 7
    | .flux k => ([exSet, exSet][k]?.map fun d => d.con.f x).getD 0
    | .fall k => ([exSet, exSet][k]?.map fun d => d.fall x).getD 0, exTransferOK.lineDataOK, le_rfl, by simp [exSet], ?_,
    fun _ _ => rfl⟩
  intro k d hd
  simp [hd]

end Mica
