import Verif.Proof.KernelMean
import Verif.Props.Like

/-!
# Covariance functions of the transfer functions: C30-C36, C61
-/

namespace Mica
open MeasureTheory Set Filter Topology Matrix

/-- The transfer function of line `j`: the sum of its components, each a unit-area profile times its
amplitude.  Component `k` has three parameters from index `idxl j + 1 + 3k` on: amplitude (its logarithm
unless amplitudes may have either sign), lag and logarithm of the width. -/
noncomputable def transfer (e : KEnv) (j : ℕ) (s : ℝ) : ℝ :=
  ∑ k ∈ Finset.range e.ng,
    (if e.lin then e.pm (e.idxl j + 1 + 3 * k) else Real.exp (e.pm (e.idxl j + 1 + 3 * k))) *
      tfDens (e.typ k) (e.pm (e.idxl j + 1 + 3 * k + 1)) (Real.exp (e.pm (e.idxl j + 1 + 3 * k + 2))) s

theorem transfer_comp (e : KEnv) (j : ℕ) : transfer e j = fun s =>
    ∑ k ∈ Finset.range e.ng, (e.comp j k).f * tfDens (e.typ k) (e.comp j k).c (e.comp j k).w s := rfl

theorem covLC_transfer (e : KEnv) (j : ℕ) (x : ℝ) : covLC e.taud (transfer e j) x =
    ∑ k ∈ Finset.range e.ng, (e.comp j k).f * covLC e.taud (tfDens (e.typ k) (e.comp j k).c (e.comp j k).w) x := by
  rw [transfer_comp]
  unfold covLC
  simp only [Finset.sum_mul]
  rw [integral_finsetSum]
  · refine Finset.sum_congr rfl fun k _ => ?_
    rw [← integral_const_mul]
    congr 1; ext s; ring
  · intro k _
    have := (covLC_integrable e.taud_pos (tfDens_integrable (e.typ k) (e.comp j k).c (e.w_pos j k)) x).const_mul (e.comp j k).f
    refine this.congr (Eventually.of_forall fun s => ?_)
    simp only; ring

theorem covLL_transfer (e : KEnv) (j l : ℕ) (x : ℝ) : covLL e.taud (transfer e j) (transfer e l) x =
    ∑ k ∈ Finset.range e.ng, ∑ k' ∈ Finset.range e.ng, (e.comp j k).f * (e.comp l k').f *
      covLL e.taud (tfDens (e.typ k) (e.comp j k).c (e.comp j k).w) (tfDens (e.typ k') (e.comp l k').c (e.comp l k').w) x := by
  rw [transfer_comp, transfer_comp]
  unfold covLL
  have hI : ∀ k k', Integrable fun p : ℝ × ℝ =>
      (e.comp j k).f * tfDens (e.typ k) (e.comp j k).c (e.comp j k).w p.1 *
        ((e.comp l k').f * tfDens (e.typ k') (e.comp l k').c (e.comp l k').w p.2) *
        Real.exp (-|x - p.1 + p.2| / e.taud) := by
    intro k k'
    have := (covLL_integrable e.taud_pos (tfDens_integrable (e.typ k) (e.comp j k).c (e.w_pos j k))
      (tfDens_integrable (e.typ k') (e.comp l k').c (e.w_pos l k')) x).const_mul ((e.comp j k).f * (e.comp l k').f)
    refine this.congr (Eventually.of_forall fun s => ?_)
    simp only; ring
  rw [show (fun p : ℝ × ℝ => _) = _ from funext fun p => by rw [Finset.sum_mul_sum, Finset.sum_mul]]
  simp only [Finset.sum_mul]
  rw [integral_finsetSum]
  · refine Finset.sum_congr rfl fun k _ => ?_
    rw [integral_finsetSum]
    · refine Finset.sum_congr rfl fun k' _ => ?_
      rw [← integral_const_mul]
      congr 1; ext s; ring
    · exact fun k' _ => hI k k'
  · exact fun k _ => integrable_finsetSum _ fun k' _ => hI k k'

/-- Continuum-line and line-line covariances of lines below `J` are the convolution integrals. -/
def KEnv.Conv (e : KEnv) (J : ℕ) : Prop :=
  (∀ j < J, ∀ tcon tline, e.slc tcon tline j = ∫ s, transfer e j s *
      Real.exp (-|tline - s - tcon| / Real.exp (e.pm (e.idxc + 2)))) ∧
  (∀ j < J, ∀ t1 t2, e.sll t1 t2 j = ∫ p : ℝ × ℝ, transfer e j p.1 * transfer e j p.2 *
      Real.exp (-|(t1 - p.1) - (t2 - p.2)| / Real.exp (e.pm (e.idxc + 2)))) ∧
  (∀ j < J, ∀ l < J, ∀ t1 t2, e.sll2 t1 t2 j l = ∫ p : ℝ × ℝ, transfer e j p.1 * transfer e l p.2 *
      Real.exp (-|(t1 - p.1) - (t2 - p.2)| / Real.exp (e.pm (e.idxc + 2))))

theorem KEnv.Far.conv {e : KEnv} {J : ℕ} (h : e.Far J) : e.Conv J := by
  have h2 : ∀ j < J, ∀ l < J, ∀ t1 t2, e.sll2 t1 t2 j l = ∫ p : ℝ × ℝ, transfer e j p.1 * transfer e l p.2 *
      Real.exp (-|(t1 - p.1) - (t2 - p.2)| / e.taud) := by
    intro j hj l hl t1 t2
    rw [e.sll2_eq h hj hl, ← covLL_transfer, covLL]
    congr 1; ext p
    rw [show t1 - t2 - p.1 + p.2 = t1 - p.1 - (t2 - p.2) by ring]
  refine ⟨fun j hj tcon tline => ?_, fun j hj => h2 j hj j hj, h2⟩
  rw [e.slc_eq h hj, ← covLC_transfer, covLC]
  congr 1; ext s
  rw [show tline - tcon - s = tline - s - tcon by ring]; rfl

/-! ### C31 to C34 -/

/-- C31: top-hat transfer functions, every branch, no condition. -/
theorem C31_tophat (e : KEnv) (h : ∀ k < e.ng, e.typ k = .tophat) (J : ℕ) : e.Conv J := by
  refine KEnv.Far.conv fun j hj k hk => ⟨?_, fun j' hj' k' hk' => ?_⟩
  · simp [FarC, h k hk]
  · simp [FarL, h k hk, h k' hk']

/-- C32: Gaussian transfer functions, no condition. -/
theorem C32_gauss (e : KEnv) (h : ∀ k < e.ng, e.typ k = .gauss) (J : ℕ) : e.Conv J := by
  refine KEnv.Far.conv fun j hj k hk => ⟨?_, fun j' hj' k' hk' => ?_⟩
  · simp [FarC, h k hk]
  · simp [FarL, h k hk, h k' hk']

/-- C33: exponential transfer functions whose timescales equal the damping timescale or differ from it by at
least the fraction `EPS` = 1e-5. -/
theorem C33_exp (e : KEnv) (h : ∀ k < e.ng, e.typ k = .exp) (J : ℕ)
    (hf : ∀ j < J, ∀ k < e.ng, (e.comp j k).w = e.taud ∨ 1 / 100000 ≤ |(e.taud - (e.comp j k).w) / e.taud|) : e.Conv J := by
  refine KEnv.Far.conv fun j hj k hk => ⟨?_, fun j' hj' k' hk' => ?_⟩
  · intro _; exact hf j hj k hk
  · rw [FarL, if_pos (by rw [h k hk, h k' hk'])]
    intro _; exact ⟨hf j hj k hk, hf j' hj' k' hk'⟩

/-- C34: gamma transfer functions, under the same condition. -/
theorem C34_gamma (e : KEnv) (h : ∀ k < e.ng, e.typ k = .gamma) (J : ℕ)
    (hf : ∀ j < J, ∀ k < e.ng, (e.comp j k).w = e.taud ∨ 1 / 100000 ≤ |(e.taud - (e.comp j k).w) / e.taud|) : e.Conv J := by
  refine KEnv.Far.conv fun j hj k hk => ⟨?_, fun j' hj' k' hk' => ?_⟩
  · intro _; exact hf j hj k hk
  · rw [FarL, if_pos (by rw [h k hk, h k' hk'])]
    intro _; exact ⟨hf j hj k hk, hf j' hj' k' hk'⟩

/-! ### C35 -/

/-- C35: any mixture of types, provided no timescale of an exponential or gamma component is in the band
around the damping timescale where the code switches to the limiting formula without being equal to it
(missing: the band, where the formulas are only approximate, see `C35_band`). -/
theorem C35_mixture_partial (e : KEnv) (J : ℕ)
    (hf : ∀ j < J, ∀ k < e.ng, e.typ k = .gamma ∨ e.typ k = .exp →
      (e.comp j k).w = e.taud ∨
        1 / 100000 ≤ |(e.taud - (e.comp j k).w) / e.taud| ∧ 1 / 100000 < |e.taud - (e.comp j k).w|) : e.Conv J := by
  have h1 : ∀ j < J, ∀ k < e.ng, e.typ k = .gamma ∨ e.typ k = .exp →
      FarRel e.taud (e.comp j k).w ∧ FarAbs e.taud (e.comp j k).w := by
    intro j hj k hk ht
    rcases hf j hj k hk ht with h | h
    · exact ⟨Or.inl h, Or.inl h⟩
    · exact ⟨Or.inr h.1, Or.inr h.2⟩
  refine KEnv.Far.conv fun j hj k hk => ⟨fun ht => (h1 j hj k hk ht).1, fun j' hj' k' hk' => ?_⟩
  unfold FarL
  split
  · rename_i hT
    exact fun ht => ⟨(h1 j hj k hk ht).1, (h1 j' hj' k' hk' (by rwa [hT] at ht)).1⟩
  · exact ⟨fun ht => (h1 j hj k hk ht).2, fun ht => (h1 j' hj' k' hk' ht).2⟩

/-- C35: each pair of types by itself: the covariance function is the double integral of the damped random
walk over the two profiles, in the order in which the table lists them, with the conditions that pair needs. -/
theorem C35_pair_partial (T T' : TF) {t : ℝ} (ht : 0 < t) {a b : Comp} (hw : 0 < a.w) (hv : 0 < b.w)
    (hf : FarL T T' t a.w b.w) (t1 t2 : ℝ) :
    fpSll T T' t a b (t1 - t2) = a.f * b.f * ∫ p : ℝ × ℝ, tfDens T a.c a.w p.1 * tfDens T' b.c b.w p.2 *
      Real.exp (-|(t1 - p.1) - (t2 - p.2)| / t) := by
  rw [fpSll_eq T T' ht hw hv hf, covLL]
  congr 2; ext p
  rw [show t1 - t2 - p.1 + p.2 = t1 - p.1 - (t2 - p.2) by ring]

/-- C35: exchanging two lines with components of different types transposes the covariance, exactly and for
all parameters. -/
theorem C35_swap (T T' : TF) (h : T ≠ T') (t : ℝ) (a b : Comp) (t1 t2 : ℝ) :
    fpSll T T' t a b (t1 - t2) = fpSll T' T t b a (t2 - t1) := by
  cases T <;> cases T' <;> simp only [ne_eq, reduceCtorEq, not_false_eq_true, not_true_eq_false] at h <;>
    simp only [fpSll, sllTopGau, sllTopGam, sllTopExp, sllGamGau, sllGamExp, sllExpGau, neg_sub]

/-- C35: inside the band the function is not the integral: exponential timescale `1 + 1/200000`, gamma
timescale `1`, damping timescale `1`. -/
theorem C35_band :
    sllExpGam 1 ⟨1, 1 + 1 / 200000, 1 + 1 / 200000⟩ ⟨1, 2, 1⟩ 0 ≠
      1 * 1 * covLL 1 (tfDens .exp (1 + 1 / 200000) (1 + 1 / 200000)) (tfDens .gamma 2 1) 0 := by
  rw [tfDens_exp, tfDens_gamma, covLL_shift one_pos (expd_integrable (by norm_num)) (gamd_integrable one_pos),
    covLL_expgam10 one_pos (by norm_num) (by norm_num)]
  have h1 : ¬ |(1 : ℝ) - (1 + 1 / 200000)| > kEPS := by
    unfold kEPS; rw [abs_of_nonpos (by norm_num)]; norm_num
  simp only [sllExpGam, pw]
  rw [if_pos (by norm_num), if_neg h1, if_pos (by norm_num)]
  eps
  norm_num

/-! ### C36 -/

theorem sllGamGam_mirror (t : ℝ) (a b : Comp) (D : ℝ) (h : D ≠ (a.c - 2 * a.w) - (b.c - 2 * b.w)) :
    sllGamGam t a b D = sllGamGam t b a (-D) := by
  obtain ⟨f, c, w⟩ := a
  obtain ⟨g, e, v⟩ := b
  simp only [sllGamGam] at h ⊢
  rw [show -D - (e - 2 * v - (c - 2 * w)) = -(D - (c - 2 * w - (e - 2 * v))) by ring]
  have hx : D - (c - 2 * w - (e - 2 * v)) ≠ 0 := sub_ne_zero.2 h
  generalize D - (c - 2 * w - (e - 2 * v)) = x at hx
  rw [add_comm v w]
  generalize (t + w) / t = p2
  generalize (t - w) / t = p1
  generalize (t + v) / t = p3
  generalize (t - v) / t = p4
  generalize (w + v) / v = p52
  generalize (w + v) / w = p51
  rcases lt_or_gt_of_ne hx with h | h
  · rw [if_pos h.le, if_neg (show ¬ -x ≤ 0 by linarith), neg_neg]
    split <;> ring
  · rw [if_neg (show ¬ x ≤ 0 by linarith), if_pos (show -x ≤ 0 by linarith)]
    split <;> ring

theorem sllExpExp_mirror (t : ℝ) (a b : Comp) (D : ℝ) (h : D ≠ (a.c - a.w) - (b.c - b.w)) :
    sllExpExp t a b D = sllExpExp t b a (-D) := by
  obtain ⟨f, c, w⟩ := a
  obtain ⟨g, e, v⟩ := b
  simp only [sllExpExp] at h ⊢
  rw [show -D - (e - v - (c - w)) = -(D - (c - w - (e - v))) by ring]
  have hx : D - (c - w - (e - v)) ≠ 0 := sub_ne_zero.2 h
  generalize D - (c - w - (e - v)) = x at hx
  rw [add_comm v w]
  generalize (t + w) / t = p2
  generalize (t - w) / t = p1
  generalize (t + v) / t = p3
  generalize (t - v) / t = p4
  generalize (w + v) / v = p52
  generalize (w + v) / w = p51
  rcases lt_or_gt_of_ne hx with h | h
  · rw [if_pos h.le, if_neg (show ¬ -x ≤ 0 by linarith), neg_neg]
    split <;> ring
  · rw [if_neg (show ¬ x ≤ 0 by linarith), if_pos (show -x ≤ 0 by linarith)]
    split <;> ring

/-- Start of the response of a component of exponential or gamma type. -/
noncomputable def onset (T : TF) (a : Comp) : ℝ := if T = .gamma then a.c - 2 * a.w else a.c - a.w

/-- C36, one pair of components: exchanging the components and the sign of the time difference does not
change the covariance function: without condition for Gaussian, top-hat and mixed types; for exponential and
gamma pairs outside the band, or whenever the two responses do not start at the very same instant, or for a
component with itself. -/
theorem C36_pair (T T' : TF) {t : ℝ} (ht : 0 < t) {a b : Comp} (hw : 0 < a.w) (hv : 0 < b.w) (D : ℝ)
    (hf : FarL T T' t a.w b.w ∨ a = b ∨ D ≠ onset T a - onset T b) :
    fpSll T T' t a b D = fpSll T' T t b a (-D) := by
  by_cases hT : T = T'
  · subst hT
    by_cases hfar : FarL T T t a.w b.w
    · have hfar' : FarL T T t b.w a.w := by
        simp only [FarL, if_true] at hfar ⊢
        exact fun h => (hfar h).symm
      rw [fpSll_eq T T ht hw hv hfar, fpSll_eq T T ht hv hw hfar', covLL_swap]; ring
    · cases T
      · simp [FarL] at hfar
      · simp [FarL] at hfar
      · rcases hf with hf | rfl | hf
        · exact absurd hf hfar
        · by_cases hD : D = 0
          · subst hD; rw [neg_zero]
          · exact sllGamGam_mirror t a a D (by rwa [sub_self])
        · exact sllGamGam_mirror t a b D (by simpa [onset] using hf)
      · rcases hf with hf | rfl | hf
        · exact absurd hf hfar
        · by_cases hD : D = 0
          · subst hD; rw [neg_zero]
          · exact sllExpExp_mirror t a a D (by rwa [sub_self])
        · exact sllExpExp_mirror t a b D (by simpa [onset] using hf)
  · have := C35_swap T T' hT t a b D 0
    rw [sub_zero, zero_sub] at this
    exact this

/-- C36, cross-covariances: swapping the two lines together with their times. -/
theorem C36_cross (e : KEnv) (j l : ℕ) (t1 t2 : ℝ)
    (hf : ∀ k < e.ng, ∀ k' < e.ng, FarL (e.typ k) (e.typ k') e.taud (e.comp j k).w (e.comp l k').w ∨
      e.comp j k = e.comp l k' ∨ t1 - t2 ≠ onset (e.typ k) (e.comp j k) - onset (e.typ k) (e.comp l k')) :
    e.sll2 t1 t2 j l = e.sll2 t2 t1 l j := by
  rw [KEnv.sll2, KEnv.sll2, foldl_add_range2, foldl_add_range2, Finset.sum_comm]
  congr 1
  refine Finset.sum_congr rfl fun k' hk' => Finset.sum_congr rfl fun k hk => ?_
  rw [C36_pair (e.typ k) (e.typ k') e.taud_pos (e.w_pos j k) (e.w_pos l k') (t1 - t2)
    (hf k (Finset.mem_range.1 hk) k' (Finset.mem_range.1 hk')), neg_sub]

/-- C36, auto-covariances: swapping the two times of a line. -/
theorem C36_auto (e : KEnv) (j : ℕ) (t1 t2 : ℝ)
    (hf : ∀ k < e.ng, ∀ k' < e.ng, FarL (e.typ k) (e.typ k') e.taud (e.comp j k).w (e.comp j k').w ∨
      k = k' ∨ t1 - t2 ≠ onset (e.typ k) (e.comp j k) - onset (e.typ k) (e.comp j k')) :
    e.sll t1 t2 j = e.sll t2 t1 j := by
  rw [e.sll_eq_sll2, e.sll_eq_sll2]
  refine C36_cross e j j t1 t2 fun k hk k' hk' => ?_
  rcases hf k hk k' hk' with h | rfl | h
  · exact Or.inl h
  · exact Or.inr (Or.inl rfl)
  · exact Or.inr (Or.inr h)

/-- C36: a line with a single component, any type and any parameters. -/
theorem C36_single (e : KEnv) (h1 : e.ng = 1) (j : ℕ) (t1 t2 : ℝ) : e.sll t1 t2 j = e.sll t2 t1 j := by
  refine C36_auto e j t1 t2 fun k hk k' hk' => Or.inr (Or.inl ?_)
  omega

/-- C36: Gaussian and top-hat components, also mixed with each other, any number and any parameters. -/
theorem C36_gauss_tophat (e : KEnv) (h : ∀ k < e.ng, e.typ k = .gauss ∨ e.typ k = .tophat) (j l : ℕ) (t1 t2 : ℝ) :
    e.sll t1 t2 j = e.sll t2 t1 j ∧ e.sll2 t1 t2 j l = e.sll2 t2 t1 l j := by
  have hF : ∀ k < e.ng, ∀ k' < e.ng, ∀ w w', FarL (e.typ k) (e.typ k') e.taud w w' := by
    intro k hk k' hk' w w'
    rcases h k hk with a | a <;> rcases h k' hk' with b | b <;> simp [FarL, a, b]
  exact ⟨C36_auto e j t1 t2 fun k hk k' hk' => Or.inl (hF k hk k' hk' _ _),
    C36_cross e j l t1 t2 fun k hk k' hk' => Or.inl (hF k hk k' hk' _ _)⟩

/-- C36: in the band the symmetry can fail when two responses start at the same instant: damping timescale 1,
timescales `1 + 1/200000` and `2`. -/
theorem C36_band :
    fpSll .exp .exp 1 ⟨1, 1 + 1 / 200000, 1 + 1 / 200000⟩ ⟨1, 2, 2⟩ 0 ≠
      fpSll .exp .exp 1 ⟨1, 2, 2⟩ ⟨1, 1 + 1 / 200000, 1 + 1 / 200000⟩ (-0) := by
  have h1 : |((1 : ℝ) - (1 + 1 / 200000)) / 1| < kEPS := by
    unfold kEPS; rw [abs_of_nonpos (by norm_num)]; norm_num
  have h2 : ¬ |((1 : ℝ) - 2) / 1| < kEPS := by
    unfold kEPS; rw [abs_of_nonpos (by norm_num)]; norm_num
  simp only [fpSll, sllExpExp]
  rw [if_pos (by norm_num), if_neg h2, if_pos (by norm_num), if_pos h1]
  norm_num

/-! ### C30 -/

/-- C30: the matrix assembled by `set_covar_Pmat_data_line` (and by the array version actually used) is
symmetric positive semi-definite for any times, numbers of lines and components, types and parameters,
amplitudes of either sign, provided no exponential or gamma timescale is in the band around the damping
timescale (missing: the band, where it fails, see `C30_band`). -/
theorem C30_psd_partial (e : KEnv) (d : DSet) (mem : ℕ → ℝ) (hf : e.Far d.line.length) :
    (d.PCarr e.kernels e.pm e.idxc e.idxl mem).PosSemidef ∧
    (matOf (runWrites (lineWrites e.kernels d e.pm e.idxc e.idxl) mem) d.nall d.nall).PosSemidef := by
  have h : (d.cov e.kernels e.pm e.idxc e.idxl).PosSemidef := by
    rw [cov_split d hf]
    exact (sigIdeal_posSemidef e d fun p : Fin d.nall => locate d.series p).add
      (Matrix.PosSemidef.diagonal fun p => noiseVar_nonneg _ _ _ _ _)
  refine ⟨by rw [PCarr_eq]; exact h, ?_⟩
  convert h using 1
  ext p q
  exact runWrites_line e.kernels d e.pm e.idxc e.idxl mem p.2 q.2

/-- Every data point has some noise (measurement error or systematic error). -/
def Noisy (e : KEnv) (d : DSet) : Prop :=
  (∀ i < d.con.n, 0 < d.con.fe i ^ 2 + ((Real.exp (e.pm e.idxc) - 1) * d.con.em) ^ 2) ∧
  ∀ j a, d.line[j]? = some a → ∀ i < a.n, 0 < a.fe i ^ 2 + ((Real.exp (e.pm (e.idxl j)) - 1) * a.em) ^ 2

theorem locate_valid (l : List LC) (p : ℕ) (hp : p < totalN l) :
    ∃ a, l[(locate l p).1]? = some a ∧ (locate l p).2 < a.n := by
  induction l generalizing p with
  | nil => simp [totalN] at hp
  | cons a l ih =>
    rw [locate]
    split
    · exact ⟨a, rfl, by assumption⟩
    · simp only [totalN] at hp
      obtain ⟨b, hb⟩ := ih (p - a.n) (by omega)
      exact ⟨b, by simpa using hb⟩

theorem noiseVar_pos {e : KEnv} {d : DSet} (h : Noisy e d) (p : ℕ) (hp : p < d.nall) :
    0 < noiseVar d e.pm e.idxc e.idxl (locate d.series p) := by
  obtain ⟨a, ha, hb⟩ := locate_valid d.series p hp
  generalize locate d.series p = x at ha hb
  obtain ⟨s, i⟩ := x
  have hs := pmSigma_pos e.pm e.idxc
  have hser : d.ser s = a := by simp only [DSet.ser, List.getD, ha, Option.getD_some]
  unfold noiseVar
  simp only [hser]
  refine div_pos ?_ (by positivity)
  rcases s with _ | s
  · have : a = d.con := by simpa [DSet.series] using ha.symm
    subst this
    exact h.1 i hb
  · show 0 < a.fe i ^ 2 + pmSyserr e.pm (e.idxl s) (d.ser (s + 1)).em ^ 2
    rw [hser]
    exact h.2 s a (by simpa [DSet.series] using ha) i hb

theorem cov_posDef {e : KEnv} {d : DSet} (hf : e.Far d.line.length) (hN : Noisy e d) :
    (d.cov e.kernels e.pm e.idxc e.idxl).PosDef := by
  rw [cov_split d hf]
  exact Matrix.PosDef.posSemidef_add (sigIdeal_posSemidef e d fun p : Fin d.nall => locate d.series p)
    (Matrix.PosDef.diagonal fun p => noiseVar_pos hN p p.2)

/-- C30: positive definite if every point has noise (missing: the band). -/
theorem C30_pd_partial (e : KEnv) (d : DSet) (mem : ℕ → ℝ) (hf : e.Far d.line.length) (hN : Noisy e d) :
    (d.PCarr e.kernels e.pm e.idxc e.idxl mem).PosDef ∧
    (matOf (runWrites (lineWrites e.kernels d e.pm e.idxc e.idxl) mem) d.nall d.nall).PosDef := by
  have h := cov_posDef hf hN
  refine ⟨by rw [PCarr_eq]; exact h, ?_⟩
  convert h using 1
  ext p q
  exact runWrites_line e.kernels d e.pm e.idxc e.idxl mem p.2 q.2

/-- C30: Gaussian and top-hat components, in any mixture, no condition. -/
theorem C30_gauss_tophat (e : KEnv) (d : DSet) (mem : ℕ → ℝ)
    (h : ∀ k < e.ng, e.typ k = .gauss ∨ e.typ k = .tophat) :
    (d.PCarr e.kernels e.pm e.idxc e.idxl mem).PosSemidef ∧
    (Noisy e d → (d.PCarr e.kernels e.pm e.idxc e.idxl mem).PosDef) := by
  have hf : e.Far d.line.length := by
    refine fun j hj k hk => ⟨?_, fun j' hj' k' hk' => ?_⟩
    · rcases h k hk with a | a <;> simp [FarC, a]
    · rcases h k hk with a | a <;> rcases h k' hk' with b | b <;> simp [FarL, a, b]
  exact ⟨(C30_psd_partial e d mem hf).1, fun hN => (C30_pd_partial e d mem hf hN).1⟩

/-- Parameters with an exponential response whose timescale is just below the damping timescale. -/
noncomputable def bandEnv : KEnv where
  ng := 1
  lin := false
  typ := fun _ => .exp
  pm := fun i => if i = 6 then Real.log (1 - 1 / 200000) else 0
  idxc := 0
  idxl := fun _ => 3

/-- One continuum point and two line points very close to each other, with small errors. -/
noncomputable def bandSet : DSet :=
  ⟨⟨1, fun _ => 0, fun _ => 0, fun _ => 1 / 10 ^ 7, 0⟩,
    [⟨2, fun i => if i = 0 then 0 else 2 / 10 ^ 6, fun _ => 0, fun _ => 1 / 10 ^ 7, 0⟩]⟩

/-- C30: in the band the matrix need not be positive semi-definite, even with noise: the covariance function
of an exponential response with timescale just below the damping timescale increases away from zero lag. -/
theorem C30_band (mem : ℕ → ℝ) : Noisy bandEnv bandSet ∧
    ¬ (bandSet.PCarr bandEnv.kernels bandEnv.pm bandEnv.idxc bandEnv.idxl mem).PosSemidef := by
  refine ⟨⟨fun i _ => ?_, fun j a ha i _ => ?_⟩, fun h => ?_⟩
  · simp only [bandSet]; positivity
  · rcases j with _ | j
    · have := Option.some.inj ha
      rw [← this]; positivity
    · simp [bandSet] at ha
  rw [PCarr_eq] at h
  have hn : bandSet.nall = 3 := rfl
  have h2 := (h.submatrix fun i : Fin 2 => (⟨1 + i, by rw [hn]; omega⟩ : Fin bandSet.nall)).dotProduct_mulVec_nonneg
    (fun i : Fin 2 => if i = 0 then (1 : ℝ) else -1)
  have l1 : locate bandSet.series 1 = (1, 0) := by simp [locate, bandSet, DSet.series]
  have l2 : locate bandSet.series 2 = (1, 1) := by simp [locate, bandSet, DSet.series]
  have hw : Real.exp (Real.log (1 - 1 / 200000)) = 199999 / 200000 := by
    rw [Real.exp_log (by norm_num)]; norm_num
  have hband : |((1 : ℝ) - 199999 / 200000) / 1| < kEPS := by
    unfold kEPS; rw [abs_of_nonneg (by norm_num)]; norm_num
  have hS : ∀ x : ℝ, 0 ≤ x → sllExpExp 1 ⟨1, 0, 199999 / 200000⟩ ⟨1, 0, 199999 / 200000⟩ x =
      Real.exp (-x) * (x * (40000000000 / 79999400001) + (40000000000 / 159999200001 + 100000 / 399999)) := by
    intro x hx
    simp only [sllExpExp, sub_self, sub_zero]
    rcases hx.eq_or_lt with rfl | hx
    · rw [if_pos le_rfl, if_pos hband]
      norm_num
    · rw [if_neg (not_le.2 hx), if_pos hband, div_one]
      norm_num
      ring
  have hc : bandEnv.comp 0 0 = ⟨1, 0, 199999 / 200000⟩ := by
    simp [KEnv.comp, compAt, bandEnv]
    rw [← one_div, hw]
  have ht : bandEnv.taud = 1 := by simp [KEnv.taud, bandEnv]
  have hk : ∀ t1 t2, bandEnv.kernels.Sll t1 t2 0 = sllExpExp 1 ⟨1, 0, 199999 / 200000⟩ ⟨1, 0, 199999 / 200000⟩ (t1 - t2) := by
    intro t1 t2
    simp only [KEnv.kernels, KEnv.sll, ht, show bandEnv.ng = 1 from rfl, List.range_one, List.foldl_cons, List.foldl_nil,
      hc, zero_add]
    rfl
  simp only [dotProduct, mulVec, Fin.sum_univ_two, Matrix.submatrix_apply, DSet.cov, Matrix.of_apply] at h2
  have e0 : ((0 : Fin 2) : ℕ) = 0 := rfl
  have e1 : ((1 : Fin 2) : ℕ) = 1 := rfl
  have hnv : ∀ i, noiseVar bandSet bandEnv.pm bandEnv.idxc bandEnv.idxl (1, i) = 1 / 10 ^ 14 := by
    intro i
    simp [noiseVar, bandSet, DSet.ser, DSet.series, pmSigma, pmTau, pmSyserr, bandEnv]; norm_num
  have hc0 : ∀ i j, sigCov bandEnv.kernels (pmTau bandEnv.pm bandEnv.idxc) bandSet (1, i) (1, j) =
      if j ≤ i then bandEnv.kernels.Sll ((bandSet.ser 1).t i) ((bandSet.ser 1).t j) 0
      else bandEnv.kernels.Sll ((bandSet.ser 1).t j) ((bandSet.ser 1).t i) 0 := by
    intro i j; simp only [sigCov, if_true]
  have t0 : (bandSet.ser 1).t 0 = 0 := rfl
  have t1 : (bandSet.ser 1).t 1 = 2 / 10 ^ 6 := rfl
  simp only [e0, e1, add_zero, Nat.reduceAdd, l1, l2, covEntry, hc0, hnv, t0, t1, hk, le_refl, if_true, sub_self, sub_zero,
    zero_le, Pi.star_apply, star_trivial, one_ne_zero, if_false, show ¬ (1 : ℕ) ≤ 0 by norm_num,
    show ((1 : ℕ), (0 : ℕ)) ≠ (1, 1) by simp, show ((1 : ℕ), (1 : ℕ)) ≠ (1, 0) by simp,
    hS 0 le_rfl, hS (2 / 10 ^ 6) (by norm_num), neg_zero, Real.exp_zero] at h2
  have h3 := Real.add_one_le_exp (-(2 / 10 ^ 6 : ℝ))
  nlinarith [h2, h3]

/-! ### The likelihoods with the transfer functions in place (C26, C27, C28) -/

/-- The covariance functions of each data set are those of the transfer functions, with parameters outside the
band; light curves have enough distinct times and every point has noise. -/
def TransferOK (e : LineEnv) (ds : List DSet) : Prop :=
  ∀ (k : ℕ) d, ds[k]? = some d → (∃ ng lin typ, e.K k = (KEnv.mk ng lin typ e.pm (e.idxc k) (e.idxl k)).kernels ∧
      (KEnv.mk ng lin typ e.pm (e.idxc k) (e.idxl k)).Far d.line.length ∧
      Noisy (KEnv.mk ng lin typ e.pm (e.idxc k) (e.idxl k)) d) ∧
    (∀ i, i + 1 < d.con.n → d.con.t i ≤ d.con.t (i + 1)) ∧ (∀ a ∈ d.series, EnoughTimes a e.nq)

theorem TransferOK.lineDataOK {e : LineEnv} {ds : List DSet} (h : TransferOK e ds) : LineDataOK e ds := by
  intro k d hd
  obtain ⟨⟨ng, lin, typ, hK, hF, hN⟩, ht, hE⟩ := h k d hd
  refine ⟨⟨ht, Or.inl fun i hi => ?_⟩, hE, ?_⟩
  · have := hN.1 i hi
    simp only [sq] at this
    exact this
  · rw [hK]
    exact cov_posDef hF hN

/-- C26 for the transfer functions (partial: every data set has a line): all four line likelihoods return the
same number. -/
theorem C26_transfer_partial (e : LineEnv) (ds : List DSet) (h : TransferOK e ds) (hl : ∀ d ∈ ds, d.line ≠ []) :
    ∃ v, probLine1 e ds = .ok v ∧ probLine2 e ds = .ok v ∧ probLine3 e ds = .ok v ∧ probLine4 e ds = .ok v :=
  C26_line_partial e ds h.lineDataOK hl

/-- C27 for the transfer functions (partial: every data set has a line). -/
theorem C27_transfer_partial (e : LineEnv) (ds : List DSet) (h : TransferOK e ds) (hl : ∀ d ∈ ds, d.line ≠ []) :
    probLine4 e ds = .ok (ds.mapIdx fun k d =>
      Real.log (∫ p, gaussDens (lineCov e k d) ((fun i : Fin d.nall => d.fall i) - (d.trend e.nq).mulVec p)) +
      ((d.nall : ℝ) - (e.nq * (1 + d.line.length) : ℕ)) / 2 * Real.log (2 * Real.pi)).sum :=
  C27_line_partial e ds h.lineDataOK hl

/-- C28 for the transfer functions. -/
theorem C28_transfer (e : LineEnv) (ds ds' : List DSet) (h : TransferOK e ds)
    (hs : List.Forall₂ (DShifted e.nq) ds ds') :
    probLine1 e ds' = probLine1 e ds ∧ probLine2 e ds' = probLine2 e ds ∧
    probLine3 e ds' = probLine3 e ds ∧ probLine4 e ds' = probLine4 e ds :=
  C28_line e ds ds' h.lineDataOK hs

/-! ### C61: what the parameters of a component mean -/

/-- C61: the profile of every type has area 1, mean lag `c` and is never negative. -/
theorem C61_profile (T : TF) (c : ℝ) {w : ℝ} (hw : 0 < w) :
    (∀ s, 0 ≤ tfDens T c w s) ∧ ∫ s, tfDens T c w s = 1 ∧ ∫ s, s * tfDens T c w s = c :=
  ⟨tfDens_nonneg T c hw, tfDens_integral T c hw, tfDens_mean T c hw⟩

/-- C61: the transfer function of a line has area equal to the sum of the amplitudes and first moment equal to
the amplitude-weighted sum of the centres. -/
theorem C61_transfer (e : KEnv) (j : ℕ) :
    ∫ s, transfer e j s = ∑ k ∈ Finset.range e.ng, (e.comp j k).f ∧
    ∫ s, s * transfer e j s = ∑ k ∈ Finset.range e.ng, (e.comp j k).f * (e.comp j k).c := by
  constructor
  · rw [transfer_comp]
    rw [integral_finsetSum _ fun k _ => (tfDens_integrable _ _ (e.w_pos j k)).const_mul _]
    refine Finset.sum_congr rfl fun k _ => ?_
    rw [integral_const_mul, tfDens_integral _ _ (e.w_pos j k), mul_one]
  · have : (fun s => s * transfer e j s) = fun s => ∑ k ∈ Finset.range e.ng,
        (e.comp j k).f * (s * tfDens (e.typ k) (e.comp j k).c (e.comp j k).w s) := by
      ext s; rw [transfer_comp]; simp only [Finset.mul_sum]
      exact Finset.sum_congr rfl fun k _ => by ring
    rw [this, integral_finsetSum _ fun k _ => (tfDens_mean_integrable _ _ (e.w_pos j k)).const_mul _]
    refine Finset.sum_congr rfl fun k _ => ?_
    rw [integral_const_mul, tfDens_mean _ _ (e.w_pos j k)]

/-! ### The hypotheses are met -/

/-- Three components, Gaussian, exponential (timescale 2) and gamma (timescale equal to the damping
timescale), the same for every line. -/
noncomputable def mixEnv : KEnv where
  ng := 3
  lin := true
  typ := fun k => if k = 0 then .gauss else if k = 1 then .exp else .gamma
  pm := fun i => if i = 9 then Real.log 2 else if i = 4 then -3 else if i = 5 then 10 else 0
  idxc := 0
  idxl := fun _ => 3

theorem mixEnv_far (J : ℕ) : mixEnv.Far J := by
  have ht : mixEnv.taud = 1 := by simp [KEnv.taud, mixEnv]
  have h1 : ∀ j, (mixEnv.comp j 1).w = 2 := by intro j; simp [KEnv.comp, compAt, mixEnv, Real.exp_log]
  have h2 : ∀ j, (mixEnv.comp j 2).w = 1 := by intro j; simp [KEnv.comp, compAt, mixEnv]
  have r1 : FarRel 1 2 := Or.inr (by unfold kEPS; rw [abs_of_nonpos (by norm_num)]; norm_num)
  have a1 : FarAbs 1 2 := Or.inr (by unfold kEPS; rw [abs_of_nonpos (by norm_num)]; norm_num)
  have r2 : FarRel 1 1 := Or.inl rfl
  have a2 : FarAbs 1 1 := Or.inl rfl
  have hty : mixEnv.typ 0 = .gauss ∧ mixEnv.typ 1 = .exp ∧ mixEnv.typ 2 = .gamma := by simp [mixEnv]
  intro j _ k hk
  have hk' : k < 3 := hk
  refine ⟨?_, fun j' _ k' hk'' => ?_⟩
  · rw [ht]
    interval_cases k <;> simp [FarC, hty, h1, h2, r1, r2]
  · have hk3 : k' < 3 := hk''
    rw [ht]
    interval_cases k <;> interval_cases k' <;> simp [FarL, hty, h1, h2, r1, r2, a1, a2]

/-- A mixture with a negative amplitude: the covariance functions are the convolutions. -/
example (J : ℕ) : mixEnv.Conv J := (mixEnv_far J).conv

example (d : DSet) (mem : ℕ → ℝ) : (d.PCarr mixEnv.kernels mixEnv.pm mixEnv.idxc mixEnv.idxl mem).PosSemidef :=
  (C30_psd_partial mixEnv d mem (mixEnv_far _)).1

/-- Two data sets with one line each, seen through the mixture. -/
theorem exTransferOK : TransferOK ⟨1, mixEnv.pm, fun _ => mixEnv.idxc, fun _ => mixEnv.idxl, fun _ => mixEnv.kernels, fun _ => 0⟩
    [exSet, exSet] := by
  intro k d hd
  have : d = exSet := by
    rcases k with _ | _ | k <;> simp at hd
    · exact hd.symm
    · exact hd.symm
  subst this
  refine ⟨⟨3, true, mixEnv.typ, rfl, mixEnv_far _, ?_⟩, fun i hi => ?_, fun a ha => ?_⟩
  · refine ⟨fun i _ => ?_, fun j a ha i _ => ?_⟩
    · simp only [exSet]; positivity
    · rcases j with _ | j
      · have := Option.some.inj ha
        rw [← this]; positivity
      · simp [exSet] at ha
  · simp [exSet] at hi
  · refine ⟨fun _ => ⟨0, ?_⟩, fun x y _ => Subsingleton.elim (α := Fin 1) x y⟩
    simp only [DSet.series, exSet, List.mem_cons, List.not_mem_nil, or_false] at ha
    rcases ha with rfl | rfl <;> norm_num

/-- C36: an exponential component in the band and one outside still give a symmetric covariance when the times
differ by something other than the difference of the onsets. -/
example : fpSll .exp .exp 1 ⟨1, 1 + 1 / 200000, 1 + 1 / 200000⟩ ⟨1, 2, 2⟩ 3 =
    fpSll .exp .exp 1 ⟨1, 2, 2⟩ ⟨1, 1 + 1 / 200000, 1 + 1 / 200000⟩ (-3) :=
  C36_pair .exp .exp one_pos (by norm_num) (by norm_num) 3 (Or.inr (Or.inr (by simp [onset])))

end Mica
