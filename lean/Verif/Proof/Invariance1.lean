import Verif.Spec.Invariance
import Mathlib.MeasureTheory.Integral.Marginal
import Mathlib.MeasureTheory.Integral.IntervalIntegral.Periodic
import Mathlib.MeasureTheory.Constructions.BorelSpace.Order
import Mathlib.MeasureTheory.Function.Floor

/-!
# Helper lemmas for C109: one coordinate at a time

Folding a translated coordinate into its range preserves Lebesgue measure; a balanced acceptance
then preserves the density; a product measure may be treated one coordinate at a time.
-/

open MeasureTheory Set
open scoped ENNReal

namespace Mica

/-- The value of `dnestWrap` on a proper range. -/
noncomputable def foldTo (lo hi y : ℝ) : ℝ := Int.fract ((y - lo) / (hi - lo)) * (hi - lo) + lo

theorem dnestWrap_fold {lo hi : ℝ} (h : lo < hi) (y : ℝ) :
    dnestWrap y lo hi = .ok (foldTo lo hi y) := by
  unfold dnestWrap cmod
  rw [if_pos (by linarith)]
  rfl

theorem foldTo_mem {lo hi : ℝ} (h : lo < hi) (y : ℝ) : foldTo lo hi y ∈ Ico lo hi := by
  have h0 := Int.fract_nonneg ((y - lo) / (hi - lo))
  have h1 := Int.fract_lt_one ((y - lo) / (hi - lo))
  have hp : 0 < hi - lo := by linarith
  constructor
  · unfold foldTo; nlinarith
  · unfold foldTo; nlinarith

theorem foldTo_self {lo hi y : ℝ} (h : lo < hi) (hy : y ∈ Ico lo hi) : foldTo lo hi y = y := by
  have hp : 0 < hi - lo := by linarith
  unfold foldTo
  rw [Int.fract_eq_self.2 ⟨div_nonneg (by linarith [hy.1]) hp.le, (div_lt_one hp).2 (by linarith [hy.2])⟩]
  field_simp
  ring

theorem foldTo_add {lo hi : ℝ} (h : lo < hi) (y : ℝ) (n : ℤ) :
    foldTo lo hi (y + n * (hi - lo)) = foldTo lo hi y := by
  have hp : hi - lo ≠ 0 := by linarith
  unfold foldTo
  rw [show (y + n * (hi - lo) - lo) / (hi - lo) = (y - lo) / (hi - lo) + n by field_simp; ring,
    Int.fract_add_intCast]

theorem foldTo_eq {lo hi : ℝ} (h : lo < hi) (y : ℝ) :
    ∃ n : ℤ, foldTo lo hi y = y + n * (hi - lo) := by
  have hp : hi - lo ≠ 0 := by linarith
  refine ⟨-⌊(y - lo) / (hi - lo)⌋, ?_⟩
  unfold foldTo
  rw [Int.fract]
  push_cast
  field_simp
  ring

/-- Folding after moving forth and back. -/
theorem foldTo_back {lo hi : ℝ} (h : lo < hi) {t : ℝ} (ht : t ∈ Ico lo hi) (d : ℝ) :
    foldTo lo hi (foldTo lo hi (t + d) + -d) = t := by
  obtain ⟨n, hn⟩ := foldTo_eq h (t + d)
  rw [hn, show t + d + n * (hi - lo) + -d = t + n * (hi - lo) by ring, foldTo_add h,
    foldTo_self h ht]

theorem measurable_foldTo : Measurable fun p : ℝ × ℝ × ℝ => foldTo p.1 p.2.1 p.2.2 := by
  unfold foldTo
  fun_prop

theorem measurable_foldTo' (lo hi : ℝ) : Measurable (foldTo lo hi) :=
  measurable_foldTo.comp (measurable_const.prodMk (measurable_const.prodMk measurable_id))

/-- A translation folded into the range preserves Lebesgue measure. -/
theorem lintegral_fold {lo hi : ℝ} (h : lo < hi) (d : ℝ) (G : ℝ → ℝ≥0∞) :
    ∫⁻ t in Ico lo hi, G (foldTo lo hi (t + d)) = ∫⁻ t in Ico lo hi, G t := by
  have hT : 0 < hi - lo := by linarith
  rw [setLIntegral_congr (Ico_ae_eq_Ioc (a := lo) (b := hi)),
    setLIntegral_congr (Ico_ae_eq_Ioc (a := lo) (b := hi))]
  have e1 : ∫⁻ t in Ioc lo hi, G (foldTo lo hi (t + d)) =
      ∫⁻ t in Ioc (lo + d) (lo + d + (hi - lo)), G (foldTo lo hi t) := by
    have := (measurePreserving_add_right (volume : Measure ℝ) d).setLIntegral_comp_emb
      (MeasurableEquiv.addRight d).measurableEmbedding (fun t => G (foldTo lo hi t)) (Ioc lo hi)
    rw [this]
    congr 2
    ext y
    simp only [mem_Ioc, image_add_right, mem_preimage]
    constructor <;> rintro ⟨h1, h2⟩ <;> constructor <;> linarith
  have e2 := (isAddFundamentalDomain_Ioc hT (lo + d) volume).setLIntegral_eq
    (isAddFundamentalDomain_Ioc hT lo volume) (fun t => G (foldTo lo hi t)) (by
      rintro ⟨g, hg⟩ x
      obtain ⟨n, rfl⟩ := AddSubgroup.mem_zmultiples_iff.1 hg
      show G (foldTo lo hi (n • (hi - lo) + x)) = _
      rw [zsmul_eq_mul, add_comm, foldTo_add h])
  rw [e1, e2, show lo + (hi - lo) = hi by ring, ← setLIntegral_congr (Ico_ae_eq_Ioc (a := lo) (b := hi)),
    ← setLIntegral_congr (Ico_ae_eq_Ioc (a := lo) (b := hi))]
  refine setLIntegral_congr_fun measurableSet_Ico fun t ht => ?_
  simp only [foldTo_self h ht]

instance : IsProbabilityMeasure unif := ⟨by simp [unif]⟩

/-- Acceptance of one coordinate: `a` is an acceptance probability. -/
theorem lintegral_accept {a : ℝ} (h0 : 0 ≤ a) (h1 : a ≤ 1) (X Y : ℝ≥0∞) :
    ∫⁻ u, (if u ≤ a then X else Y) ∂unif = ENNReal.ofReal a * X + (1 - ENNReal.ofReal a) * Y := by
  have hs : MeasurableSet {u : ℝ | u ≤ a} := measurableSet_Iic
  have e : (fun u : ℝ => if u ≤ a then X else Y) =
      fun u => indicator (Iic a) (fun _ => X) u + indicator (Ioi a) (fun _ => Y) u := by
    funext u
    by_cases h : u ≤ a
    · simp [h]
    · simp [h, not_le.1 h]
  rw [e, lintegral_add_left (by exact measurable_const.indicator measurableSet_Iic),
    lintegral_indicator measurableSet_Iic, lintegral_indicator measurableSet_Ioi,
    setLIntegral_const, setLIntegral_const]
  have m1 : unif (Iic a) = ENNReal.ofReal a := by
    rw [unif, Measure.restrict_apply measurableSet_Iic]
    rcases h1.lt_or_eq with h | rfl
    · have : Iic a ∩ Ico 0 1 = Icc 0 a := by
        ext u; simp only [mem_inter_iff, mem_Iic, mem_Ico, mem_Icc]
        constructor
        · rintro ⟨b, c, -⟩; exact ⟨c, b⟩
        · rintro ⟨b, c⟩; exact ⟨c, b, by linarith⟩
      rw [this, Real.volume_Icc, sub_zero]
    · have : Iic (1 : ℝ) ∩ Ico 0 1 = Ico 0 1 := by
        ext u; simp only [mem_inter_iff, mem_Iic, mem_Ico]
        constructor
        · rintro ⟨b, c⟩; exact c
        · rintro c; exact ⟨c.2.le, c⟩
      rw [this, Real.volume_Ico, sub_zero]
  have m2 : unif (Ioi a) = 1 - ENNReal.ofReal a := by
    rw [← compl_Iic, measure_compl measurableSet_Iic (measure_ne_top _ _), m1, measure_univ]
  rw [m1, m2, mul_comm X, mul_comm Y]

/-- The core of the Metropolis argument: a measure-preserving family of moves `T h`, the inverse of
`T h` being `T (-h)`, with acceptance probabilities `α` balanced against `R`. -/
theorem metropolis_core {X : Type*} [MeasurableSpace X] (μ : Measure X) [SFinite μ]
    {H : Type*} [MeasurableSpace H] [Neg H] [MeasurableNeg H]
    (η : Measure H) [IsProbabilityMeasure η] (hη : η.map (fun h => -h) = η)
    (T : X × H → X) (hT : Measurable T) (α : X × X → ℝ≥0∞) (hα : Measurable α) (hα1 : ∀ p, α p ≤ 1)
    (R g : X → ℝ≥0∞) (hR : Measurable R) (hg : Measurable g)
    (pres : ∀ h (G : X → ℝ≥0∞), Measurable G → ∫⁻ t, G (T (t, h)) ∂μ = ∫⁻ t, G t ∂μ)
    (bal : ∀ h, ∀ᵐ t ∂μ, R t * α (t, T (t, h)) = R (T (t, h)) * α (T (t, h), t) ∧
      T (T (t, h), -h) = t) :
    ∫⁻ t, ∫⁻ h, R t * (α (t, T (t, h)) * g (T (t, h)) + (1 - α (t, T (t, h))) * g t) ∂η ∂μ =
      ∫⁻ t, R t * g t ∂μ := by
  have hαT : Measurable fun p : X × H => α (p.1, T p) := hα.comp (measurable_fst.prodMk hT)
  have m1 : Measurable fun p : X × H => R p.1 * (α (p.1, T p) * g (T p)) :=
    (hR.comp measurable_fst).mul (hαT.mul (hg.comp hT))
  have m2 : Measurable fun p : X × H => R p.1 * (α (p.1, T p) * g p.1) :=
    (hR.comp measurable_fst).mul (hαT.mul (hg.comp measurable_fst))
  have key : ∀ h, ∫⁻ t, R t * (α (t, T (t, h)) * g (T (t, h))) ∂μ =
      ∫⁻ t, R t * (α (t, T (t, -h)) * g t) ∂μ := by
    intro h
    rw [← pres h (fun t => R t * (α (t, T (t, -h)) * g t))
      (m2.comp (measurable_id.prodMk measurable_const))]
    refine lintegral_congr_ae ((bal h).mono fun t ht => ?_)
    dsimp only
    rw [ht.2, ← mul_assoc, ← mul_assoc, ht.1]
  have moved : ∫⁻ t, ∫⁻ h, R t * (α (t, T (t, h)) * g (T (t, h))) ∂η ∂μ =
      ∫⁻ t, ∫⁻ h, R t * (α (t, T (t, h)) * g t) ∂η ∂μ := by
    rw [lintegral_lintegral_swap (f := fun t h => R t * (α (t, T (t, h)) * g (T (t, h))))
        m1.aemeasurable,
      lintegral_lintegral_swap (f := fun t h => R t * (α (t, T (t, h)) * g t)) m2.aemeasurable,
      lintegral_congr key]
    conv_rhs => rw [← hη]
    rw [lintegral_map _ measurable_neg]
    exact m2.lintegral_prod_left'
  have ma : Measurable fun t => ∫⁻ h, R t * (α (t, T (t, h)) * g (T (t, h))) ∂η :=
    m1.lintegral_prod_right'
  have mb : Measurable fun t => ∫⁻ h, R t * (α (t, T (t, h)) * g t) ∂η := m2.lintegral_prod_right'
  have split : ∀ t, ∫⁻ h, R t * (α (t, T (t, h)) * g (T (t, h)) + (1 - α (t, T (t, h))) * g t) ∂η =
      ∫⁻ h, R t * (α (t, T (t, h)) * g (T (t, h))) ∂η +
        ∫⁻ h, R t * ((1 - α (t, T (t, h))) * g t) ∂η := by
    intro t
    have hm : Measurable fun h => R t * (α (t, T (t, h)) * g (T (t, h))) :=
      m1.comp (measurable_const.prodMk measurable_id)
    rw [← lintegral_add_left hm]
    simp only [← mul_add]
  have join : ∀ t, ∫⁻ h, R t * (α (t, T (t, h)) * g t) ∂η +
      ∫⁻ h, R t * ((1 - α (t, T (t, h))) * g t) ∂η = R t * g t := by
    intro t
    have hm : Measurable fun h => R t * (α (t, T (t, h)) * g t) :=
      m2.comp (measurable_const.prodMk measurable_id)
    rw [← lintegral_add_left hm]
    have : ∀ h, R t * (α (t, T (t, h)) * g t) + R t * ((1 - α (t, T (t, h))) * g t) = R t * g t := by
      intro h
      rw [← mul_add, ← add_mul, add_tsub_cancel_of_le (hα1 _), one_mul]
    simp only [this, lintegral_const, measure_univ, mul_one]
  rw [lintegral_congr split, lintegral_add_left ma, moved, ← lintegral_add_left mb,
    lintegral_congr join]

open Classical in
/-- **One coordinate.**  A coordinate in `[lo, hi)` is moved by a random step of symmetric law times
`w`, folded, and accepted with a probability that balances against the density `ρ` if it lands in
`S`.  The density restricted to `S` is preserved. -/
theorem metropolis1 {lo hi : ℝ} (hlt : lo < hi) (w : ℝ) (η : Measure ℝ) [IsProbabilityMeasure η]
    (hη : η.map (fun h => -h) = η) (ρ : ℝ → ℝ≥0∞) (hρ : Measurable ρ) (A : ℝ × ℝ → ℝ)
    (hA : Measurable A)
    (hbal : ∀ t ∈ Ico lo hi, ∀ q ∈ Ico lo hi, ρ t * ENNReal.ofReal (Real.exp (min 0 (A (t, q)))) =
      ρ q * ENNReal.ofReal (Real.exp (min 0 (A (q, t)))))
    (S : Set ℝ) (hS : MeasurableSet S) (g : ℝ → ℝ≥0∞) (hg : Measurable g) :
    ∫⁻ t in Ico lo hi, S.indicator ρ t * ∫⁻ r,
        (if r.2 ≤ Real.exp (min 0 (A (t, foldTo lo hi (t + r.1 * w)))) ∧
          foldTo lo hi (t + r.1 * w) ∈ S then g (foldTo lo hi (t + r.1 * w)) else g t)
        ∂η.prod unif =
      ∫⁻ t in Ico lo hi, S.indicator ρ t * g t := by
  have hT : Measurable fun p : ℝ × ℝ => foldTo lo hi (p.1 + p.2 * w) :=
    (measurable_foldTo' lo hi).comp (by fun_prop)
  have hαm : Measurable ((Prod.snd ⁻¹' S).indicator
      fun p : ℝ × ℝ => ENNReal.ofReal (Real.exp (min 0 (A p)))) :=
    (ENNReal.measurable_ofReal.comp (Real.measurable_exp.comp (measurable_const.min hA))).indicator
      (measurable_snd hS)
  have hα1 : ∀ p, (Prod.snd ⁻¹' S).indicator
      (fun p : ℝ × ℝ => ENNReal.ofReal (Real.exp (min 0 (A p)))) p ≤ 1 := by
    intro p
    refine (indicator_le_self' (fun _ _ => zero_le) p).trans ?_
    rw [← ENNReal.ofReal_one]
    exact ENNReal.ofReal_le_ofReal (Real.exp_le_one_iff.2 (min_le_left _ _))
  rw [← metropolis_core (volume.restrict (Ico lo hi)) η hη _ hT _ hαm hα1 (S.indicator ρ) g
    (hρ.indicator hS) hg (fun h G _ => lintegral_fold hlt (h * w) G) ?_]
  · refine lintegral_congr fun t => ?_
    have hTt : Measurable fun h : ℝ => foldTo lo hi (t + h * w) :=
      hT.comp (measurable_const.prodMk measurable_id)
    have hAt : Measurable fun h : ℝ => A (t, foldTo lo hi (t + h * w)) :=
      hA.comp (measurable_const.prodMk hTt)
    have hαt : Measurable fun h : ℝ => (Prod.snd ⁻¹' S).indicator
        (fun p : ℝ × ℝ => ENNReal.ofReal (Real.exp (min 0 (A p)))) (t, foldTo lo hi (t + h * w)) :=
      hαm.comp (measurable_const.prodMk hTt)
    refine Eq.trans ?_ (lintegral_const_mul _ ((hαt.mul (hg.comp hTt)).add
      ((measurable_const.sub hαt).mul measurable_const))).symm
    congr 1
    rw [lintegral_prod]
    · refine lintegral_congr fun h => ?_
      simp only [Pi.add_apply, Pi.mul_apply, Pi.sub_apply, Function.comp_apply]
      by_cases hS' : foldTo lo hi (t + h * w) ∈ S
      · simp only [hS', and_true]
        rw [lintegral_accept (Real.exp_pos _).le (Real.exp_le_one_iff.2 (min_le_left _ _)),
          indicator_of_mem (show (t, foldTo lo hi (t + h * w)) ∈ Prod.snd ⁻¹' S from hS')]
      · rw [indicator_of_notMem (show (t, foldTo lo hi (t + h * w)) ∉ Prod.snd ⁻¹' S from hS')]
        simp only [hS', and_false, if_false, lintegral_const, measure_univ, mul_one, zero_mul,
          zero_add, tsub_zero, one_mul]
    · refine (Measurable.ite ?_ ?_ measurable_const).aemeasurable
      · refine MeasurableSet.inter ?_ ?_
        · exact measurableSet_le measurable_snd (Real.measurable_exp.comp
            (measurable_const.min (hAt.comp measurable_fst)))
        · exact (hTt.comp measurable_fst) hS
      · exact hg.comp (hTt.comp measurable_fst)
  · intro h
    refine (ae_restrict_iff' measurableSet_Ico).2 (ae_of_all _ fun t ht => ⟨?_, ?_⟩)
    · have hq : foldTo lo hi (t + h * w) ∈ Ico lo hi := foldTo_mem hlt _
      have hb := hbal t ht _ hq
      dsimp only
      by_cases h1 : t ∈ S <;> by_cases h2 : foldTo lo hi (t + h * w) ∈ S <;>
        simp [h1, h2, hb]
    · have := foldTo_back hlt ht (h * w)
      simp only [neg_mul]
      exact this

/-- A product measure one coordinate at a time. -/
theorem lintegral_pi_fibre {n : ℕ} (μ : Fin n → Measure ℝ) [∀ i, SigmaFinite (μ i)] (w : Fin n)
    {F G : (Fin n → ℝ) → ℝ≥0∞} (hF : Measurable F) (hG : Measurable G)
    (h : ∀ x, ∫⁻ t, F (Function.update x w t) ∂μ w = ∫⁻ t, G (Function.update x w t) ∂μ w) :
    ∫⁻ x, F x ∂Measure.pi μ = ∫⁻ x, G x ∂Measure.pi μ := by
  refine lintegral_eq_of_lmarginal_eq {w} hF hG ?_
  rw [lmarginal_singleton, lmarginal_singleton]
  funext x
  exact h x

end Mica
