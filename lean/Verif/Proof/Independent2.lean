import Verif.Proof.Independent
import Mathlib.MeasureTheory.Measure.Prod
import Mathlib.MeasureTheory.Measure.WithDensityFinite
import Mathlib.MeasureTheory.Constructions.Pi

/-!
# Helper lemmas for C126: the prior of a joint run
-/

open MeasureTheory Set
open scoped ENNReal

namespace Mica

namespace LineCfg
variable {c : LineCfg} {m : ℕ}

theorem Separate.lines (h : c.Separate) (i : ℕ) : ownLines c i = c.nl.getD i 0 := by
  unfold ownLines; rw [h.tf]; simp

theorem first_getD {i : ℕ} (hi : i < m) : (c.firstSets m).nl.getD i 0 = c.nl.getD i 0 := by
  simp [firstSets, List.getD_eq_getElem?_getD, hi]

theorem last_getD (i : ℕ) : (c.lastSets m).nl.getD i 0 = c.nl.getD (m + i) 0 := by
  simp [lastSets, List.getD_eq_getElem?_getD]

theorem Separate.start_first (h : c.Separate) (hm : m ≤ c.nl.length) {i : ℕ} (hi : i < m) (j o : ℕ) :
    c.placeFirst m (lineStart (c.firstSets m) i j + o) = lineStart c i j + o := by
  unfold lineStart placeFirst
  rw [h.var, h.tf, h.first.var, h.first.tf, first_length hm]
  simp only [Bool.false_eq_true, if_false, show (0 : ℕ) ≠ 1 by omega]
  have e : (c.firstSets m).nl.take i = c.nl.take i := by
    simp [firstSets, List.take_take, Nat.min_eq_left hi.le]
  rw [e, show (c.firstSets m).ng = c.ng from rfl, if_neg (by omega)]
  omega

theorem Separate.start_last (h : c.Separate) (hm : m ≤ c.nl.length) (i j o : ℕ) :
    c.placeLast m (lineStart (c.lastSets m) i j + o) = lineStart c (m + i) j + o := by
  unfold lineStart placeLast
  rw [h.var, h.tf, h.last.var, h.last.tf, last_length]
  simp only [Bool.false_eq_true, if_false, show (0 : ℕ) ≠ 1 by omega]
  have e : (c.nl.take (m + i)).sum = (c.nl.take m).sum + ((c.lastSets m).nl.take i).sum := by
    rw [List.take_add, List.sum_append]; rfl
  rw [e, show (c.lastSets m).ng = c.ng from rfl, if_neg (by omega)]
  simp only [Nat.mul_add]
  omega

/-- The region of allowed parameters is a product. -/
theorem Separate.region (h : c.Separate) (hm : m ≤ c.nl.length) (x : Fin c.numParams → ℝ) :
    InLinePrior c x ↔ InLinePrior (c.firstSets m) (partsOf c m x).1 ∧ InLinePrior (c.lastSets m) (partsOf c m x).2 := by
  constructor
  · intro hx
    refine ⟨⟨fun i hf => ?_, fun ht i j k hi hj hk => ?_⟩, ⟨fun i hf => ?_, fun ht i j k hi hj hk => ?_⟩⟩
    · obtain ⟨e1, e2⟩ := h.first_same hm i.2
      have := hx.range ⟨_, h.first_lt hm i.2⟩ (by rw [← hf, ← e1])
      rw [← e2]
      simpa [partsOf, extendVec, h.first_lt hm i.2] using this
    · rw [first_length hm] at hi
      rw [h.first.lines] at hj
      have hk1 : k < (c.firstSets m).ng := by omega
      rw [first_ext x (h.first.start_lt hj hk1 (by omega)), first_ext x (h.first.start_lt hj hk (by omega)),
        h.start_first hm hi, h.start_first hm hi]
      refine hx.order ht i j k (by omega) ?_ hk
      rw [h.lines, ← first_getD hi]; exact hj
    · obtain ⟨e1, e2⟩ := h.last_same hm i.2
      have := hx.range ⟨_, h.last_lt hm i.2⟩ (by rw [← hf, ← e1])
      rw [← e2]
      simpa [partsOf, extendVec, h.last_lt hm i.2] using this
    · rw [last_length] at hi
      rw [h.last.lines] at hj
      have hk1 : k < (c.lastSets m).ng := by omega
      rw [last_ext x (h.last.start_lt hj hk1 (by omega)), last_ext x (h.last.start_lt hj hk (by omega)),
        h.start_last hm, h.start_last hm]
      refine hx.order ht (m + i) j k (by omega) ?_ hk
      rw [h.lines, ← last_getD]; exact hj
  · rintro ⟨h1, h2⟩
    refine ⟨fun i hf => ?_, fun ht i j k hi hj hk => ?_⟩
    · obtain ⟨a, rfl⟩ := (h.places_bij hm).2 i
      rcases a with a | a
      · obtain ⟨e1, e2⟩ := h.first_same hm a.2
        have := h1.range a (by rw [← e1]; exact hf)
        rw [← e2] at this
        simpa [partsOf, extendVec, h.first_lt hm a.2, Separate.places] using this
      · obtain ⟨e1, e2⟩ := h.last_same hm a.2
        have := h2.range a (by rw [← e1]; exact hf)
        rw [← e2] at this
        simpa [partsOf, extendVec, h.last_lt hm a.2, Separate.places] using this
    · rw [h.lines] at hj
      by_cases him : i < m
      · rw [← first_getD him] at hj
        have hk1 : k < (c.firstSets m).ng := by show k < c.ng; omega
        have := h1.order ht i j k (by rw [first_length hm]; exact him) (by rw [h.first.lines]; exact hj) hk
        rw [first_ext x (h.first.start_lt hj hk1 (by omega)), first_ext x (h.first.start_lt hj hk (by omega)),
          h.start_first hm him, h.start_first hm him] at this
        exact this
      · obtain ⟨i, rfl⟩ := Nat.exists_eq_add_of_le (not_lt.1 him)
        rw [← last_getD] at hj
        have hk1 : k < (c.lastSets m).ng := by show k < c.ng; omega
        have := h2.order ht i j k (by rw [last_length]; omega) (by rw [h.last.lines]; exact hj) hk
        rw [last_ext x (h.last.start_lt hj hk1 (by omega)), last_ext x (h.last.start_lt hj hk (by omega)),
          h.start_last hm, h.start_last hm] at this
        exact this

/-- The logarithm of the density is a sum. -/
theorem Separate.logPrior (h : c.Separate) (hm : m ≤ c.nl.length) (x : Fin c.numParams → ℝ) :
    Mica.logPrior c (extendVec x) = Mica.logPrior (c.firstSets m) (extendVec (partsOf c m x).1) +
      Mica.logPrior (c.lastSets m) (extendVec (partsOf c m x).2) := by
  unfold Mica.logPrior
  rw [h.var, h.first.var, h.last.var, first_length hm, last_length]
  simp only [Bool.false_eq_true, if_false]
  have e1 : 3 * c.nl.length = 3 * m + 3 * (c.nl.length - m) := by omega
  have e2 : c.nl.length = m + (c.nl.length - m) := by omega
  have v1 : ∑ i ∈ Finset.range (3 * c.nl.length), -((extendVec x i - c.varPar i) ^ 2 / (2 * c.varStd i ^ 2)) =
      (∑ i ∈ Finset.range (3 * m), -((extendVec (partsOf c m x).1 i - (c.firstSets m).varPar i) ^ 2 /
        (2 * (c.firstSets m).varStd i ^ 2))) +
      ∑ i ∈ Finset.range (3 * (c.nl.length - m)), -((extendVec (partsOf c m x).2 i - (c.lastSets m).varPar i) ^ 2 /
        (2 * (c.lastSets m).varStd i ^ 2)) := by
    rw [e1, Finset.sum_range_add]
    congr 1
    · refine Finset.sum_congr rfl fun i hi => ?_
      rw [Finset.mem_range] at hi
      rw [first_ext x (by rw [h.first_num hm]; omega), placeFirst, if_pos hi]; rfl
    · refine Finset.sum_congr rfl fun i hi => ?_
      rw [Finset.mem_range] at hi
      rw [last_ext x (by rw [h.last_num]; omega), placeLast, if_pos hi]; rfl
  have v2 : (∑ i ∈ Finset.range c.nl.length, ∑ j ∈ Finset.range (ownLines c i), ∑ k ∈ Finset.range c.ng,
        compPenalty c i (extendVec x (lineStart c i j + (3 * k + 2))) (extendVec x (lineStart c i j + (3 * k + 3)))) =
      (∑ i ∈ Finset.range m, ∑ j ∈ Finset.range (ownLines (c.firstSets m) i), ∑ k ∈ Finset.range (c.firstSets m).ng,
        compPenalty (c.firstSets m) i (extendVec (partsOf c m x).1 (lineStart (c.firstSets m) i j + (3 * k + 2)))
          (extendVec (partsOf c m x).1 (lineStart (c.firstSets m) i j + (3 * k + 3)))) +
      ∑ i ∈ Finset.range (c.nl.length - m), ∑ j ∈ Finset.range (ownLines (c.lastSets m) i),
        ∑ k ∈ Finset.range (c.lastSets m).ng,
        compPenalty (c.lastSets m) i (extendVec (partsOf c m x).2 (lineStart (c.lastSets m) i j + (3 * k + 2)))
          (extendVec (partsOf c m x).2 (lineStart (c.lastSets m) i j + (3 * k + 3))) := by
    rw [show Finset.range c.nl.length = Finset.range (m + (c.nl.length - m)) by rw [← e2], Finset.sum_range_add]
    congr 1
    · refine Finset.sum_congr rfl fun i hi => ?_
      rw [Finset.mem_range] at hi
      rw [h.lines, h.first.lines, first_getD hi]
      refine Finset.sum_congr rfl fun j hj => Finset.sum_congr rfl fun k hk => ?_
      rw [Finset.mem_range] at hj hk
      rw [← first_getD hi] at hj
      rw [first_ext x (h.first.start_lt hj hk (by omega)), first_ext x (h.first.start_lt hj hk (by omega)),
        h.start_first hm hi, h.start_first hm hi]
      rfl
    · refine Finset.sum_congr rfl fun i hi => ?_
      rw [Finset.mem_range] at hi
      rw [h.lines, h.last.lines, last_getD]
      refine Finset.sum_congr rfl fun j hj => Finset.sum_congr rfl fun k hk => ?_
      rw [Finset.mem_range] at hj hk
      rw [← last_getD] at hj
      rw [last_ext x (h.last.start_lt hj hk (by omega)), last_ext x (h.last.start_lt hj hk (by omega)),
        h.start_last hm, h.start_last hm]
      rfl
  rw [v1, v2]
  ring

/-- The density is a product. -/
theorem Separate.density (h : c.Separate) (hm : m ≤ c.nl.length) (x : Fin c.numParams → ℝ) :
    c.density x = (c.firstSets m).density (partsOf c m x).1 * (c.lastSets m).density (partsOf c m x).2 := by
  unfold LineCfg.density
  by_cases h1 : InLinePrior (c.firstSets m) (partsOf c m x).1
  · by_cases h2 : InLinePrior (c.lastSets m) (partsOf c m x).2
    · rw [if_pos ((h.region hm x).2 ⟨h1, h2⟩), if_pos h1, if_pos h2, h.logPrior hm, Real.exp_add,
        ENNReal.ofReal_mul (Real.exp_pos _).le]
    · rw [if_neg fun hx => h2 ((h.region hm x).1 hx).2, if_neg h2, mul_zero]
  · rw [if_neg fun hx => h1 ((h.region hm x).1 hx).1, if_neg h1, zero_mul]

/-! ### The measures -/

theorem Separate.linePrior (h : c.Separate) :
    Mica.linePrior c = (Measure.pi fun i : Fin c.numParams => oneBase c i).withDensity c.density := by
  have hsrc : (fun (y : Fin c.numParams → ℝ) a => y (sourceOf c a)) = id := by
    funext y a
    have : sourceOf c a = a := by
      unfold sourceOf
      rw [dif_neg]
      rintro ⟨s, h', -⟩
      rw [h.tf] at h'; omega
    rw [this]; rfl
  unfold Mica.linePrior
  rw [hsrc, Measure.map_id]
  rfl

theorem Separate.first_base (h : c.Separate) (hm : m ≤ c.nl.length) (i : Fin (c.firstSets m).numParams) :
    oneBase c (c.placeFirst m i) = oneBase (c.firstSets m) i := by
  unfold oneBase; rw [(h.first_same hm i.2).1]

theorem Separate.last_base (h : c.Separate) (hm : m ≤ c.nl.length) (i : Fin (c.lastSets m).numParams) :
    oneBase c (c.placeLast m i) = oneBase (c.lastSets m) i := by
  unfold oneBase; rw [(h.last_same hm i.2).1]

theorem measurable_partsOf : Measurable (partsOf c m) :=
  (measurable_pi_lambda _ fun _ => measurable_extendVec _).prodMk (measurable_pi_lambda _ fun _ => measurable_extendVec _)

/-- The base measure is a product. -/
theorem Separate.base (h : c.Separate) (hm : m ≤ c.nl.length) :
    MeasurePreserving (partsOf c m) (Measure.pi fun i : Fin c.numParams => oneBase c i)
      ((Measure.pi fun i : Fin (c.firstSets m).numParams => oneBase (c.firstSets m) i).prod
        (Measure.pi fun i : Fin (c.lastSets m).numParams => oneBase (c.lastSets m) i)) := by
  have a := (measurePreserving_piCongrLeft (fun i : Fin c.numParams => oneBase c i) (h.equiv hm)).symm
  have b := measurePreserving_sumPiEquivProdPi (fun i : Fin (c.firstSets m).numParams ⊕ Fin (c.lastSets m).numParams =>
    oneBase c (h.equiv hm i))
  have d := b.comp a
  have e1 : (fun i => oneBase c (h.equiv hm (Sum.inl i))) = fun i : Fin (c.firstSets m).numParams => oneBase (c.firstSets m) i := by
    funext i; exact h.first_base hm i
  have e2 : (fun i => oneBase c (h.equiv hm (Sum.inr i))) = fun i : Fin (c.lastSets m).numParams => oneBase (c.lastSets m) i := by
    funext i; exact h.last_base hm i
  rw [e1, e2] at d
  convert d using 1
  funext x
  refine Prod.ext ?_ ?_
  · funext i
    simp only [partsOf, extendVec, h.first_lt hm i.2, dif_pos]
    rfl
  · funext i
    simp only [partsOf, extendVec, h.last_lt hm i.2, dif_pos]
    rfl

theorem logPrior_nonpos (c : LineCfg) (pm : ℕ → ℝ) : Mica.logPrior c pm ≤ 0 := by
  unfold Mica.logPrior
  have h1 : ∑ i ∈ Finset.range (if c.uniVar then 3 else 3 * c.nl.length),
      -((pm i - c.varPar i) ^ 2 / (2 * c.varStd i ^ 2)) ≤ 0 :=
    Finset.sum_nonpos fun i _ => by
      have : 0 ≤ (pm i - c.varPar i) ^ 2 / (2 * c.varStd i ^ 2) := by positivity
      linarith
  have h2 : 0 ≤ ∑ i ∈ Finset.range c.nl.length, ∑ j ∈ Finset.range (ownLines c i), ∑ k ∈ Finset.range c.ng,
      compPenalty c i (pm (lineStart c i j + (3 * k + 2))) (pm (lineStart c i j + (3 * k + 3))) :=
    Finset.sum_nonneg fun i _ => Finset.sum_nonneg fun j _ => Finset.sum_nonneg fun k _ => c.compPenalty_nonneg i _ _
  linarith

/-- The region where a parameter may lie. -/
noncomputable def allowed (c : LineCfg) (i : ℕ) : Set ℝ :=
  match c.fix i with
  | some _ => univ
  | none => Ico (c.rng i).1 (c.rng i).2

theorem density_le (c : LineCfg) (y : Fin c.numParams → ℝ) :
    c.density y ≤ (Set.pi univ fun i : Fin c.numParams => c.allowed i).indicator 1 y := by
  unfold LineCfg.density
  split
  · rename_i hin
    rw [indicator_of_mem]
    · rw [Pi.one_apply, ← ENNReal.ofReal_one]
      exact ENNReal.ofReal_le_ofReal (Real.exp_le_one_iff.2 (logPrior_nonpos c _))
    · intro i _
      show y i ∈ c.allowed i
      unfold allowed
      split
      · trivial
      · rename_i hf; exact hin.range i hf
  · exact zero_le

/-- The prior has finite mass. -/
instance finite_linePrior (c : LineCfg) : IsFiniteMeasure (Mica.linePrior c) := by
  have : IsFiniteMeasure ((Measure.pi fun i : Fin c.numParams => oneBase c i).withDensity c.density) := by
    refine isFiniteMeasure_withDensity ?_
    refine ne_of_lt (lt_of_le_of_lt (lintegral_mono (density_le c)) ?_)
    rw [lintegral_indicator_one, Measure.pi_pi]
    · refine ENNReal.prod_lt_top fun i _ => ?_
      show oneBase c i (c.allowed i) < ∞
      unfold oneBase allowed
      cases c.fix i <;> simp
    · refine MeasurableSet.univ_pi fun i => ?_
      show MeasurableSet (c.allowed i)
      unfold allowed
      split
      · exact MeasurableSet.univ
      · exact measurableSet_Ico
  exact @Measure.isFiniteMeasure_map _ _ _ _ _ this _

/-- The prior of a joint run is the product of the priors. -/
theorem Separate.prior (h : c.Separate) (hm : m ≤ c.nl.length) :
    (Mica.linePrior c).map (partsOf c m) = (Mica.linePrior (c.firstSets m)).prod (Mica.linePrior (c.lastSets m)) := by
  rw [h.linePrior, h.first.linePrior, h.last.linePrior,
    prod_withDensity (c.firstSets m).measurable_density (c.lastSets m).measurable_density]
  have hd : c.density = (fun z => (c.firstSets m).density z.1 * (c.lastSets m).density z.2) ∘ partsOf c m := by
    funext x; exact h.density hm x
  have hmeas : Measurable fun z : (Fin (c.firstSets m).numParams → ℝ) × (Fin (c.lastSets m).numParams → ℝ) =>
      (c.firstSets m).density z.1 * (c.lastSets m).density z.2 :=
    ((c.firstSets m).measurable_density.comp measurable_fst).mul ((c.lastSets m).measurable_density.comp measurable_snd)
  rw [hd, ← (h.base hm).map_eq]
  ext s hs
  rw [Measure.map_apply measurable_partsOf hs, withDensity_apply _ (measurable_partsOf hs), withDensity_apply _ hs,
    setLIntegral_map hs hmeas measurable_partsOf]
  rfl

end LineCfg
end Mica
