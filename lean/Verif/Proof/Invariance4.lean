import Verif.Proof.Invariance3

/-!
# Helper lemmas for C109: composing the two moves
-/

open MeasureTheory Set
open scoped ENNReal

namespace Mica

variable {n : ℕ}

theorem measurable_at {Y : Type*} [MeasurableSpace Y] {m : Y → ℕ} (hm : Measurable m)
    {γ : Type*} [MeasurableSpace γ] {F : Y → ℕ → γ} (hF : ∀ k, Measurable fun y => F y k) :
    Measurable fun y => F y (m y) :=
  (measurable_from_prod_countable_left (f := fun p : Y × ℕ => F p.1 p.2) hF).comp
    (measurable_id.prodMk hm)

/-! ## The particle move -/

open Classical in
/-- Parameters after a particle move with proposal `q` and `logH` `a`. -/
noncomputable def newPar (L : (Fin n → ℝ) → ℝ) (thr : ℝ) (q : (Fin n → ℝ) × ℝ → Fin n → ℝ)
    (a : (Fin n → ℝ) × ℝ → ℝ) (x : Fin n → ℝ) (r : ℝ × ℝ) : Fin n → ℝ :=
  if r.2 ≤ Real.exp (min 0 (a (x, r.1))) ∧ thr < L (q (x, r.1)) then q (x, r.1) else x

theorem measurable_newPar {L : (Fin n → ℝ) → ℝ} (hL : Measurable L) (thr : ℝ)
    {q : (Fin n → ℝ) × ℝ → Fin n → ℝ} (hq : Measurable q) {a : (Fin n → ℝ) × ℝ → ℝ}
    (ha : Measurable a) : Measurable fun p : (Fin n → ℝ) × ℝ × ℝ => newPar L thr q a p.1 p.2 := by
  have hp : Measurable fun p : (Fin n → ℝ) × ℝ × ℝ => (p.1, p.2.1) := by fun_prop
  unfold newPar
  refine Measurable.ite ?_ (hq.comp hp) measurable_fst
  exact (measurableSet_le (by fun_prop) (Real.measurable_exp.comp
    (measurable_const.min (ha.comp hp)))).inter
    (measurableSet_lt measurable_const (hL.comp (hq.comp hp)))

/-- What C109 needs of a model's `perturb` under the prior measure `μ`, the step law `η` and the
stream `cands` of random indices: the step width uses limits of lower levels only; proposal and
`logH` are measurable; and accepting with probability `min(1, exp(logH))` above any likelihood
threshold preserves `μ` above the threshold. -/
structure Keeps (P : Perturb n) (μ : Measure (Fin n → ℝ)) (η : Measure ℝ) (cands : List (Fin n)) :
    Prop where
  below : ∀ (h : ℝ) (lv : ℕ) (size : ℤ) (lim lim' : ℤ → Fin n → ℝ × ℝ) (x : Fin n → ℝ),
    (∀ l : ℤ, 0 ≤ l → l < lv → lim l = lim' l) →
    P ⟨cands, h, lv, size, lim⟩ x = P ⟨cands, h, lv, size, lim'⟩ x
  inv : ∀ (size : ℤ) (lim : ℤ → Fin n → ℝ × ℝ), ∃ (Q : ℕ → (Fin n → ℝ) × ℝ → Fin n → ℝ)
    (A : ℕ → (Fin n → ℝ) × ℝ → ℝ), (∀ lv, Measurable (Q lv)) ∧ (∀ lv, Measurable (A lv)) ∧
    (∀ᵐ x ∂μ, ∀ (lv : ℕ) h, P ⟨cands, h, lv, size, lim⟩ x = .ok (Q lv (x, h), A lv (x, h))) ∧
    ∀ (lv : ℕ) (L : (Fin n → ℝ) → ℝ), Measurable L → ∀ (thr : ℝ) (g : (Fin n → ℝ) → ℝ≥0∞),
      Measurable g → ∫⁻ x, {x | thr < L x}.indicator
        (fun x => ∫⁻ r, g (newPar L thr (Q lv) (A lv) x r) ∂η.prod unif) x ∂μ =
          ∫⁻ x, {x | thr < L x}.indicator g x ∂μ

theorem At.withParticle (L : (Fin n → ℝ) → ℝ) (t : TaskSt n) (w : ℕ) (hw : w < t.particles.length)
    (tie : ℝ) (x : Fin n → ℝ) (j : ℕ) : At L t.levels w x j (withParticle L t w tie x j) :=
  ⟨⟨tie, by simp [Mica.withParticle, hw]⟩, LvSteps.refl _⟩

theorem At.outcome {L : (Fin n → ℝ) → ℝ} {ls : List Level} {w j : ℕ} {x : Fin n → ℝ} {t : TaskSt n}
    (h : At L ls w x j t) (f : (Fin n → ℝ) → ℕ → ℝ≥0∞) : endValue w f (.ok t) = f x j := by
  obtain ⟨⟨tie, hp⟩, -⟩ := h
  simp [Mica.endValue, hp]

section
variable {μ : Measure (Fin n → ℝ)} {L : (Fin n → ℝ) → ℝ} {ls : List Level}
  {W : Fin ls.length → ℝ≥0∞}

theorem mixture_congr {f g : (Fin n → ℝ) → ℕ → ℝ≥0∞}
    (h : ∀ j : Fin ls.length, ∀ᵐ x ∂μ, f x j = g x j) : mixture μ L ls W f = mixture μ L ls W g := by
  unfold mixture
  refine Finset.sum_congr rfl fun j _ => ?_
  congr 1
  refine lintegral_congr_ae ((h j).mono fun x hx => ?_)
  by_cases hm : x ∈ {x | ls[j].logl.value < L x}
  · rw [indicator_of_mem hm, indicator_of_mem hm, hx]
  · rw [indicator_of_notMem hm, indicator_of_notMem hm]

theorem measurableSet_above (hL : Measurable L) (c : ℝ) : MeasurableSet {x | c < L x} :=
  measurableSet_lt measurable_const hL

theorem mixture_lin (hL : Measurable L) {f g : (Fin n → ℝ) → ℕ → ℝ≥0∞}
    (hf : ∀ j, Measurable fun x => f x j) (hg : ∀ j, Measurable fun x => g x j) (a b : ℝ≥0∞) :
    mixture μ L ls W (fun x j => a * f x j + b * g x j) =
      a * mixture μ L ls W f + b * mixture μ L ls W g := by
  unfold mixture
  rw [Finset.mul_sum, Finset.mul_sum, ← Finset.sum_add_distrib]
  refine Finset.sum_congr rfl fun j _ => ?_
  have hs := measurableSet_above hL ls[j].logl.value
  rw [lintegral_indicator hs, lintegral_indicator hs, lintegral_indicator hs,
    lintegral_add_left ((hf j).const_mul a), lintegral_const_mul _ (hf j),
    lintegral_const_mul _ (hg j)]
  ring

/-! ## The two kernels -/

/-- Expectation after a particle move. -/
noncomputable def KP (L : (Fin n → ℝ) → ℝ) (ls : List Level) (η : Measure ℝ)
    (Q : ℕ → (Fin n → ℝ) × ℝ → Fin n → ℝ) (A : ℕ → (Fin n → ℝ) × ℝ → ℝ)
    (f : (Fin n → ℝ) → ℕ → ℝ≥0∞) (x : Fin n → ℝ) (j : ℕ) : ℝ≥0∞ :=
  ∫⁻ r, f (newPar L (thrOf ls j) (Q j) (A j) x r) j ∂η.prod unif

/-- Expectation after a level move. -/
noncomputable def KL (o : SOpts) (e : Bool) (L : (Fin n → ℝ) → ℝ) (ls : List Level) (δ : Measure ℤ)
    (f : (Fin n → ℝ) → ℕ → ℝ≥0∞) (x : Fin n → ℝ) (j : ℕ) : ℝ≥0∞ :=
  ∫⁻ r, f x (newLevel o e ls (L x) j (disp r.1 r.2.1) r.2.2) ∂levelLaw δ

theorem measurable_KP (hL : Measurable L) {η : Measure ℝ} [IsProbabilityMeasure η]
    {Q : ℕ → (Fin n → ℝ) × ℝ → Fin n → ℝ} {A : ℕ → (Fin n → ℝ) × ℝ → ℝ}
    (hQ : ∀ lv, Measurable (Q lv)) (hA : ∀ lv, Measurable (A lv))
    {f : (Fin n → ℝ) → ℕ → ℝ≥0∞} (hf : ∀ j, Measurable fun x => f x j) (j : ℕ) :
    Measurable fun x => KP L ls η Q A f x j := by
  have : Measurable fun p : (Fin n → ℝ) × ℝ × ℝ =>
      f (newPar L (thrOf ls j) (Q j) (A j) p.1 p.2) j :=
    (hf j).comp (measurable_newPar hL _ (hQ j) (hA j))
  exact this.lintegral_prod_right'

/-- The new level as a function of parameters and random numbers. -/
theorem measurable_newLevel_x (hL : Measurable L) (o : SOpts) (e : Bool) (j : ℕ) :
    Measurable fun p : (Fin n → ℝ) × ℤ × ℝ × ℝ =>
      newLevel o e ls (L p.1) j (disp p.2.1 p.2.2.1) p.2.2.2 := by
  have h1 : Measurable fun p : (Fin n → ℝ) × ℤ × ℝ × ℝ => disp p.2.1 p.2.2.1 :=
    measurable_disp.comp (by fun_prop :
      Measurable fun p : (Fin n → ℝ) × ℤ × ℝ × ℝ => (p.2.1, p.2.2.1))
  have h2 : Measurable fun p : (Fin n → ℝ) × ℤ × ℝ × ℝ =>
      (((L p.1, j), (disp p.2.1 p.2.2.1, p.2.2.2)) : (ℝ × ℕ) × ℤ × ℝ) :=
    ((hL.comp measurable_fst).prodMk measurable_const).prodMk (h1.prodMk (by fun_prop))
  exact (measurable_newLevel o e ls).comp h2

theorem measurable_KL (hL : Measurable L) (o : SOpts) (e : Bool) {δ : Measure ℤ}
    [IsProbabilityMeasure δ] {f : (Fin n → ℝ) → ℕ → ℝ≥0∞} (hf : ∀ j, Measurable fun x => f x j)
    (j : ℕ) : Measurable fun x => KL o e L ls δ f x j := by
  have : Measurable fun p : (Fin n → ℝ) × ℤ × ℝ × ℝ =>
      f p.1 (newLevel o e ls (L p.1) j (disp p.2.1 p.2.2.1) p.2.2.2) :=
    measurable_at (F := fun (p : (Fin n → ℝ) × ℤ × ℝ × ℝ) k => f p.1 k)
      (measurable_newLevel_x hL o e j) fun k => (hf k).comp measurable_fst
  exact this.lintegral_prod_right'

theorem thrOf_fin (j : Fin ls.length) : thrOf ls j = ls[j].logl.value := by simp [thrOf]

theorem mixture_KP (hL : Measurable L) {η : Measure ℝ}
    {Q : ℕ → (Fin n → ℝ) × ℝ → Fin n → ℝ} {A : ℕ → (Fin n → ℝ) × ℝ → ℝ}
    (hinv : ∀ (lv : ℕ) (L : (Fin n → ℝ) → ℝ), Measurable L → ∀ (thr : ℝ) (g : (Fin n → ℝ) → ℝ≥0∞),
      Measurable g → ∫⁻ x, {x | thr < L x}.indicator
        (fun x => ∫⁻ r, g (newPar L thr (Q lv) (A lv) x r) ∂η.prod unif) x ∂μ =
          ∫⁻ x, {x | thr < L x}.indicator g x ∂μ)
    {f : (Fin n → ℝ) → ℕ → ℝ≥0∞} (hf : ∀ j, Measurable fun x => f x j) :
    mixture μ L ls W (KP L ls η Q A f) = mixture μ L ls W f := by
  unfold mixture
  refine Finset.sum_congr rfl fun j _ => ?_
  congr 1
  have := hinv j L hL ls[j].logl.value (fun x => f x j) (hf j)
  simp only [KP, thrOf_fin]
  exact this

theorem mixture_KL (hL : Measurable L) (o : SOpts) (e : Bool) {δ : Measure ℤ}
    [IsProbabilityMeasure δ] (hδ : δ.map (fun k => -k) = δ) {f : (Fin n → ℝ) → ℕ → ℝ≥0∞}
    (hf : ∀ j, Measurable fun x => f x j) :
    mixture μ L ls (levelWeight o e ls) (KL o e L ls δ f) =
      mixture μ L ls (levelWeight o e ls) f := by
  have sum_in : ∀ g : (Fin n → ℝ) → ℕ → ℝ≥0∞, (∀ j, Measurable fun x => g x j) →
      mixture μ L ls (levelWeight o e ls) g = ∫⁻ x, ∑ j : Fin ls.length,
        {l | ls[j].logl.value < l}.indicator (fun _ => levelWeight o e ls j * g x j) (L x) ∂μ := by
    intro g hg
    have e1 : ∀ (j : Fin ls.length) x,
        {l | ls[j].logl.value < l}.indicator (fun _ => levelWeight o e ls j * g x j) (L x) =
        {x | ls[j].logl.value < L x}.indicator (fun x => levelWeight o e ls j * g x j) x := by
      intro j x
      by_cases hm : ls[j].logl.value < L x
      · rw [indicator_of_mem (by exact hm), indicator_of_mem (by exact hm)]
      · rw [indicator_of_notMem (by exact hm), indicator_of_notMem (by exact hm)]
    simp only [e1]
    rw [lintegral_finsetSum _ fun (j : Fin ls.length) _ => ((hg j).const_mul (levelWeight o e ls j)).indicator
      (measurableSet_above hL ls[j].logl.value)]
    unfold mixture
    refine Finset.sum_congr rfl fun j _ => ?_
    have hs := measurableSet_above hL ls[j].logl.value
    rw [lintegral_indicator hs, lintegral_indicator hs, lintegral_const_mul _ (hg j)]
  rw [sum_in _ (measurable_KL hL o e hf), sum_in _ hf]
  exact lintegral_congr fun x => level_invariant o e ls δ hδ (L x) (f x)

end
end Mica
