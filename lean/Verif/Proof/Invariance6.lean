import Verif.Proof.Invariance5

/-!
# Helper lemmas for C109: moving one coordinate under a product measure; the continuum model
-/

open MeasureTheory Set
open scoped ENNReal

namespace Mica

variable {n : ℕ}

/-- The moved vector: coordinate `w` is displaced and folded into its window. -/
noncomputable def movedVec (w : Fin n) (lo hi : (Fin n → ℝ) → ℝ) (width : ℝ) (p : (Fin n → ℝ) × ℝ) :
    Fin n → ℝ :=
  Function.update p.1 w (foldTo (lo p.1) (hi p.1) (p.1 w + p.2 * width))

theorem measurable_movedVec (w : Fin n) {lo hi : (Fin n → ℝ) → ℝ} (hlo : Measurable lo)
    (hhi : Measurable hi) (width : ℝ) : Measurable (movedVec w lo hi width) := by
  unfold movedVec
  have h1 : Measurable fun p : (Fin n → ℝ) × ℝ =>
      foldTo (lo p.1) (hi p.1) (p.1 w + p.2 * width) := by
    have : Measurable fun p : (Fin n → ℝ) × ℝ => (lo p.1, hi p.1, p.1 w + p.2 * width) :=
      (hlo.comp measurable_fst).prodMk ((hhi.comp measurable_fst).prodMk (by fun_prop))
    exact measurable_foldTo.comp this
  refine measurable_pi_iff.2 fun i => ?_
  by_cases hi : i = w
  · subst hi
    simpa only [Function.update_self] using h1
  · simp only [Function.update_of_ne hi]
    fun_prop

open Classical in
/-- One coordinate `w` of a product measure is moved within a window that does not depend on it, and
accepted with a probability balanced against the density `ρ`. -/
theorem pi_metropolis (m : Fin n → Measure ℝ) [∀ i, SigmaFinite (m i)] (w : Fin n)
    (lo hi : (Fin n → ℝ) → ℝ) (hlo : Measurable lo) (hhi : Measurable hi)
    (hlow : ∀ y t, lo (Function.update y w t) = lo y) (hhiw : ∀ y t, hi (Function.update y w t) = hi y)
    (width : ℝ) (η : Measure ℝ) [IsProbabilityMeasure η] (hη : η.map (fun h => -h) = η)
    (ρ : (Fin n → ℝ) → ℝ≥0∞) (hρ : Measurable ρ) (A : (Fin n → ℝ) × (Fin n → ℝ) → ℝ)
    (hA : Measurable A)
    (hbal : ∀ y, ∀ t ∈ Ico (lo y) (hi y), ∀ q ∈ Ico (lo y) (hi y),
      ρ (Function.update y w t) * ENNReal.ofReal (Real.exp (min 0
        (A (Function.update y w t, Function.update y w q)))) =
      ρ (Function.update y w q) * ENNReal.ofReal (Real.exp (min 0
        (A (Function.update y w q, Function.update y w t)))))
    (hsupp : ∀ y (G : ℝ → ℝ≥0∞), ∫⁻ t, ρ (Function.update y w t) * G t ∂m w =
      ∫⁻ t in Ico (lo y) (hi y), ρ (Function.update y w t) * G t)
    (S : Set (Fin n → ℝ)) (hS : MeasurableSet S) (g : (Fin n → ℝ) → ℝ≥0∞) (hg : Measurable g) :
    ∫⁻ y, ρ y * S.indicator (fun y => ∫⁻ r, g (if r.2 ≤ Real.exp (min 0
          (A (y, movedVec w lo hi width (y, r.1)))) ∧ movedVec w lo hi width (y, r.1) ∈ S
        then movedVec w lo hi width (y, r.1) else y) ∂η.prod unif) y ∂Measure.pi m =
      ∫⁻ y, ρ y * S.indicator g y ∂Measure.pi m := by
  have hT := measurable_movedVec w hlo hhi width
  have hTr : Measurable fun p : (Fin n → ℝ) × ℝ × ℝ => movedVec w lo hi width (p.1, p.2.1) :=
    hT.comp (by fun_prop : Measurable fun p : (Fin n → ℝ) × ℝ × ℝ => (p.1, p.2.1))
  have hin : Measurable fun p : (Fin n → ℝ) × ℝ × ℝ => g (if p.2.2 ≤ Real.exp (min 0
          (A (p.1, movedVec w lo hi width (p.1, p.2.1)))) ∧ movedVec w lo hi width (p.1, p.2.1) ∈ S
        then movedVec w lo hi width (p.1, p.2.1) else p.1) := by
    refine hg.comp (Measurable.ite ?_ hTr measurable_fst)
    exact (measurableSet_le (by fun_prop) (Real.measurable_exp.comp (measurable_const.min
      (hA.comp (measurable_fst.prodMk hTr))))).inter (hTr hS)
  refine lintegral_pi_fibre m w (hρ.mul (hin.lintegral_prod_right'.indicator hS))
    (hρ.mul (hg.indicator hS)) fun y => ?_
  rw [hsupp, hsupp]
  by_cases hlt : lo y < hi y
  swap
  · rw [Ico_eq_empty hlt]; simp
  have hup : Measurable fun t : ℝ => Function.update y w t := measurable_update y
  have m1 := metropolis1 hlt width η hη (fun t => ρ (Function.update y w t)) (hρ.comp hup)
    (fun p => A (Function.update y w p.1, Function.update y w p.2))
    (hA.comp ((hup.comp measurable_fst).prodMk (hup.comp measurable_snd)))
    (hbal y) ((fun t => Function.update y w t) ⁻¹' S) (hup hS)
    (fun t => g (Function.update y w t)) (hg.comp hup)
  have hmv : ∀ t h, movedVec w lo hi width (Function.update y w t, h) =
      Function.update y w (foldTo (lo y) (hi y) (t + h * width)) := by
    intro t h
    simp only [movedVec, hlow, hhiw, Function.update_self, Function.update_idem]
  refine Eq.trans ?_ (m1.trans ?_)
  · refine lintegral_congr fun t => ?_
    by_cases ht : Function.update y w t ∈ S
    · rw [indicator_of_mem ht,
        indicator_of_mem (show t ∈ (fun t => Function.update y w t) ⁻¹' S from ht)]
      congr 1
      refine lintegral_congr fun r => ?_
      simp only [hmv, mem_preimage]
      split <;> rfl
    · rw [indicator_of_notMem ht,
        indicator_of_notMem (show t ∉ (fun t => Function.update y w t) ⁻¹' S from ht)]
      simp
  · refine lintegral_congr fun t => ?_
    by_cases ht : Function.update y w t ∈ S
    · rw [indicator_of_mem ht,
        indicator_of_mem (show t ∈ (fun t => Function.update y w t) ⁻¹' S from ht)]
    · rw [indicator_of_notMem ht,
        indicator_of_notMem (show t ∉ (fun t => Function.update y w t) ⁻¹' S from ht)]
      simp

/-! ## The continuum model -/

theorem conWidth_below (c : ConCfg n) (cands : List (Fin n)) (h : ℝ) (lv : ℕ) (size : ℤ)
    (lim lim' : ℤ → Fin n → ℝ × ℝ) (hl : ∀ l : ℤ, 0 ≤ l → l < lv → lim l = lim' l) (w : Fin n) :
    conWidth c ⟨cands, h, lv, size, lim⟩ w = conWidth c ⟨cands, h, lv, size, lim'⟩ w := by
  unfold conWidth
  dsimp only
  generalize hwl : (if (lv : ℤ) > size - 10 then size - 10 else (lv : ℤ)) = wl
  by_cases hp : wl > 0
  · have hle : wl ≤ lv := by rw [← hwl]; split <;> omega
    rw [if_pos hp, if_pos hp, hl (wl - 1) (by omega) (by omega)]
  · rw [if_neg hp, if_neg hp]

theorem con_keeps (c : ConCfg n) (cands : List (Fin n)) (w : Fin n) (hw : pickFree c cands = .ok w)
    (hlt : c.lo w < c.hi w) (η : Measure ℝ) [IsProbabilityMeasure η]
    (hη : η.map (fun h => -h) = η) : Keeps (conPerturb c) (conPrior c) η cands := by
  classical
  have hfree := pickFree_free c cands w hw
  have hval : ∀ h lv size lim x, conPerturb c ⟨cands, h, lv, size, lim⟩ x =
      .ok (movedVec w (fun _ => c.lo w) (fun _ => c.hi w)
        (conWidth c ⟨cands, 0, lv, size, lim⟩ w) (x, h), 0) := by
    intro h lv size lim x
    unfold conPerturb perturbCon
    rw [hw, Res.ok_bind, dnestWrap_fold hlt]
    rfl
  constructor
  · intro h lv size lim lim' x hl
    rw [hval, hval, conWidth_below c cands 0 lv size lim lim' hl w]
  · intro size lim
    refine ⟨fun lv => movedVec w (fun _ => c.lo w) (fun _ => c.hi w)
      (conWidth c ⟨cands, 0, lv, size, lim⟩ w), fun _ _ => 0,
      fun lv => measurable_movedVec w measurable_const measurable_const _,
      fun _ => measurable_const, ae_of_all _ fun x lv h => hval h lv size lim x, ?_⟩
    intro lv L hL thr g hg
    have hσ : ∀ i, SigmaFinite (match c.fix i with
      | some v => Measure.dirac v
      | none => (volume : Measure ℝ).restrict (Ico (c.lo i) (c.hi i))) := by
      intro i
      cases c.fix i <;> dsimp only <;> infer_instance
    have := pi_metropolis (fun i => match c.fix i with
      | some v => Measure.dirac v
      | none => (volume : Measure ℝ).restrict (Ico (c.lo i) (c.hi i))) w (fun _ => c.lo w)
      (fun _ => c.hi w) measurable_const measurable_const (fun _ _ => rfl) (fun _ _ => rfl)
      (conWidth c ⟨cands, 0, lv, size, lim⟩ w) η hη (fun _ => 1) measurable_const (fun _ => 0)
      measurable_const (fun _ _ _ _ _ => rfl) (fun y G => by simp only [hfree])
      {x | thr < L x} (measurableSet_above hL thr) g hg
    simp only [one_mul] at this
    unfold conPrior
    exact this

end Mica
