import Verif.Proof.Invariance4

/-!
# Helper lemmas for C109: one step, for any model's `perturb`
-/

open MeasureTheory Set
open scoped ENNReal

namespace Mica

variable {n : ℕ} {P : Perturb n} {μ : Measure (Fin n → ℝ)} {η : Measure ℝ} {cands : List (Fin n)}

/-- Particle moves preserve the mixture, whatever the weights. -/
theorem Keeps.particle (h : Keeps P μ η cands) (L : (Fin n → ℝ) → ℝ) (hL : Measurable L)
    (t : TaskSt n) (w : ℕ) (hw : w < t.particles.length) (tie uTie : ℝ)
    (W : Fin t.levels.length → ℝ≥0∞) (f : (Fin n → ℝ) → ℕ → ℝ≥0∞)
    (hf : ∀ j, Measurable fun x => f x j) :
    mixture μ L t.levels W (fun x j => ∫⁻ r, endValue w f
        (perturbUpdate P L w cands r.1 uTie r.2 (withParticle L t w tie x j)) ∂η.prod unif) =
      mixture μ L t.levels W f := by
  obtain ⟨Q, A, hQ, hA, hok, hinv⟩ := h.inv t.levels.length (limitAt t.limits)
  rw [← mixture_KP (ls := t.levels) hL hinv hf]
  refine mixture_congr fun j => hok.mono fun x hx => ?_
  unfold KP
  refine lintegral_congr fun r => ?_
  obtain ⟨t', ht', -, hat⟩ := (At.withParticle L t w hw tie x j).particle j.2 P cands r.1 uTie r.2
    _ (hx j r.1)
  rw [ht', hat.outcome]
  rfl

/-- Level moves preserve the mixture with the level weights. -/
theorem level_step (o : SOpts) (maxLv : ℕ) (e : Bool) (L : (Fin n → ℝ) → ℝ) (hL : Measurable L)
    (t : TaskSt n) (w : ℕ) (hw : w < t.particles.length) (tie : ℝ)
    (he : enoughLevels o maxLv t.levels = .ok e)
    (hlim : o.flagLimits = true → t.levels.length ≤ t.limits.length)
    (δ : Measure ℤ) [IsProbabilityMeasure δ] (hδ : δ.map (fun k => -k) = δ)
    (f : (Fin n → ℝ) → ℕ → ℝ≥0∞) (hf : ∀ j, Measurable fun x => f x j) :
    mixture μ L t.levels (levelWeight o e t.levels) (fun x j => ∫⁻ r, endValue w f
        (updateLevelAssignment o maxLv w ⟨r.1, r.2.1, r.2.2⟩ (withParticle L t w tie x j))
          ∂δ.prod (unif.prod unif)) =
      mixture μ L t.levels (levelWeight o e t.levels) f := by
  rw [← mixture_KL (ls := t.levels) hL o e hδ hf]
  refine mixture_congr fun j => ae_of_all _ fun x => ?_
  unfold KL
  refine lintegral_congr fun r => ?_
  obtain ⟨t', ht', -, hat, -⟩ := (At.withParticle L t w hw tie x j).level j.2 o maxLv e he hlim
    ⟨r.1, r.2.1, r.2.2⟩
  rw [ht', hat.outcome]
  rfl

theorem newLevel_lt (o : SOpts) (e : Bool) (ls : List Level) (l : ℝ) {j : ℕ} (hj : j < ls.length)
    (D : ℤ) (u : ℝ) : newLevel o e ls l j D u < ls.length := by
  unfold newLevel
  split
  · exact displaced_lt (by omega) D
  · exact hj

theorem LvSteps.newLevel {a b : List Level} (h : LvSteps a b) (o : SOpts) (e : Bool)
    (he : e = false ∨ o.beta = 0) (l : ℝ) (j : ℕ) (D : ℤ) (u : ℝ) :
    Mica.newLevel o e b l j D u = Mica.newLevel o e a l j D u := by
  unfold Mica.newLevel
  rw [h.length_eq, h.thr, h.acc o e he]

/-- A whole step preserves the mixture, as long as the weights do not depend on the counters. -/
theorem Keeps.step (h : Keeps P μ η cands) [IsProbabilityMeasure η] (o : SOpts) (maxLv : ℕ) (e : Bool)
    (heb : e = false ∨ o.beta = 0) (L : (Fin n → ℝ) → ℝ) (hL : Measurable L)
    (t : TaskSt n) (w : ℕ) (hw : w < t.particles.length) (tie uTie : ℝ)
    (he : enoughLevels o maxLv t.levels = .ok e)
    (hlim : o.flagLimits = true → t.levels.length ≤ t.limits.length)
    (δ : Measure ℤ) [IsProbabilityMeasure δ] (hδ : δ.map (fun k => -k) = δ)
    (f : (Fin n → ℝ) → ℕ → ℝ≥0∞) (hf : ∀ j, Measurable fun x => f x j) :
    mixture μ L t.levels (levelWeight o e t.levels) (fun x j => ∫⁻ r, endValue w f
        (samplerMove P o L maxLv w cands uTie r (withParticle L t w tie x j))
          ∂unif.prod ((η.prod unif).prod (δ.prod (unif.prod unif)))) =
      mixture μ L t.levels (levelWeight o e t.levels) f := by
  obtain ⟨Q, A, hQ, hA, hok, hinv⟩ := h.inv t.levels.length (limitAt t.limits)
  have hKL : ∀ j, Measurable fun x => KL o e L t.levels δ f x j := measurable_KL hL o e hf
  have hKP : ∀ j, Measurable fun x => KP L t.levels η Q A f x j := measurable_KP hL hQ hA hf
  -- the outcome of one step
  have hout : ∀ᵐ x ∂μ, ∀ (j : Fin t.levels.length) (r : ℝ × (ℝ × ℝ) × (ℤ × ℝ × ℝ)),
      endValue w f (samplerMove P o L maxLv w cands uTie r (withParticle L t w tie x j)) =
        if r.1 ≤ 0.5 then
          f (newPar L (thrOf t.levels j) (Q j) (A j) x r.2.1)
            (newLevel o e t.levels (L (newPar L (thrOf t.levels j) (Q j) (A j) x r.2.1)) j
              (disp r.2.2.1 r.2.2.2.1) r.2.2.2.2)
        else
          f (newPar L (thrOf t.levels (newLevel o e t.levels (L x) j (disp r.2.2.1 r.2.2.2.1) r.2.2.2.2))
              (Q (newLevel o e t.levels (L x) j (disp r.2.2.1 r.2.2.2.1) r.2.2.2.2))
              (A (newLevel o e t.levels (L x) j (disp r.2.2.1 r.2.2.2.1) r.2.2.2.2)) x r.2.1)
            (newLevel o e t.levels (L x) j (disp r.2.2.1 r.2.2.2.1) r.2.2.2.2) := by
    refine hok.mono fun x hx j r => ?_
    have h0 := At.withParticle L t w hw tie x j
    unfold samplerMove
    by_cases hr : r.1 ≤ 0.5
    · rw [if_pos hr, if_pos hr]
      obtain ⟨t1, ht1, hl1, hat1⟩ := h0.particle j.2 P cands r.2.1.1 uTie r.2.1.2 _ (hx j r.2.1.1)
      obtain ⟨t2, ht2, -, hat2, -⟩ := hat1.level j.2 o maxLv e he
        (by rw [hl1]; exact hlim) ⟨r.2.2.1, r.2.2.2.1, r.2.2.2.2⟩
      rw [ht1, Res.ok_bind, ht2, hat2.outcome]
      rw [hat1.steps.newLevel o e heb]
      rfl
    · rw [if_neg hr, if_neg hr]
      obtain ⟨t1, ht1, hlv, hat1, hl1⟩ := h0.level j.2 o maxLv e he hlim
        ⟨r.2.2.1, r.2.2.2.1, r.2.2.2.2⟩
      have hnl := newLevel_lt o e t.levels (L x) j.2 (disp r.2.2.1 r.2.2.2.1) r.2.2.2.2
      have hP : P ⟨cands, r.2.1.1, newLevel o e t.levels (L x) j (disp r.2.2.1 r.2.2.2.1) r.2.2.2.2,
          t.levels.length, limitAt t1.limits⟩ x = .ok
          (Q (newLevel o e t.levels (L x) j (disp r.2.2.1 r.2.2.2.1) r.2.2.2.2) (x, r.2.1.1),
           A (newLevel o e t.levels (L x) j (disp r.2.2.1 r.2.2.2.1) r.2.2.2.2) (x, r.2.1.1)) := by
        rw [← hx _ r.2.1.1]
        refine h.below _ _ _ _ _ _ fun l hl0 hl => ?_
        funext k
        unfold limitAt
        rw [hl1 l.toNat (by simp only [Mica.withParticle] at hl ⊢; omega)]
        rfl
      obtain ⟨t2, ht2, -, hat2⟩ := hat1.particle hnl P cands r.2.1.1 uTie r.2.1.2 _ hP
      rw [ht1, Res.ok_bind, ht2, hat2.outcome]
      rfl
  -- the integral over the random numbers
  have hint : ∀ᵐ x ∂μ, ∀ j : Fin t.levels.length, ∫⁻ r, endValue w f
      (samplerMove P o L maxLv w cands uTie r (withParticle L t w tie x j))
        ∂unif.prod ((η.prod unif).prod (δ.prod (unif.prod unif))) =
      ENNReal.ofReal 0.5 * KP L t.levels η Q A (KL o e L t.levels δ f) x j +
        (1 - ENNReal.ofReal 0.5) * KL o e L t.levels δ (KP L t.levels η Q A f) x j := by
    refine hout.mono fun x hx j => ?_
    have hm1 : Measurable fun r : (ℝ × ℝ) × (ℤ × ℝ × ℝ) =>
        f (newPar L (thrOf t.levels j) (Q j) (A j) x r.1)
            (newLevel o e t.levels (L (newPar L (thrOf t.levels j) (Q j) (A j) x r.1)) j
              (disp r.2.1 r.2.2.1) r.2.2.2) := by
      have hp : Measurable fun r : (ℝ × ℝ) × (ℤ × ℝ × ℝ) =>
          newPar L (thrOf t.levels j) (Q j) (A j) x r.1 :=
        (measurable_newPar hL _ (hQ j) (hA j)).comp (measurable_const.prodMk measurable_fst)
      refine measurable_at (F := fun (r : (ℝ × ℝ) × (ℤ × ℝ × ℝ)) k =>
        f (newPar L (thrOf t.levels j) (Q j) (A j) x r.1) k) ?_ fun k => (hf k).comp hp
      exact (measurable_newLevel_x hL o e j).comp (hp.prodMk measurable_snd)
    have hm2 : Measurable fun r : (ℝ × ℝ) × (ℤ × ℝ × ℝ) =>
        f (newPar L (thrOf t.levels (newLevel o e t.levels (L x) j (disp r.2.1 r.2.2.1) r.2.2.2))
              (Q (newLevel o e t.levels (L x) j (disp r.2.1 r.2.2.1) r.2.2.2))
              (A (newLevel o e t.levels (L x) j (disp r.2.1 r.2.2.1) r.2.2.2)) x r.1)
            (newLevel o e t.levels (L x) j (disp r.2.1 r.2.2.1) r.2.2.2) := by
      have hl : Measurable fun r : (ℝ × ℝ) × (ℤ × ℝ × ℝ) =>
          newLevel o e t.levels (L x) j (disp r.2.1 r.2.2.1) r.2.2.2 :=
        (measurable_newLevel_x (ls := t.levels) hL o e j).comp
          ((measurable_const (a := x)).prodMk measurable_snd)
      refine measurable_at (F := fun (r : (ℝ × ℝ) × (ℤ × ℝ × ℝ)) k =>
        f (newPar L (thrOf t.levels k) (Q k) (A k) x r.1) k) hl fun k => (hf k).comp ?_
      exact (measurable_newPar hL _ (hQ k) (hA k)).comp
        (measurable_const.prodMk measurable_fst)
    rw [lintegral_congr (hx j)]
    rw [lintegral_prod_symm]
    · dsimp only
      rw [lintegral_congr fun y : (ℝ × ℝ) × (ℤ × ℝ × ℝ) =>
        lintegral_accept (a := 0.5) (by norm_num) (by norm_num) _ _]
      rw [lintegral_add_left (hm1.const_mul _), lintegral_const_mul _ hm1, lintegral_const_mul _ hm2]
      congr 2
      · rw [lintegral_prod _ hm1.aemeasurable]
        rfl
      · rw [lintegral_prod_symm _ hm2.aemeasurable]
        rfl
    · refine (Measurable.ite ?_ (hm1.comp measurable_snd) (hm2.comp measurable_snd)).aemeasurable
      exact measurableSet_le measurable_fst measurable_const
  have e0 := mixture_congr (L := L) (W := levelWeight o e t.levels)
    (f := fun x j => ∫⁻ r, endValue w f
        (samplerMove P o L maxLv w cands uTie r (withParticle L t w tie x j))
          ∂unif.prod ((η.prod unif).prod (δ.prod (unif.prod unif))))
    (g := fun x j => ENNReal.ofReal 0.5 * KP L t.levels η Q A (KL o e L t.levels δ f) x j +
        (1 - ENNReal.ofReal 0.5) * KL o e L t.levels δ (KP L t.levels η Q A f) x j)
    fun j => hint.mono fun x hx => hx j
  rw [e0, mixture_lin hL (measurable_KP hL hQ hA hKL) (measurable_KL hL o e hKP),
    mixture_KP hL hinv hKL, mixture_KL hL o e hδ hKP, mixture_KL hL o e hδ hf,
    mixture_KP hL hinv hf, ← add_mul, add_tsub_cancel_of_le, one_mul]
  rw [← ENNReal.ofReal_one]
  exact ENNReal.ofReal_le_ofReal (by norm_num)

end Mica
