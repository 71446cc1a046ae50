import Verif.Proof.Invariance1
import Verif.Props.SamplerMoves
import Verif.Proof.SamplerSafe
import Verif.Proof.SamplerSafe2

/-!
# Helper lemmas for C109: the level move, and what the two moves do to a particle
-/

open MeasureTheory Set
open scoped ENNReal

namespace Mica

/-! ## The displacement -/

/-- The displacement of a level move from its random numbers. -/
noncomputable def disp (k : ℤ) (u : ℝ) : ℤ := if k = 0 then (if u < 0.5 then -1 else 1) else k

theorem proposeLevel_disp (j : ℕ) (i : LAIn) : proposeLevel j i = j + disp i.step i.uDir := by
  unfold proposeLevel disp
  by_cases h : i.step = 0
  · rw [if_pos (by omega), if_pos h]
    split <;> omega
  · rw [if_neg (by omega), if_neg h]

theorem measurable_disp : Measurable fun p : ℤ × ℝ => disp p.1 p.2 := by
  unfold disp
  refine Measurable.ite ?_ (Measurable.ite ?_ measurable_const measurable_const) measurable_fst
  · exact measurable_fst (measurableSet_singleton 0)
  · exact measurableSet_lt measurable_snd measurable_const

theorem unif_half : unif (Iio 0.5) = ENNReal.ofReal 0.5 ∧ unif (Ici 0.5) = ENNReal.ofReal 0.5 := by
  constructor
  · rw [unif, Measure.restrict_apply measurableSet_Iio]
    have : Iio (0.5 : ℝ) ∩ Ico 0 1 = Ico 0 0.5 := by
      ext u; simp only [mem_inter_iff, mem_Iio, mem_Ico]
      constructor
      · rintro ⟨a, b, -⟩; exact ⟨b, a⟩
      · rintro ⟨a, b⟩; exact ⟨b, a, by norm_num at b ⊢; linarith⟩
    rw [this, Real.volume_Ico, sub_zero]
  · rw [unif, Measure.restrict_apply measurableSet_Ici]
    have : Ici (0.5 : ℝ) ∩ Ico 0 1 = Ico 0.5 1 := by
      ext u; simp only [mem_inter_iff, mem_Ici, mem_Ico]
      constructor
      · rintro ⟨a, b, c⟩; exact ⟨a, c⟩
      · rintro ⟨a, b⟩; exact ⟨a, by norm_num at a ⊢; linarith, b⟩
    rw [this, Real.volume_Ico]; norm_num

theorem lintegral_coin (X Y : ℝ≥0∞) :
    ∫⁻ u, (if u < 0.5 then X else Y) ∂unif = ENNReal.ofReal 0.5 * X + ENNReal.ofReal 0.5 * Y := by
  have e : (fun u : ℝ => if u < 0.5 then X else Y) =
      fun u => indicator (Iio 0.5) (fun _ => X) u + indicator (Ici 0.5) (fun _ => Y) u := by
    funext u
    by_cases h : u < 0.5
    · rw [if_pos h, indicator_of_mem (by exact h), indicator_of_notMem (by simpa using h), add_zero]
    · rw [if_neg h, indicator_of_notMem (by exact h), indicator_of_mem (by simpa using h), zero_add]
  rw [e, lintegral_add_left (measurable_const.indicator measurableSet_Iio),
    lintegral_indicator measurableSet_Iio, lintegral_indicator measurableSet_Ici,
    setLIntegral_const, setLIntegral_const, unif_half.1, unif_half.2, mul_comm X, mul_comm Y]

/-- The displacement has a symmetric law. -/
theorem disp_symm (δ : Measure ℤ) [IsProbabilityMeasure δ] (hδ : δ.map (fun k => -k) = δ) :
    ((δ.prod unif).map fun p => disp p.1 p.2).map (fun k => -k) =
      (δ.prod unif).map fun p => disp p.1 p.2 := by
  refine Measure.ext_of_lintegral _ fun G hG => ?_
  have hGn : Measurable fun k => G (-k) := hG.comp measurable_neg
  have hG2 : Measurable fun p : ℤ × ℝ => G (disp p.1 p.2) := hG.comp measurable_disp
  have hGn2 : Measurable fun p : ℤ × ℝ => G (-disp p.1 p.2) := hGn.comp measurable_disp
  rw [lintegral_map hG measurable_neg, lintegral_map hGn measurable_disp,
    lintegral_map hG measurable_disp, lintegral_prod _ hGn2.aemeasurable,
    lintegral_prod _ hG2.aemeasurable]
  have h1 : ∀ k : ℤ, ∫⁻ u, G (disp k u) ∂unif =
      if k = 0 then ENNReal.ofReal 0.5 * G (-1) + ENNReal.ofReal 0.5 * G 1 else G k := by
    intro k
    by_cases hk : k = 0
    · rw [if_pos hk, ← lintegral_coin]
      refine lintegral_congr fun u => ?_
      simp only [disp, hk, if_true]
      split <;> rfl
    · simp [disp, hk]
  have h2 : ∀ k : ℤ, ∫⁻ u, G (-disp k u) ∂unif = ∫⁻ u, G (disp (-k) u) ∂unif := by
    intro k
    by_cases hk : k = 0
    · rw [h1, if_pos (by omega), add_comm, ← lintegral_coin]
      refine lintegral_congr fun u => ?_
      simp only [disp, hk, if_true]
      split <;> simp
    · simp [disp, hk]
  rw [lintegral_congr h2]
  conv_rhs => rw [← hδ]
  rw [lintegral_map _ measurable_neg]
  exact Measurable.of_discrete

/-! ## The level move -/

/-- Acceptance probability of a level move. -/
noncomputable def levelAcc (o : SOpts) (e : Bool) (ls : List Level) (j q : ℕ) : ℝ :=
  match ls[j]?, ls[q]? with
  | some lc, some lp => min 1 (Real.exp (lc.logX - lp.logX +
      (if e then o.beta * (Real.log (lc.tries + 1) - Real.log (lp.tries + 1))
        else ((q : ℝ) - j) / o.lam)))
  | _, _ => 0

/-- Threshold of a level. -/
noncomputable def thrOf (ls : List Level) (j : ℕ) : ℝ := ((ls[j]?).map (·.logl.value)).getD 0

/-- The displaced level. -/
def displaced (J j : ℕ) (D : ℤ) : ℕ := (((j : ℤ) + D) % (J : ℤ)).toNat

/-- The level after a level move, for a particle of likelihood `l`. -/
noncomputable def newLevel (o : SOpts) (e : Bool) (ls : List Level) (l : ℝ) (j : ℕ) (D : ℤ) (u : ℝ) :
    ℕ :=
  if u ≤ levelAcc o e ls j (displaced ls.length j D) ∧ thrOf ls (displaced ls.length j D) < l then
    displaced ls.length j D else j

theorem displaced_lt {J j : ℕ} (hJ : 0 < J) (D : ℤ) : displaced J j D < J := by
  have h0 := Int.emod_nonneg ((j : ℤ) + D) (show (J : ℤ) ≠ 0 by omega)
  have h1 := Int.emod_lt_of_pos ((j : ℤ) + D) (show (0 : ℤ) < J by omega)
  unfold displaced
  omega

theorem displaced_back {J j : ℕ} (hj : j < J) (D : ℤ) :
    displaced J (displaced J j D) (-D) = j := by
  have h0 := Int.emod_nonneg ((j : ℤ) + D) (show (J : ℤ) ≠ 0 by omega)
  have e : ((displaced J j D : ℕ) : ℤ) = ((j : ℤ) + D) % J := by
    unfold displaced; rw [Int.toNat_of_nonneg h0]
  unfold displaced at *
  rw [e, Int.emod_add_emod, add_neg_cancel_right, Int.emod_eq_of_lt (by omega) (by omega)]
  simp

theorem levelAcc_nonneg (o : SOpts) (e : Bool) (ls : List Level) (j q : ℕ) :
    0 ≤ levelAcc o e ls j q ∧ levelAcc o e ls j q ≤ 1 := by
  unfold levelAcc
  split
  · exact ⟨le_min zero_le_one (Real.exp_pos _).le, min_le_left _ _⟩
  · exact ⟨le_rfl, zero_le_one⟩

/-- The balance of the level move. -/
theorem level_balance (o : SOpts) (e : Bool) (ls : List Level) (j q : Fin ls.length) :
    levelWeight o e ls j * ENNReal.ofReal (levelAcc o e ls j q) =
      levelWeight o e ls q * ENNReal.ofReal (levelAcc o e ls q j) := by
  have key : ∀ j : Fin ls.length, (if e then (((ls[j].tries : ℕ) : ℝ) + 1) ^ (-o.beta)
      else Real.exp ((j : ℕ) / o.lam)) / Real.exp ls[j].logX =
      Real.exp ((if e then -o.beta * Real.log ((ls[j].tries : ℕ) + 1) else (j : ℕ) / o.lam) -
        ls[j].logX) := by
    intro j
    rw [Real.exp_sub]
    congr 1
    split
    · rw [Real.rpow_def_of_pos (by positivity), mul_comm]
    · rfl
  have hmin : ∀ x : ℝ, min 1 (Real.exp x) = Real.exp (min 0 x) := by
    intro x; rw [Real.exp_monotone.map_min, Real.exp_zero]
  unfold levelWeight levelAcc
  rw [key, key]
  simp only [Fin.is_lt, List.getElem?_eq_getElem, Fin.getElem_fin, hmin]
  rw [← ENNReal.ofReal_mul (Real.exp_pos _).le, ← ENNReal.ofReal_mul (Real.exp_pos _).le,
    ← Real.exp_add, ← Real.exp_add]
  congr 2
  generalize ls[(j : ℕ)].logX = a
  generalize ls[(q : ℕ)].logX = b
  generalize Real.log ((ls[(j : ℕ)].tries : ℕ) + 1) = c
  generalize Real.log ((ls[(q : ℕ)].tries : ℕ) + 1) = d
  have hab : ∀ x y z : ℝ, y - x = z → x + min 0 z = y + min 0 (-z) := by
    intro x y z h
    rcases le_total 0 z with hz | hz
    · rw [min_eq_left hz, min_eq_right (by linarith)]; linarith
    · rw [min_eq_right hz, min_eq_left (by linarith)]; linarith
  cases e with
  | true =>
    simp only [if_true]
    rw [hab _ (-o.beta * d - b) _ (by ring)]
    congr 2; ring
  | false =>
    simp only [Bool.false_eq_true, if_false]
    rw [hab _ ((q : ℕ) / o.lam - b) _ (by ring)]
    congr 2; ring

theorem measurable_newLevel (o : SOpts) (e : Bool) (ls : List Level) :
    Measurable fun p : (ℝ × ℕ) × ℤ × ℝ => newLevel o e ls p.1.1 p.1.2 p.2.1 p.2.2 := by
  unfold newLevel
  have hd : Measurable fun p : ℕ × ℤ => displaced ls.length p.1 p.2 := Measurable.of_discrete
  have hjD : Measurable fun p : (ℝ × ℕ) × ℤ × ℝ => (p.1.2, p.2.1) := by fun_prop
  have ha : Measurable fun p : ℕ × ℤ => levelAcc o e ls p.1 (displaced ls.length p.1 p.2) :=
    Measurable.of_discrete
  have ht : Measurable fun p : ℕ × ℤ => thrOf ls (displaced ls.length p.1 p.2) :=
    Measurable.of_discrete
  refine Measurable.ite ?_ (hd.comp hjD) (by fun_prop)
  exact (measurableSet_le (by fun_prop) (ha.comp hjD)).inter
    (measurableSet_lt (ht.comp hjD) (by fun_prop))

/-- Random numbers of a level move: displacement, direction, acceptance. -/
noncomputable abbrev levelLaw (δ : Measure ℤ) : Measure (ℤ × ℝ × ℝ) := δ.prod (unif.prod unif)

theorem lintegral_levelLaw (δ : Measure ℤ) [IsProbabilityMeasure δ] (G : ℤ × ℝ → ℝ≥0∞)
    (hG : Measurable G) : ∫⁻ r, G (disp r.1 r.2.1, r.2.2) ∂levelLaw δ =
      ∫⁻ D, ∫⁻ u, G (D, u) ∂unif ∂((δ.prod unif).map fun p => disp p.1 p.2) := by
  have hm : Measurable fun r : ℤ × ℝ × ℝ => (disp r.1 r.2.1, r.2.2) :=
    (measurable_disp.comp (by fun_prop : Measurable fun r : ℤ × ℝ × ℝ => (r.1, r.2.1))).prodMk
      (by fun_prop)
  have hG1 : Measurable fun D => ∫⁻ u, G (D, u) ∂unif := hG.lintegral_prod_right'
  have h2 : Measurable fun r : ℤ × ℝ × ℝ => G (disp r.1 r.2.1, r.2.2) := hG.comp hm
  have h3 : Measurable fun p : ℤ × ℝ => ∫⁻ u, G (disp p.1 p.2, u) ∂unif := hG1.comp measurable_disp
  rw [lintegral_map hG1 measurable_disp, lintegral_prod _ h2.aemeasurable,
    lintegral_prod _ h3.aemeasurable]
  refine lintegral_congr fun k => ?_
  have hm2 : Measurable fun r : ℝ × ℝ => G (disp k r.1, r.2) :=
    h2.comp (measurable_const.prodMk measurable_id)
  rw [lintegral_prod _ hm2.aemeasurable]

/-- The level move preserves the level weights above the thresholds. -/
theorem level_invariant (o : SOpts) (e : Bool) (ls : List Level) (δ : Measure ℤ)
    [IsProbabilityMeasure δ] (hδ : δ.map (fun k => -k) = δ) (l : ℝ) (f : ℕ → ℝ≥0∞) :
    ∑ j : Fin ls.length, {l | ls[j].logl.value < l}.indicator (fun _ => levelWeight o e ls j *
        ∫⁻ r, f (newLevel o e ls l j (disp r.1 r.2.1) r.2.2) ∂levelLaw δ) l =
      ∑ j : Fin ls.length, {l | ls[j].logl.value < l}.indicator (fun _ =>
        levelWeight o e ls j * f j) l := by
  classical
  rcases Nat.eq_zero_or_pos ls.length with h0 | h0
  · have : IsEmpty (Fin ls.length) := by rw [h0]; infer_instance
    simp
  have hνp : IsProbabilityMeasure ((δ.prod unif).map fun p => disp p.1 p.2) :=
    Measure.isProbabilityMeasure_map measurable_disp.aemeasurable
  let T : Fin ls.length × ℤ → Fin ls.length := fun p => ⟨displaced ls.length p.1 p.2, displaced_lt h0 _⟩
  let R : Fin ls.length → ℝ≥0∞ := fun j => if ls[j].logl.value < l then levelWeight o e ls j else 0
  let α : Fin ls.length × Fin ls.length → ℝ≥0∞ := fun p =>
    if ls[p.2].logl.value < l then ENNReal.ofReal (levelAcc o e ls p.1 p.2) else 0
  have hα1 : ∀ p, α p ≤ 1 := by
    intro p
    simp only [α]
    split
    · rw [← ENNReal.ofReal_one]
      exact ENNReal.ofReal_le_ofReal (levelAcc_nonneg _ _ _ _ _).2
    · exact zero_le
  have hinv : ∀ D, Function.LeftInverse (fun j => T (j, -D)) (fun j => T (j, D)) := by
    intro D j
    exact Fin.ext (displaced_back j.2 D)
  have hbij : ∀ D, Function.Bijective fun j => T (j, D) := fun D =>
    Finite.injective_iff_bijective.1 (hinv D).injective
  have core := metropolis_core (Measure.count : Measure (Fin ls.length))
    ((δ.prod unif).map fun p => disp p.1 p.2) (disp_symm δ hδ) T Measurable.of_discrete α
    Measurable.of_discrete hα1 R (fun j => f j) Measurable.of_discrete Measurable.of_discrete
    (by
      intro D G _
      rw [lintegral_count, lintegral_count, tsum_fintype, tsum_fintype]
      exact (hbij D).sum_comp G)
    (by
      intro D
      refine ae_of_all _ fun j => ⟨?_, hinv D j⟩
      simp only [R, α]
      by_cases h1 : ls[j].logl.value < l <;> by_cases h2 : ls[T (j, D)].logl.value < l <;>
        simp only [h1, h2, if_true, if_false, mul_zero, zero_mul]
      exact level_balance o e ls j _)
  rw [lintegral_count, lintegral_count, tsum_fintype, tsum_fintype] at core
  have hleft : ∀ j : Fin ls.length, {l | ls[j].logl.value < l}.indicator (fun _ => levelWeight o e ls j *
        ∫⁻ r, f (newLevel o e ls l j (disp r.1 r.2.1) r.2.2) ∂levelLaw δ) l =
      ∫⁻ D, R j * (α (j, T (j, D)) * f (T (j, D)) + (1 - α (j, T (j, D))) * f j)
        ∂((δ.prod unif).map fun p => disp p.1 p.2) := by
    intro j
    rw [lintegral_const_mul _ Measurable.of_discrete]
    have hG0 : Measurable fun p : ℤ × ℝ => newLevel o e ls l j p.1 p.2 :=
      (measurable_newLevel o e ls).comp
        ((measurable_const (a := ((l, (j : ℕ)) : ℝ × ℕ))).prodMk measurable_id)
    have hG : Measurable fun p : ℤ × ℝ => f (newLevel o e ls l j p.1 p.2) :=
      (Measurable.of_discrete (f := f)).comp hG0
    have hin : ∫⁻ r, f (newLevel o e ls l j (disp r.1 r.2.1) r.2.2) ∂levelLaw δ =
        ∫⁻ D, (α (j, T (j, D)) * f (T (j, D)) + (1 - α (j, T (j, D))) * f j)
          ∂((δ.prod unif).map fun p => disp p.1 p.2) := by
      rw [lintegral_levelLaw δ (fun p => f (newLevel o e ls l j p.1 p.2)) hG]
      refine lintegral_congr fun D => ?_
      have hthr : thrOf ls (displaced ls.length j D) = ls[T (j, D)].logl.value := by
        simp [thrOf, T, displaced_lt h0 D]
      simp only [newLevel, hthr, α]
      by_cases h2 : ls[T (j, D)].logl.value < l
      · simp only [h2, and_true, if_true]
        rw [← lintegral_accept (levelAcc_nonneg o e ls j (T (j, D))).1
          (levelAcc_nonneg o e ls j (T (j, D))).2]
        refine lintegral_congr fun u => ?_
        simp only [T]
        split <;> rfl
      · simp only [h2, and_false, if_false, lintegral_const, measure_univ, mul_one, zero_mul,
          zero_add, tsub_zero, one_mul]
    rw [hin]
    by_cases h1 : ls[j].logl.value < l
    · rw [indicator_of_mem (by exact h1)]
      simp only [R, h1, if_true]
    · rw [indicator_of_notMem (by exact h1)]
      simp only [R, h1, if_false, zero_mul]
  rw [Finset.sum_congr rfl fun j _ => hleft j, core]
  refine Finset.sum_congr rfl fun j _ => ?_
  by_cases h1 : ls[j].logl.value < l
  · rw [indicator_of_mem (by exact h1)]
    simp only [R, h1, if_true]
  · rw [indicator_of_notMem (by exact h1)]
    simp only [R, h1, if_false, zero_mul]

end Mica
