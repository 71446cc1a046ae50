import Verif.Props.LevelMean
import Verif.Props.Whole
import Mathlib.Analysis.MeanInequalitiesPow
import Mathlib.Analysis.SpecialFunctions.Pow.Real

/-!
# C148: bounds on the evidence, and what the temperature does to it
-/

namespace Mica

theorem zipWith_sum_fin {β γ : Type} (f : β → γ → ℝ) (a : List β) (b : List γ) (h : a.length = b.length) :
    (List.zipWith f a b).sum = ∑ i : Fin b.length, f (a[i.1]'(by rw [h]; exact i.2)) b[i] := by
  have : List.zipWith f a b = List.ofFn fun i : Fin b.length => f (a[i.1]'(by rw [h]; exact i.2)) b[i] := by
    apply List.ext_getElem
    · simp [h]
    · intro i h1 h2
      simp
  rw [this, List.sum_ofFn]

/-- **C148.** One prior mass for every saved sample, positive and 1 in total, whatever the temperature: the evidence is the
mean of the tempered likelihoods with these masses, and the information the mean of the gain with the posterior
probabilities. -/
theorem C148_masses {α : Type} (T₀ : ℝ) (levels : List PLevel) (info : List PInfo) (samples₀ : List α)
    (draws₀ : List (ℕ × ℝ)) (out₀ : PostOut α) (h₀ : postprocess T₀ levels info samples₀ draws₀ = .ok out₀) :
    ∃ w : Fin info.length → ℝ, (∀ i, 0 < w i) ∧ ∑ i, w i = 1 ∧
      ∀ (T : ℝ) (samples : List α) (draws : List (ℕ × ℝ)) (out : PostOut α),
        postprocess T levels info samples draws = .ok out →
        Real.exp out.logz = ∑ i, w i * Real.exp (info[i].logl / T) ∧
        out.info = ∑ i, w i * Real.exp (info[i].logl / T) / Real.exp out.logz * (info[i].logl / T - out.logz) := by
  obtain ⟨logp, logx, lP, top, idx, hm, hev, -⟩ := postprocess_ok h₀
  obtain ⟨hl1, hl2⟩ := massArrays_length hm
  have h0 : logp ≠ [] := by
    rintro rfl
    simp [evidence, logsumexp] at hev
  have hS0 : 0 < (logp.map Real.exp).sum := sum_exp_pos h0
  set S := (logp.map Real.exp).sum with hS
  refine ⟨fun i => Real.exp (logp[i.1]'(by rw [hl1]; exact i.2)) / S, fun i => div_pos (Real.exp_pos _) hS0, ?_, ?_⟩
  · rw [← Finset.sum_div, div_eq_one_iff_eq hS0.ne', hS]
    have := zipWith_sum_fin (fun (x : ℝ) (_ : PInfo) => Real.exp x) logp info hl1
    rw [← this]
    congr 1
    apply List.ext_getElem
    · simp [hl1]
    · intro i h1 h2; simp
  · intro T samples draws out h
    obtain ⟨logp', logx', lP', top', idx', hm', hev', -⟩ := postprocess_ok h
    rw [hm] at hm'
    cases hm'
    obtain ⟨z', h', e', lQ, heq, hl, hs, hlP, hz, hh, he⟩ :=
      evidence_ok (logl := info.map (fun p => p.logl / T)) h0 (by simpa using hl1)
    rw [hev'] at heq
    simp only [Res.ok.injEq, Prod.mk.injEq] at heq
    obtain ⟨rfl, rfl, rfl, rfl⟩ := heq
    have hz' : Real.exp out.logz =
        ∑ i : Fin info.length, Real.exp (logp[i.1]'(by rw [hl1]; exact i.2)) / S * Real.exp (info[i].logl / T) := by
      obtain ⟨lp, lx, hm2, -, hz2, -⟩ := postprocess_mass h
      rw [hm] at hm2
      cases hm2
      rw [hz2, ← hS, List.zipWith_map_left, zipWith_sum_fin _ logp info hl1, Finset.sum_div]
      refine Finset.sum_congr rfl fun i _ => ?_
      ring
    refine ⟨hz', ?_⟩
    have hPi : ∀ (i : ℕ) (h1 : i < lP'.length) (h2 : i < info.length) (h3 : i < logp.length),
        Real.exp lP'[i] = Real.exp logp[i] / S * Real.exp (info[i].logl / T) / Real.exp out.logz := by
      intro i h1 h2 h3
      have : lP'[i] = logp[i] - Real.log S + info[i].logl / T - out.logz := by
        simp only [hlP, List.getElem_map, List.getElem_zipWith, ← hS]
      rw [this, Real.exp_sub, Real.exp_add, Real.exp_sub, Real.exp_log hS0]
    have hzip : ((lP'.zip (info.map fun p => p.logl / T)).map fun e => Real.exp e.1 * e.2).sum =
        ∑ i : Fin info.length, Real.exp (logp[i.1]'(by rw [hl1]; exact i.2)) / S * Real.exp (info[i].logl / T) /
          Real.exp out.logz * (info[i].logl / T) := by
      have e : (lP'.zip (info.map fun p => p.logl / T)).map (fun e => Real.exp e.1 * e.2) =
          List.zipWith (fun x p => Real.exp x * (PInfo.logl p / T)) lP' info := by
        apply List.ext_getElem
        · simp
        · intro i h1 h2; simp
      rw [e, zipWith_sum_fin _ lP' info (by rw [hl, hl1])]
      refine Finset.sum_congr rfl fun i _ => ?_
      rw [hPi i.1 (by rw [hl, hl1]; exact i.2) i.2 (by rw [hl1]; exact i.2)]
      rfl
    have hone : ∑ i : Fin info.length, Real.exp (logp[i.1]'(by rw [hl1]; exact i.2)) / S * Real.exp (info[i].logl / T) /
        Real.exp out.logz = 1 := by
      rw [← Finset.sum_div, ← hz', div_self (Real.exp_pos _).ne']
    rw [hh, hzip]
    simp only [mul_sub, Finset.sum_sub_distrib, ← Finset.sum_mul, hone]
    ring

/-- **C148.** The evidence lies between the likelihoods of the worst and of the best sample, and the information is at most
the gain of the best sample over the evidence. -/
theorem C148_bounds {α : Type} (T a b : ℝ) (hT : 0 < T) (levels : List PLevel) (info : List PInfo) (samples : List α)
    (draws : List (ℕ × ℝ)) (out : PostOut α) (h : postprocess T levels info samples draws = .ok out)
    (hab : ∀ p ∈ info, a ≤ p.logl ∧ p.logl ≤ b) :
    a / T ≤ out.logz ∧ out.logz ≤ b / T ∧ 0 ≤ out.info ∧ out.info ≤ b / T - out.logz := by
  obtain ⟨w, w0, w1, hw⟩ := C148_masses T levels info samples draws out h
  obtain ⟨hz, hi⟩ := hw T samples draws out h
  have hmem : ∀ i : Fin info.length, a ≤ info[i].logl ∧ info[i].logl ≤ b := fun i => hab _ (List.getElem_mem _)
  refine ⟨?_, ?_, (C21_ess T levels info samples draws out h).2.2.2.2.2.2, ?_⟩
  · rw [← Real.exp_le_exp, hz]
    calc Real.exp (a / T) = ∑ i, w i * Real.exp (a / T) := by rw [← Finset.sum_mul, w1, one_mul]
      _ ≤ _ := Finset.sum_le_sum fun i _ => mul_le_mul_of_nonneg_left
        (Real.exp_le_exp.2 (div_le_div_of_nonneg_right (hmem i).1 hT.le)) (w0 i).le
  · rw [← Real.exp_le_exp, hz]
    calc ∑ i, w i * Real.exp (info[i].logl / T) ≤ ∑ i, w i * Real.exp (b / T) := Finset.sum_le_sum fun i _ =>
          mul_le_mul_of_nonneg_left (Real.exp_le_exp.2 (div_le_div_of_nonneg_right (hmem i).2 hT.le)) (w0 i).le
      _ = Real.exp (b / T) := by rw [← Finset.sum_mul, w1, one_mul]
  · have hone : ∑ i, w i * Real.exp (info[i].logl / T) / Real.exp out.logz = 1 := by
      rw [← Finset.sum_div, ← hz, div_self (Real.exp_pos _).ne']
    rw [hi]
    calc ∑ i, w i * Real.exp (info[i].logl / T) / Real.exp out.logz * (info[i].logl / T - out.logz)
        ≤ ∑ i, w i * Real.exp (info[i].logl / T) / Real.exp out.logz * (b / T - out.logz) :=
          Finset.sum_le_sum fun i _ => mul_le_mul_of_nonneg_left
          (by have := div_le_div_of_nonneg_right (hmem i).2 hT.le; linarith)
          (div_nonneg (mul_nonneg (w0 i).le (Real.exp_pos _).le) (Real.exp_pos _).le)
      _ = b / T - out.logz := by rw [← Finset.sum_mul, hone, one_mul]

/-- The mean log-likelihood of the posterior: the information is the mean of the gain. -/
theorem C148_mean {α : Type} {T : ℝ} {info : List PInfo} {out : PostOut α}
    {w : Fin info.length → ℝ} (hz : Real.exp out.logz = ∑ i, w i * Real.exp (info[i].logl / T))
    (hi : out.info = ∑ i, w i * Real.exp (info[i].logl / T) / Real.exp out.logz * (info[i].logl / T - out.logz)) :
    out.info + out.logz = ∑ i, w i * Real.exp (info[i].logl / T) / Real.exp out.logz * (info[i].logl / T) := by
  have hone : ∑ i, w i * Real.exp (info[i].logl / T) / Real.exp out.logz = 1 := by
    rw [← Finset.sum_div, ← hz, div_self (Real.exp_pos _).ne']
  rw [hi]
  simp only [mul_sub, Finset.sum_sub_distrib, ← Finset.sum_mul, hone]
  ring

/-- **C148.** The evidences of the same samples at two temperatures: the one at `T'` is at least that at `T` plus
`T/T' - 1` times the posterior mean of the tempered log-likelihood, which is information plus evidence. -/
theorem C148_gibbs {α : Type} (T T' : ℝ) (hT : 0 < T) (hT' : 0 < T') (levels : List PLevel) (info : List PInfo)
    (samples samples' : List α) (draws draws' : List (ℕ × ℝ)) (out out' : PostOut α)
    (h : postprocess T levels info samples draws = .ok out) (h' : postprocess T' levels info samples' draws' = .ok out') :
    out.logz + (T / T' - 1) * (out.info + out.logz) ≤ out'.logz := by
  obtain ⟨w, w0, w1, hw⟩ := C148_masses T levels info samples draws out h
  obtain ⟨hz, hi⟩ := hw T samples draws out h
  obtain ⟨hz', -⟩ := hw T' samples' draws' out' h'
  set P := fun i : Fin info.length => w i * Real.exp (info[i].logl / T) / Real.exp out.logz with hP
  have hone : ∑ i, P i = 1 := by
    rw [hP, ← Finset.sum_div, ← hz, div_self (Real.exp_pos _).ne']
  have hP0 : ∀ i, 0 ≤ P i := fun i => div_nonneg (mul_nonneg (w0 i).le (Real.exp_pos _).le) (Real.exp_pos _).le
  have hm := C148_mean hz hi
  have jensen := convexOn_exp.map_sum_le (t := Finset.univ) (w := P)
    (p := fun i : Fin info.length => (T / T' - 1) * (info[i].logl / T)) (fun i _ => hP0 i) hone (fun _ _ => trivial)
  simp only [smul_eq_mul] at jensen
  have e1 : ∑ i, P i * ((T / T' - 1) * (info[i].logl / T)) = (T / T' - 1) * (out.info + out.logz) := by
    rw [hm, Finset.mul_sum]
    exact Finset.sum_congr rfl fun i _ => by simp only [hP]; ring
  have e2 : ∑ i, P i * Real.exp ((T / T' - 1) * (info[i].logl / T)) = Real.exp (out'.logz - out.logz) := by
    rw [Real.exp_sub, hz', Finset.sum_div]
    refine Finset.sum_congr rfl fun i _ => ?_
    have : info[i].logl / T' = info[i].logl / T + (T / T' - 1) * (info[i].logl / T) := by
      field_simp; ring
    rw [this, Real.exp_add]
    simp only [hP]
    ring
  rw [e1, e2, Real.exp_le_exp] at jensen
  linarith

/-- **C148.** The posterior mean of the log-likelihood, temperature times information plus evidence, never rises with the
temperature. -/
theorem C148_hotter {α : Type} (T T' : ℝ) (hT : 0 < T) (hTT : T ≤ T') (levels : List PLevel) (info : List PInfo)
    (samples samples' : List α) (draws draws' : List (ℕ × ℝ)) (out out' : PostOut α)
    (h : postprocess T levels info samples draws = .ok out) (h' : postprocess T' levels info samples' draws' = .ok out') :
    T' * (out'.info + out'.logz) ≤ T * (out.info + out.logz) := by
  have hT' : 0 < T' := lt_of_lt_of_le hT hTT
  rcases hTT.eq_or_lt with rfl | hlt
  · obtain ⟨w, w0, w1, hw⟩ := C148_masses T levels info samples draws out h
    obtain ⟨hz, hi⟩ := hw T samples draws out h
    obtain ⟨hz', hi'⟩ := hw T samples' draws' out' h'
    have e : out'.logz = out.logz := Real.exp_injective (by rw [hz, hz'])
    rw [C148_mean hz hi, C148_mean hz' hi', e]
  · have g1 := C148_gibbs T T' hT hT' levels info samples samples' draws draws' out out' h h'
    have g2 := C148_gibbs T' T hT' hT levels info samples' samples draws' draws out' out h' h
    have e1 : T / T' - 1 = -((T' - T) / T') := by field_simp; ring
    have e2 : T' / T - 1 = (T' - T) / T := by field_simp
    rw [e1] at g1
    rw [e2] at g2
    have hd : 0 < T' - T := sub_pos.2 hlt
    have key : (T' - T) / T * (out'.info + out'.logz) ≤ (T' - T) / T' * (out.info + out.logz) := by linarith
    have k2 := mul_le_mul_of_nonneg_left key (div_pos (mul_pos hT hT') hd).le
    have r1 : T * T' / (T' - T) * ((T' - T) / T * (out'.info + out'.logz)) = T' * (out'.info + out'.logz) := by
      field_simp
    have r2 : T * T' / (T' - T) * ((T' - T) / T' * (out.info + out.logz)) = T * (out.info + out.logz) := by
      field_simp
    rwa [r1, r2] at k2

/-- **C148.** Temperature times log-evidence never rises with the temperature. -/
theorem C148_temper {α : Type} (T T' : ℝ) (hT : 0 < T) (hTT : T ≤ T') (levels : List PLevel) (info : List PInfo)
    (samples samples' : List α) (draws draws' : List (ℕ × ℝ)) (out out' : PostOut α)
    (h : postprocess T levels info samples draws = .ok out) (h' : postprocess T' levels info samples' draws' = .ok out') :
    T' * out'.logz ≤ T * out.logz := by
  have hT' : 0 < T' := lt_of_lt_of_le hT hTT
  obtain ⟨w, w0, w1, hw⟩ := C148_masses T levels info samples draws out h
  obtain ⟨hz, -⟩ := hw T samples draws out h
  obtain ⟨hz', -⟩ := hw T' samples' draws' out' h'
  have hp : 1 ≤ T' / T := by rwa [one_le_div hT]
  have key := Real.rpow_arith_mean_le_arith_mean_rpow Finset.univ w (fun i => Real.exp (info[i].logl / T'))
    (fun i _ => (w0 i).le) w1 (fun i _ => (Real.exp_pos _).le) hp
  have e : ∀ i : Fin info.length, Real.exp (info[i].logl / T') ^ (T' / T) = Real.exp (info[i].logl / T) := by
    intro i
    rw [← Real.exp_mul]
    congr 1
    field_simp
  simp only [e] at key
  rw [← hz, ← hz', ← Real.exp_mul, Real.exp_le_exp] at key
  have := mul_le_mul_of_nonneg_left key hT.le
  have r : T * (out'.logz * (T' / T)) = T' * out'.logz := by field_simp
  linarith

/-- **C148.** The evidence of a run of the continuum model lies between any bounds of the likelihood on the prior. -/
theorem C148_con {n : ℕ} (c : ConCfg n) (hr : ∀ i, c.lo i ≤ c.hi i) {L : (Fin n → ℝ) → ℝ} (hL : ∀ x, -DBL_MAX ≤ L x)
    {o : SOpts} (ho : GoodOpts o) (h32 : o.maxNumLevels < 2 ^ 32) {s : Sampler n}
    (h : WholeRun (conPerturb c) (ConDrawn c) L o s) (a b : ℝ)
    (hab : ∀ x, (∀ i, c.fix i = none → c.lo i ≤ x i ∧ x i ≤ c.hi i) → (∀ i v, c.fix i = some v → x i = v) → a ≤ L x ∧ L x ≤ b)
    {α : Type} (T : ℝ) (hT : 0 < T) (levels : List PLevel) (info : List PInfo)
    (hi : ∀ p ∈ info, ∃ q ∈ s.saved, p.logl = q.logl.value) (samples : List α) (draws : List (ℕ × ℝ)) (out : PostOut α)
    (hp : postprocess T levels info samples draws = .ok out) : a / T ≤ out.logz ∧ out.logz ≤ b / T := by
  have := C148_bounds T a b hT levels info samples draws out hp fun p hp => by
    obtain ⟨q, hq, e⟩ := hi p hp
    obtain ⟨q1, q2, q3⟩ := C146_con c hr hL ho h32 h q (.inr hq)
    rw [e, q3]
    exact hab _ q1 q2
  exact ⟨this.1, this.2.1⟩

/-- **C148.** The same for a run of the line models; the likelihood need only be bounded on vectors inside the prior. -/
theorem C148_line (c : LineCfg) (hr : c.RangesOk) (hs : c.SharedOk) (hp : c.posivity = false)
    (hg : c.gap → ∀ i < c.nl.length, 0 < c.nl.getD i 0) {L : (Fin c.numParams → ℝ) → ℝ} (hL : ∀ x, -DBL_MAX ≤ L x)
    {o : SOpts} (ho : GoodOpts o) (h32 : o.maxNumLevels < 2 ^ 32) {s : Sampler c.numParams}
    (h : WholeRun (linePerturb c) (LineDrawn c) L o s) (a b : ℝ)
    (hab : ∀ x : Fin c.numParams → ℝ, (∀ i : Fin c.numParams, c.fix i = none → (c.rng i).1 ≤ x i ∧ x i ≤ (c.rng i).2) →
      a ≤ L x ∧ L x ≤ b)
    {α : Type} (T : ℝ) (hT : 0 < T) (levels : List PLevel) (info : List PInfo)
    (hi : ∀ p ∈ info, ∃ q ∈ s.saved, p.logl = q.logl.value) (samples : List α) (draws : List (ℕ × ℝ)) (out : PostOut α)
    (hpp : postprocess T levels info samples draws = .ok out) : a / T ≤ out.logz ∧ out.logz ≤ b / T := by
  have := C148_bounds T a b hT levels info samples draws out hpp fun p hp' => by
    obtain ⟨q, hq, e⟩ := hi p hp'
    obtain ⟨q1, -, -, -, q3⟩ := C146_line c hr hs hp hg hL ho h32 h q (.inr hq)
    rw [e, q3]
    exact hab _ q1
  exact ⟨this.1, this.2.1⟩

/-- The example samples of C20 to C22, tempered. -/
theorem ex_postprocess_hot : ∃ out, postprocess 2 exLevels exInfo ["a", "b", "c"] exPDraws = .ok out := by
  apply C22_terminates 2 exLevels exLevels_good
  · simp [exInfo]
  · simp [exInfo, exLevels]
  · simp [exInfo]
  · intro d hd
    simp only [exPDraws, List.mem_cons, List.not_mem_nil, or_false] at hd
    rcases hd with rfl | rfl | rfl | rfl | rfl | rfl | rfl | rfl | rfl <;> norm_num [exInfo]
  · intro w hw
    simp only [exInfo, List.length_cons, List.length_nil] at hw ⊢
    interval_cases w <;> simp [exPDraws]

/-- The bounds and the comparison of temperatures, on three samples of likelihoods -5, -3 and 2. -/
example : ∃ out hot : PostOut String, postprocess 1 exLevels exInfo ["a", "b", "c"] exPDraws = .ok out ∧
    postprocess 2 exLevels exInfo ["a", "b", "c"] exPDraws = .ok hot ∧ -5 ≤ out.logz ∧ out.logz ≤ 2 ∧
    -5 / 2 ≤ hot.logz ∧ hot.logz ≤ 1 ∧ 2 * hot.logz ≤ out.logz ∧
    2 * (hot.info + hot.logz) ≤ out.info + out.logz := by
  obtain ⟨out, ho⟩ := ex_postprocess
  obtain ⟨hot, hh⟩ := ex_postprocess_hot
  have hb : ∀ p ∈ exInfo, (-5 : ℝ) ≤ p.logl ∧ p.logl ≤ 2 := by
    intro p hp
    simp only [exInfo, List.mem_cons, List.not_mem_nil, or_false] at hp
    rcases hp with rfl | rfl | rfl <;> norm_num
  have b1 := C148_bounds 1 (-5) 2 one_pos _ _ _ _ _ ho hb
  have b2 := C148_bounds 2 (-5) 2 two_pos _ _ _ _ _ hh hb
  have t1 := C148_temper 1 2 one_pos (by norm_num) _ _ _ _ _ _ _ _ ho hh
  have t2 := C148_hotter 1 2 one_pos (by norm_num) _ _ _ _ _ _ _ _ ho hh
  norm_num at b1 b2 t1 t2
  exact ⟨out, hot, ho, hh, b1.1, b1.2.1, by linarith [b2.1], b2.2.1, t1, t2⟩

/-- A run of the continuum model of C146 and its evidence. -/
example : ∃ (s : Sampler 1) (out : PostOut String),
    WholeRun (conPerturb wholeCfg) (ConDrawn wholeCfg) exL { exOpts with maxNumSaves := 5 } s ∧
    postprocess 1 exLevels [⟨0, 3, 1 / 2⟩] ["a"] [(0, 1 / 2)] = .ok out ∧ 0 ≤ out.logz ∧ out.logz ≤ 10 := by
  obtain ⟨s, h, h2, _⟩ := whole_run
  obtain ⟨out, ho⟩ := C22_terminates 1 exLevels exLevels_good [⟨0, 3, 1 / 2⟩] (by simp) (by simp [exLevels]) ["a"] (by simp)
    [(0, 1 / 2)] (by intro d hd; rw [List.mem_singleton] at hd; subst hd; norm_num) (by intro w hw; simp at hw; simp [hw])
  refine ⟨s, out, h, ho, ?_⟩
  have := C148_con wholeCfg (fun _ => by norm_num [wholeCfg]) (L := exL) exL_bound (by constructor <;> simp) (by simp) h 0 10 ?_
    1 one_pos exLevels [⟨0, 3, 1 / 2⟩] ?_ ["a"] _ out ho
  · simpa using this
  · intro x hx _
    have := hx 0 rfl
    simp only [wholeCfg] at this
    exact ⟨le_max_of_le_left this.1, max_le this.2 (by norm_num)⟩
  · intro p hp
    rw [List.mem_singleton] at hp
    subst hp
    exact ⟨_, by rw [h2]; exact List.mem_singleton_self _, rfl⟩

end Mica
