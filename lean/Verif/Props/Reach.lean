import Verif.Proof.Reach2
import Mathlib.Tactic.IntervalCases

/-!
# C131: the sampler can get everywhere

From any point of the prior, at any level, the moves of the sampler can take a particle to any other
point of the prior and to any level whose threshold that point is above.  So two separate peaks of the
likelihood are never cut off from each other, even if no single move within a level connects them.
The virtual-continuum mode is the exception: see `C51_frozen`.
-/

namespace Mica

/-- **C131, continuum.**  `t` is the state of a task, `p` the particle with index `which`; the
likelihood is above the lowest threshold everywhere in the prior (as it is at the start, where the
threshold is `-DBL_MAX`).  The target `y` is any point of the prior (ranges are half-open: a folded
parameter never equals the upper end), `k` any level it is above. -/
theorem C131_continuum {n : ℕ} (c : ConCfg n) (o : SOpts) (L : (Fin n → ℝ) → ℝ) (maxLv which : ℕ)
    (t : TaskSt n) (p : Particle n) (hp : t.particles[which]? = some p)
    (hval : p.logl.value = L p.params) (hlev : p.level < t.levels.length)
    (hx : InPrior c p.params ∧ FixedHeld c p.params)
    (hL : ∀ z, InPrior c z → FixedHeld c z → ∃ l, t.levels[0]? = some l ∧ l.logl.value < L z)
    (he : ∃ e, enoughLevels o maxLv t.levels = .ok e)
    (hlim : o.flagLimits → t.levels.length ≤ t.limits.length)
    (hfree : ∃ i, c.fix i = none ∧ c.lo i < c.hi i)
    (y : Fin n → ℝ) (hy : InPrior c y ∧ FixedHeld c y)
    (hlt : ∀ i, c.fix i = none → c.lo i < c.hi i → y i < c.hi i)
    (k : ℕ) (l : Level) (hk : t.levels[k]? = some l) (hkl : l.logl.value < L y) :
    CanReach (conPerturb c) o L maxLv which t y k := by
  obtain ⟨x, ⟨v, tie⟩, j⟩ := p
  dsimp only at hval hlev hx
  subst hval
  have ab : ∀ {k : ℕ} {l : Level} {v : ℝ}, t.levels[k]? = some l → l.logl.value < v →
      Above (t.levels.map (·.logl)) k v := fun h1 h2 => ⟨_, by rw [List.getElem?_map, h1]; rfl, h2⟩
  obtain ⟨w, hw, hwl⟩ := hfree
  refine canReach_of (conPerturb c) o L maxLv which he hlim {z | ConPoint c z}
    (fun z hz => by obtain ⟨l, h1, h2⟩ := hL z hz.1 hz.2; exact ab h1 h2) hx
    (conPath c x y hx hy hlt) ?_ hp hlev (ab hk hkl)
  have := conStep0 c w hw y (y w) (hy.1 w hw).1 (hlt w hw hwl)
  rwa [Function.update_eq_self] at this

/-- **C131, continuum and lines.**  The same for the moves of the line model, in all its modes: fixed
parameters, lags kept in order (then the lags move only between their neighbours; the target's lags are
distinct), lags shared between data sets, penalties for lags near zero or in the seasonal gap. `Inv` is
what holds of every particle of a run (`C46`, `C62`, `C63`). -/
theorem C131_line (c : LineCfg) (o : SOpts) (L : (Fin c.numParams → ℝ) → ℝ) (maxLv which : ℕ)
    (t : TaskSt c.numParams) (p : Particle c.numParams) (hp : t.particles[which]? = some p)
    (hval : p.logl.value = L p.params) (hlev : p.level < t.levels.length)
    (hr : c.RangesOk) (hs : c.SharedOk) (hg : c.gap → ∀ i < c.nl.length, 0 < c.nl.getD i 0)
    (hx : c.Inv (extendVec p.params))
    (hL : ∀ z, c.Inv (extendVec z) → ∃ l, t.levels[0]? = some l ∧ l.logl.value < L z)
    (he : ∃ e, enoughLevels o maxLv t.levels = .ok e)
    (hlim : o.flagLimits → t.levels.length ≤ t.limits.length)
    (hfree : ∃ i < c.numParams, c.fix i = none ∧ (c.rng i).1 < (c.rng i).2)
    (y : Fin c.numParams → ℝ) (hy : c.Inv (extendVec y))
    (hlt : ∀ i : Fin c.numParams, c.fix i = none → (c.rng i).1 < (c.rng i).2 → y i < (c.rng i).2)
    (hord : c.ordered → ∀ b < c.nblocks, ∀ k, k + 1 < c.ng →
      extendVec y (c.cen b k) < extendVec y (c.cen b (k + 1)))
    (k : ℕ) (l : Level) (hk : t.levels[k]? = some l) (hkl : l.logl.value < L y) :
    CanReach (linePerturb c) o L maxLv which t y k := by
  obtain ⟨x, ⟨v, tie⟩, j⟩ := p
  dsimp only at hval hlev hx
  subst hval
  have ab : ∀ {k : ℕ} {l : Level} {v : ℝ}, t.levels[k]? = some l → l.logl.value < v →
      Above (t.levels.map (·.logl)) k v := fun h1 h2 => ⟨_, by rw [List.getElem?_map, h1]; rfl, h2⟩
  have hT : c.Target (extendVec y) := ⟨hy, fun i hi hf hlt' => by
    have := hlt ⟨i, hi⟩ hf hlt'
    unfold extendVec; rw [dif_pos hi]; exact this, hord⟩
  exact canReach_of (linePerturb c) o L maxLv which he hlim {z | c.Inv (extendVec z)}
    (fun z hz => by obtain ⟨l, h1, h2⟩ := hL z hz; exact ab h1 h2) hx
    (c.linePath hr hs hg x y hx hT) (c.lineStay hr hs hg y hT hfree) hp hlev (ab hk hkl)

/-! ## The hypotheses are met -/

/-- One line with two components and ordered lags: three continuum parameters (the first fixed), the
line's error (fixed), and amplitude, lag and width twice. -/
noncomputable def reachCfg : LineCfg where
  uniVar := false
  uniTf := 0
  nl := [1]
  ng := 2
  typeLag := 0
  typeTf := 0
  lagLow := 0
  lagUpp := 50
  tspan := 100
  tcad := 10
  widthLow := none
  widthUpp := none
  negResp := false
  lagPrior := fun _ => 0
  widthPrior := none
  varPar := fun _ => 0
  varStd := fun _ => 1
  conSys := false
  lineSys := false
  posivity := false
  gap := false
  gapCenter := fun _ => 0
  gapWidth := fun _ => 0

/-- A vector of that model with lags `a` and `b` and zeros elsewhere. -/
noncomputable def reachVec (a b : ℝ) : Fin 10 → ℝ := fun i => if i = 5 then a else if i = 8 then b else 0

theorem reachCfg_np : reachCfg.numParams = 10 := by
  simp [LineCfg.numParams, LineCfg.numVar, LineCfg.numLine, LineCfg.blk, reachCfg]

theorem reachCfg_rng : reachCfg.parRanges =
    [reachCfg.varParRange 0 0, reachCfg.varParRange 0 1, reachCfg.varParRange 0 2,
      (Real.log 1, Real.log (1 + 10)), reachCfg.ampRange, reachCfg.lagRange, reachCfg.widthRange,
      reachCfg.ampRange, reachCfg.lagRange, reachCfg.widthRange] := by
  have h1 : reachCfg.numVar / 3 = 1 := by simp [LineCfg.numVar, reachCfg]
  have h2 : reachCfg.numLine / reachCfg.blk = 1 := by
    simp [LineCfg.numLine, LineCfg.blk, reachCfg]
  have h3 : reachCfg.ng = 2 := rfl
  have ho : reachCfg.ordered = true := by simp [LineCfg.ordered, reachCfg]
  have hl : ∀ k, reachCfg.lagWindow k = reachCfg.lagRange := reachCfg.ordered_window ho
  have hw : ∀ k, reachCfg.widthWindow k = reachCfg.widthRange := fun k => by
    simp [LineCfg.widthWindow, reachCfg]
  have ha : ∀ k, reachCfg.ampWindow k = reachCfg.ampRange := fun k => by
    simp [LineCfg.ampWindow, reachCfg]
  unfold LineCfg.parRanges LineCfg.lineBlockRanges
  rw [h1, h2, h3]
  simp [List.range_succ, hl, hw, ha]

theorem reachCfg_fix (i : ℕ) (hi : i < 10) : reachCfg.fix i = if i = 0 ∨ i = 3 then some 0 else none := by
  have h1 : reachCfg.numVar = 3 := by simp [LineCfg.numVar, reachCfg]
  have h2 : reachCfg.numLine / reachCfg.blk = 1 := by
    simp [LineCfg.numLine, LineCfg.blk, reachCfg]
  have hw : reachCfg.fixWrites = [(0, 0), (3, 0)] := by
    unfold LineCfg.fixWrites
    rw [h1, h2]
    simp [reachCfg, List.range_succ]
  unfold LineCfg.fix
  rw [hw]
  simp only [applyFix, List.foldl_cons, List.foldl_nil]
  interval_cases i <;> simp [Function.update]

theorem reachCfg_pos : 0 < Real.log (100 * 2 * Real.pi) ∧ 0 < Real.log 10 ∧ 0 < Real.log (100 / 3) := by
  refine ⟨Real.log_pos ?_, Real.log_pos (by norm_num), Real.log_pos (by norm_num)⟩
  have := Real.two_le_pi
  linarith

/-- The ranges of the free parameters contain zero (lags: go from 0 to 50). -/
theorem reachCfg_free (i : ℕ) (hi : i < 10) (h0 : i ≠ 0) (h3 : i ≠ 3) :
    ((reachCfg.rng i).1 ≤ 0 ∧ 0 < (reachCfg.rng i).2) ∧
      (i = 5 ∨ i = 8 → reachCfg.rng i = (0, 50)) := by
  obtain ⟨p1, p2, p3⟩ := reachCfg_pos
  have l4 : Real.log (1 / 10 ^ 4) ≤ 0 := Real.log_nonpos (by norm_num) (by norm_num)
  have l5 : Real.log (1 / 10 ^ 5) ≤ 0 := Real.log_nonpos (by norm_num) (by norm_num)
  have hlag : reachCfg.lagRange = (0, 50) := by
    simp only [LineCfg.lagRange, reachCfg, Prod.mk.injEq]
    exact ⟨max_eq_left (by norm_num), by norm_num⟩
  have hwid : reachCfg.widthRange = (0, Real.log (100 / 3)) := by
    simp [LineCfg.widthRange, reachCfg]
  have hamp : reachCfg.ampRange = (Real.log (1 / 10 ^ 5), Real.log 10) := by
    simp [LineCfg.ampRange, reachCfg]
  have hv1 : reachCfg.varParRange 0 1 = (max (0 - 5 * 1) (Real.log (1 / 10 ^ 4)), min (0 + 5 * 1) (Real.log 10)) := rfl
  have hv2 : reachCfg.varParRange 0 2 =
      (max (0 - 5 * 1) (Real.log 1), min (0 + 5 * 1) (Real.log (100 * 2 * Real.pi))) := rfl
  unfold LineCfg.rng
  rw [reachCfg_rng]
  interval_cases i
  · exact absurd rfl h0
  · refine ⟨?_, by omega⟩
    rw [List.getD_cons_succ, List.getD_cons_zero, hv1]
    exact ⟨max_le (by norm_num) l4, lt_min (by norm_num) p2⟩
  · refine ⟨?_, by omega⟩
    rw [List.getD_cons_succ, List.getD_cons_succ, List.getD_cons_zero, hv2]
    exact ⟨max_le (by norm_num) (by simp), lt_min (by norm_num) p1⟩
  · exact absurd rfl h3
  all_goals simp only [List.getD_cons_succ, List.getD_cons_zero, hlag, hwid, hamp]
  · exact ⟨⟨l5, p2⟩, by omega⟩
  · norm_num
  · exact ⟨⟨le_rfl, p3⟩, by omega⟩
  · exact ⟨⟨l5, p2⟩, by omega⟩
  · norm_num
  · exact ⟨⟨le_rfl, p3⟩, by omega⟩

theorem reachCfg_inv (a b : ℝ) (h : 0 ≤ a) (hab : a ≤ b) (hb : b ≤ 50) :
    reachCfg.Inv (extendVec (reachVec a b)) := by
  have hnb : reachCfg.nblocks = 1 := by simp [LineCfg.nblocks, reachCfg]
  have hcen : ∀ k, reachCfg.cen 0 k = 5 + 3 * k := fun k => by
    simp [LineCfg.cen, LineCfg.numVar, reachCfg]; omega
  have hv : ∀ i, i < 10 → extendVec (reachVec a b) i = if i = 5 then a else if i = 8 then b else 0 := by
    intro i hi
    unfold extendVec reachVec
    rw [dif_pos hi]
    simp only [Fin.ext_iff]
    rfl
  refine ⟨fun i hi hf => ?_, fun i v hi hf _ => ?_, fun hu => ?_, fun _ bl hbl => ?_⟩
  · rw [reachCfg_np] at hi
    rw [reachCfg_fix i hi] at hf
    have hne : ¬ (i = 0 ∨ i = 3) := by intro h; rw [if_pos h] at hf; cases hf
    push Not at hne
    obtain ⟨h1, h2⟩ := reachCfg_free i hi hne.1 hne.2
    rw [hv i hi]
    by_cases h5 : i = 5
    · rw [if_pos h5, h2 (Or.inl h5)]; exact ⟨h, by dsimp only; linarith⟩
    · rw [if_neg h5]
      by_cases h8 : i = 8
      · rw [if_pos h8, h2 (Or.inr h8)]; exact ⟨by dsimp only; linarith, hb⟩
      · rw [if_neg h8]; exact ⟨h1.1, h1.2.le⟩
  · rw [reachCfg_np] at hi
    rw [reachCfg_fix i hi] at hf
    by_cases hc : i = 0 ∨ i = 3
    · rw [if_pos hc, Option.some.injEq] at hf
      rw [hv i hi, if_neg (by omega), if_neg (by omega), hf]
    · rw [if_neg hc] at hf; cases hf
  · exact absurd hu (by simp [reachCfg])
  · rw [hnb] at hbl
    obtain rfl : bl = 0 := by omega
    have hlag : reachCfg.lagRange = (0, 50) := by
      simp only [LineCfg.lagRange, reachCfg, Prod.mk.injEq]
      exact ⟨max_eq_left (by norm_num), by norm_num⟩
    have e0 : extendVec (reachVec a b) (reachCfg.cen 0 0) = a := by rw [hcen, hv _ (by omega)]; simp
    have e1 : extendVec (reachVec a b) (reachCfg.cen 0 1) = b := by rw [hcen, hv _ (by omega)]; simp
    have hng : reachCfg.ng = 2 := rfl
    rw [hng, hlag]
    refine ⟨fun k hk => ?_, fun k hk => ?_⟩
    · interval_cases k
      · rw [e0]; exact ⟨h, by dsimp only; linarith⟩
      · rw [e1]; exact ⟨by dsimp only; linarith, hb⟩
    · obtain rfl : k = 0 := by omega
      rw [e0, e1]; exact hab

/-- Lags 1 and 2 are carried to 30 and 40, although the first is confined below the second: the second
has to go first. -/
example (o : SOpts) (t : TaskSt 10) (ht : t.particles = [⟨reachVec 1 2, ⟨0, 0⟩, 0⟩])
    (hl : t.levels = [⟨⟨-DBL_MAX, 0⟩, 0, 0, 0, 0, 0⟩]) (hlim : t.limits = [fun _ => (0, 1)]) :
    CanReach (linePerturb reachCfg) o (fun _ => 0) 7 0 t (reachVec 30 40) 0 := by
  have hD : (-DBL_MAX : ℝ) < 0 := by unfold DBL_MAX; norm_num
  have hnb : reachCfg.nblocks = 1 := by simp [LineCfg.nblocks, reachCfg]
  have hcen : ∀ k, reachCfg.cen 0 k = 5 + 3 * k := fun k => by
    simp [LineCfg.cen, LineCfg.numVar, reachCfg]; omega
  refine C131_line reachCfg o (fun _ => 0) 7 0 t ⟨reachVec 1 2, ⟨0, 0⟩, 0⟩ (by rw [ht]; rfl) rfl (by rw [hl]; simp) ?_ ?_ ?_
    (reachCfg_inv 1 2 (by norm_num) (by norm_num) (by norm_num)) (fun z _ => by rw [hl]; exact ⟨_, rfl, hD⟩)
    ⟨_, rfl⟩ (fun _ => by rw [hl, hlim]; exact le_rfl) ⟨1, by rw [reachCfg_np]; omega, ?_, ?_⟩ _
    (reachCfg_inv 30 40 (by norm_num) (by norm_num) (by norm_num)) ?_ ?_ 0 _ (by rw [hl]; rfl) hD
  · intro i hi
    rw [reachCfg_np] at hi
    have hx := reachCfg_inv 1 2 (by norm_num) (by norm_num) (by norm_num)
    by_cases h0 : i = 0
    · subst h0
      unfold LineCfg.rng
      rw [reachCfg_rng, List.getD_cons_zero]
      have : reachCfg.varParRange 0 0 = (max (0 - 5 * 1) (Real.log 1), min (0 + 5 * 1) (Real.log (1 + 10))) := rfl
      rw [this]
      have : 0 ≤ Real.log (1 + 10) := Real.log_nonneg (by norm_num)
      exact le_trans (b := 0) (max_le (by norm_num) (by simp)) (le_min (by norm_num) this)
    · by_cases h3 : i = 3
      · subst h3
        unfold LineCfg.rng
        rw [reachCfg_rng]
        have : 0 ≤ Real.log (1 + 10) := Real.log_nonneg (by norm_num)
        simpa using this
      · obtain ⟨h, -⟩ := reachCfg_free i hi h0 h3
        exact h.1.trans h.2.le
  · intro hu; exact absurd hu (by simp [reachCfg])
  · intro hg; exact absurd hg (by simp [reachCfg])
  · rw [reachCfg_fix 1 (by omega)]; simp
  · obtain ⟨h, -⟩ := reachCfg_free 1 (by omega) (by omega) (by omega)
    exact lt_of_le_of_lt h.1 h.2
  · intro i hf _
    have hi : (i : ℕ) < 10 := i.2
    rw [reachCfg_fix i hi] at hf
    have hne : ¬ ((i : ℕ) = 0 ∨ (i : ℕ) = 3) := by intro h; rw [if_pos h] at hf; cases hf
    push Not at hne
    obtain ⟨h1, h2⟩ := reachCfg_free i hi hne.1 hne.2
    have hv : ∀ j : Fin 10, reachVec 30 40 j = if (j : ℕ) = 5 then 30 else if (j : ℕ) = 8 then 40 else 0 := by
      intro j
      unfold reachVec; simp only [Fin.ext_iff]; rfl
    have hvi : reachVec 30 40 i = if (i : ℕ) = 5 then 30 else if (i : ℕ) = 8 then 40 else 0 := hv i
    rw [hvi]
    by_cases h5 : (i : ℕ) = 5
    · rw [if_pos h5, h2 (Or.inl h5)]; norm_num
    · rw [if_neg h5]
      by_cases h8 : (i : ℕ) = 8
      · rw [if_pos h8, h2 (Or.inr h8)]; norm_num
      · rw [if_neg h8]; exact h1.2
  · intro _ b hb k hk
    rw [hnb] at hb
    obtain rfl : b = 0 := by omega
    have hng : reachCfg.ng = 2 := rfl
    rw [hng] at hk
    obtain rfl : k = 0 := by omega
    rw [hcen, hcen]
    show (30 : ℝ) < 40
    norm_num

/-- Two peaks of the likelihood, at 2 and 8 in a range from 0 to 10, with a level threshold above the
valley between: a particle in the one peak at the upper level can get to the other. -/
example (o : SOpts) (hf : o.flagLimits = false) :
    CanReach (conPerturb (⟨fun _ => 0, fun _ => 10, fun _ => none⟩ : ConCfg 1)) o
      (fun x => -min |x 0 - 2| |x 0 - 8|) 7 0
      ⟨[⟨fun _ => 2, ⟨0, 0⟩, 1⟩],
        [⟨⟨-DBL_MAX, 0⟩, 0, 0, 0, 0, 0⟩, ⟨⟨-1, 0⟩, -1, 0, 0, 0, 0⟩], [], []⟩ (fun _ => 8) 1 := by
  have hD : (10 : ℝ) < DBL_MAX := by
    unfold DBL_MAX
    have h : (1 : ℝ) ≤ 2 ^ 971 := one_le_pow₀ (by norm_num)
    generalize (2 : ℝ) ^ 971 = z at h
    norm_num
    linarith
  refine C131_continuum _ o _ 7 0 _ ⟨fun _ => 2, ⟨0, 0⟩, 1⟩ rfl (by simp) (by simp)
    ⟨fun i _ => by norm_num, fun i v h => by cases h⟩ (fun z hz _ => ⟨_, rfl, ?_⟩) ⟨_, rfl⟩
    (fun h => by rw [hf] at h; cases h) ⟨0, rfl, by norm_num⟩ _
    ⟨fun i _ => by norm_num, fun i v h => by cases h⟩ (fun i _ _ => by norm_num) 1 _ rfl (by norm_num)
  obtain ⟨h1, h2⟩ := hz 0 rfl
  have : |z 0 - 2| ≤ 10 := abs_le.2 ⟨by dsimp only at h1; linarith, by dsimp only at h2; linarith⟩
  have := min_le_left |z 0 - 2| |z 0 - 8|
  dsimp only
  linarith

end Mica
