import Verif.Proof.Vmap
import Verif.Props.LineParams

/-!
# C51, C74: the virtual-continuum mode
-/

namespace Mica

/-! ## C51 -/

/-- **C51 is false.**  In the virtual-continuum mode a proposal that moves a continuum parameter (the
damping timescale is the only one that is not fixed) is never accepted, whatever the flags, the
likelihood, the level and the random numbers: `update_particle` leaves the particle alone. -/
theorem C51_never (c : LineCfg) (postprc decomp : Bool) (post : (ℕ → ℝ) × (ℕ → ℝ))
    (hv : (c.varPar, c.varStd) = varAtLineRun .vmap postprc decomp post)
    (L : (ℕ → ℝ) → Fl) (ps qs : ℕ → ℕ → ℝ) (i : ℕ) (s : ConStep c.numParams) (u : ℝ) (level : Fl)
    (w : Fin c.numParams) (hw : c.vPick s.cands = .ok w) (hcon : (w : ℕ) < c.numVar)
    (h : c.vStep L ps (.update i s u level) = .ok qs) : qs = ps := by
  have hstd : c.varStd w = 0 := by
    have : c.varStd = fun _ => 0 := by
      have := congrArg Prod.snd hv
      simpa [varAtLineRun, runsCon] using this
    rw [this]
  unfold LineCfg.vStep at h
  obtain ⟨r, hr, h⟩ := Res.bind_eq_ok.1 h
  obtain ⟨w', hw', x, -, -, hl⟩ := c.vPerturb_ok hr
  rw [hw] at hw'
  simp only [Res.ok.injEq] at hw'; subst hw'
  rw [c.vLogH_zero hcon hstd] at hl
  simp only [Res.ok.injEq] at hl
  rw [← hl, acceptFl_nan] at h
  simpa using h.symm

/-- **C51 is false, whole runs.**  In the virtual-continuum mode the damping timescale (and every
other continuum parameter) of every particle is at any time the one some particle was started with:
no sequence of updates and replacements produces a new value. -/
theorem C51_frozen (c : LineCfg) (postprc decomp : Bool) (post : (ℕ → ℝ) × (ℕ → ℝ))
    (hv : (c.varPar, c.varStd) = varAtLineRun .vmap postprc decomp post)
    (L : (ℕ → ℝ) → Fl) (es : List (VEvent c.numParams)) (ps qs : ℕ → ℕ → ℝ)
    (h : c.vRun L es ps = .ok qs) (p : ℕ) :
    ∃ p0, ∀ a < c.numVar, qs p a = ps p0 a := by
  induction es generalizing ps p with
  | nil =>
    simp only [LineCfg.vRun, Res.ok.injEq] at h; subst h
    exact ⟨p, fun _ _ => rfl⟩
  | cons e es ih =>
    unfold LineCfg.vRun at h
    obtain ⟨ps', h', h⟩ := Res.bind_eq_ok.1 h
    obtain ⟨p1, hp1⟩ := ih ps' h p
    suffices ∃ p0, ∀ a < c.numVar, ps' p1 a = ps p0 a by
      obtain ⟨p0, hp0⟩ := this
      exact ⟨p0, fun a ha => by rw [hp1 a ha, hp0 a ha]⟩
    cases e with
    | copy i j =>
      simp only [LineCfg.vStep, Res.ok.injEq] at h'
      subst h'
      by_cases e : p1 = i
      · exact ⟨j, fun a _ => by rw [e, Function.update_self]⟩
      · exact ⟨p1, fun a _ => by rw [Function.update_of_ne e]⟩
    | update i s u l =>
      have hh := h'
      unfold LineCfg.vStep at h'
      obtain ⟨r, hr, h'⟩ := Res.bind_eq_ok.1 h'
      obtain ⟨w, hw, x, -, hq, -⟩ := c.vPerturb_ok hr
      by_cases hcon : (w : ℕ) < c.numVar
      · have := C51_never c postprc decomp post hv L ps ps' i s u l w hw hcon hh
        exact ⟨p1, fun a _ => by rw [this]⟩
      · simp only [Res.pure_eq, Res.ok.injEq] at h'
        refine ⟨p1, fun a ha => ?_⟩
        rw [← h']
        split
        · by_cases e : p1 = i
          · rw [e, Function.update_self, hq, Function.update_of_ne (by omega)]
          · rw [Function.update_of_ne e]
        · rfl

/-- **C51** (partial: it needs non-zero standard deviations in `var_param_std`, which the
virtual-continuum mode never sets).  With a non-zero `var_param_std` the move of a continuum
parameter whose likelihood is above the level's is accepted exactly if the uniform number is at most
the ratio of the normal densities with mean `var_param` and deviation `var_param_std` at the new
and the old value; so for all small enough uniform numbers. -/
theorem C51_accept_partial (c : LineCfg) (L : (ℕ → ℝ) → ℝ) (ps : ℕ → ℕ → ℝ) (i : ℕ)
    (s : ConStep c.numParams) (u level : ℝ) (w : Fin c.numParams)
    (hw : c.vPick s.cands = .ok w) (hcon : (w : ℕ) < c.numVar) (hstd : c.varStd w ≠ 0)
    (x : ℝ) (hx : dnestWrap (ps i w + s.h * c.vStepWidth s w) (c.vrng w).1 (c.vrng w).2 = .ok x)
    (hL : level < L (Function.update (ps i) w x)) :
    let dens := fun y => Real.exp (-((y - c.varPar w) / c.varStd w) ^ 2 / 2)
    (u ≤ min 1 (dens x / dens (ps i w)) →
      c.vStep (fun q => .fin (L q)) ps (.update i s u (.fin level)) =
        .ok (Function.update ps i (Function.update (ps i) w x))) ∧
    (min 1 (dens x / dens (ps i w)) < u →
      c.vStep (fun q => .fin (L q)) ps (.update i s u (.fin level)) = .ok ps) ∧
    0 < min 1 (dens x / dens (ps i w)) := by
  intro dens
  have hb : c.vBounds (ps i) w = c.vrng w := by
    unfold LineCfg.vBounds
    rw [if_neg (by rintro ⟨-, h⟩; omega)]
  have hl := c.vLogH_pos hcon hstd (ps i) (Function.update (ps i) w x)
  generalize hh : (0 - c.varTerm w (ps i w) + c.varTerm w (Function.update (ps i) w x w)) = lh at hl
  have hp : c.vPerturb s (ps i) = .ok (Function.update (ps i) w x, .fin lh) :=
    c.vPerturb_mk hw (by rw [hb]; exact hx) hl
  have he : Real.exp (if lh > 0 then 0 else lh) = min 1 (dens x / dens (ps i w)) := by
    have h1 : Real.exp lh = dens x / dens (ps i w) := by
      simp only [dens]
      rw [← Real.exp_sub, ← hh, Function.update_self]
      simp only [LineCfg.varTerm]
      congr 1
      ring
    rw [← h1]
    by_cases h0 : lh > 0
    · rw [if_pos h0, Real.exp_zero, min_eq_left (Real.one_le_exp h0.le)]
    · rw [if_neg h0, min_eq_right (Real.exp_le_one_iff.2 (by linarith))]
  refine ⟨fun hu => ?_, fun hu => ?_, ?_⟩
  · simp only [LineCfg.vStep, hp, Res.ok_bind, Res.pure_eq]
    rw [if_pos ((acceptFl_fin _ _ _ _).2 ⟨by rw [he]; exact hu, hL⟩)]
  · simp only [LineCfg.vStep, hp, Res.ok_bind, Res.pure_eq]
    rw [if_neg (fun h => by
      have := ((acceptFl_fin _ _ _ _).1 h).1
      rw [he] at this
      linarith)]
  · rw [← he]; exact Real.exp_pos _

/-! ## C74 -/

/-- **C74** (partial: every data set has a line, the positive-lag option is off, and if the lags are
ordered the lag range starts at zero).  From draws of the prior and after any run of the sampler in
the virtual-continuum mode, the program has neither stopped nor run into undefined behaviour, every
free parameter of every particle is inside its prior range, every fixed one has its fixed value and
ordered lags are in increasing order. -/
theorem C74_vmap_partial (c : LineCfg) (L : (ℕ → ℝ) → Fl) (d : ℕ → LineDraw) (mem : ℕ → ℕ → ℝ)
    (es : List (VEvent c.numParams)) (hd : ∀ p i, 0 ≤ (d p).u i ∧ (d p).u i ≤ 1)
    (hr : ∀ i < c.numParams, (c.vrng i).1 ≤ (c.vrng i).2)
    (hl : ∀ n ∈ c.nl, 0 < n) (hp : c.posivity = false)
    (hz : c.typeLag = 0 → 1 < c.ng → c.lagRange.1 = 0) :
    ∃ ps : ℕ → ℕ → ℝ, (∀ p, c.vFromPrior (d p) (mem p) = .ok (ps p)) ∧
    (c.vRun L es ps = .hang ∨ ∃ qs, c.vRun L es ps = .ok qs) ∧
    ∀ qs, c.vRun L es ps = .ok qs → ∀ p,
      (∀ i < c.numParams, (c.vfix i = none → (c.vrng i).1 ≤ qs p i ∧ qs p i ≤ (c.vrng i).2) ∧
        ∀ v, c.vfix i = some v → qs p i = v) ∧
      (c.typeLag = 0 → 1 < c.ng → ∀ i j, j < c.nl.getD i 0 → ∀ k k', k ≤ k' → k' < c.ng →
        qs p (c.idxLine i j + 1 + k * 3 + 1) ≤ qs p (c.idxLine i j + 1 + k' * 3 + 1)) := by
  have hok : c.vOk := by
    unfold LineCfg.vOk
    rw [List.all_eq_true]
    intro n hn
    simpa using hl n hn
  have hz' : c.ordered → c.lagRange.1 = 0 := by
    intro ho
    simp only [LineCfg.ordered, decide_eq_true_eq] at ho
    exact hz ho.1 ho.2
  have h0 := fun p => c.vFromPrior_inv hok (d p) (mem p) (hd p) hr hz' hp
  choose ps h1 h2 using h0
  obtain ⟨h3, h4⟩ := c.vRun_inv L hr hok es ps h2
  refine ⟨ps, h1, h3, fun qs hq p => ?_⟩
  have hinv := h4 qs hq p
  refine ⟨fun i hi => ⟨hinv.range i hi, fun v hv => hinv.fixed i v hi hv⟩, ?_⟩
  intro ht hng i j hj k k' hkk hk'
  have ho : c.ordered = true := by simp [LineCfg.ordered, ht, hng]
  obtain ⟨-, g2⟩ := hinv.order ho (c.bno i j) (c.bno_lt i j hj)
  have haddr : ∀ k, c.idxLine i j + 1 + k * 3 + 1 = c.cen (c.bno i j) k := by
    intro k; rw [c.idxLine_eq i j hj]; unfold LineCfg.cen; omega
  simp only [haddr]
  induction k', hkk using Nat.le_induction with
  | base => exact le_rfl
  | succ n hn ih => exact le_trans (ih (by omega)) (g2 n hk')

/-- **C74.** What is fixed in this mode: the variability amplitude at 0.1, the continuum's error
parameter, and the first lag of the first line of every data set at zero. -/
theorem C74_fixed (c : LineCfg) (hl : ∀ n ∈ c.nl, 0 < n) (i : ℕ) (hi : i < c.nl.length) :
    c.vfix (c.idxCon i) = some 0 ∧ c.vfix (c.idxCon i + 1) = some (Real.log 0.1) ∧
    c.vfix (c.idxCon i + 2) = none ∧ c.vfix (c.idxLine i 0 + 1 + 0 * 3 + 1) = some 0 := by
  have hok : c.vOk := by
    unfold LineCfg.vOk
    rw [List.all_eq_true]
    intro n hn
    simpa using hl n hn
  obtain ⟨m, hmv⟩ := c.numVar_mod
  have hpos := c.vOk_pos hok i hi
  obtain ⟨t, ht, htm⟩ : ∃ t, c.idxCon i = 3 * t ∧ t < c.numVar / 3 := by
    unfold LineCfg.idxCon LineCfg.numVar
    split
    · exact ⟨0, rfl, by omega⟩
    · exact ⟨i, rfl, by omega⟩
  -- a cell that was written has a value, and `vfix_cases` says which
  have hsome : ∀ a v, (a, v) ∈ c.vFixWrites → ∃ v', c.vfix a = some v' := by
    intro a v hm
    rcases hf : c.vfix a with _ | v'
    · exact absurd hm ((applyFix_none _ _).1 hf v)
    · exact ⟨v', rfl⟩
  rw [ht]
  refine ⟨?_, ?_, ?_, ?_⟩
  · obtain ⟨v, hv⟩ := hsome (3 * t) (Real.log 1) (by
      unfold LineCfg.vFixWrites
      simp only [List.mem_append, List.mem_map, List.mem_range]
      exact Or.inl (Or.inr ⟨t, htm, rfl⟩))
    rcases c.vfix_cases hok hv with ⟨h1, t', h2, h3⟩ | ⟨h1, -⟩ | ⟨h1, -⟩ | ⟨-, h1, -⟩
    · omega
    all_goals rw [hv, h1]
  · obtain ⟨v, hv⟩ := hsome (3 * t + 1) (Real.log (1 / 10)) (by
      unfold LineCfg.vFixWrites
      simp only [List.mem_append, List.mem_map, List.mem_range]
      exact Or.inl (Or.inl (Or.inl ⟨t, htm, rfl⟩)))
    rcases c.vfix_cases hok hv with ⟨h1, -⟩ | ⟨-, j, -, -, h2⟩ | ⟨-, t', h2, h3⟩ | ⟨-, -, b, -, h2⟩
    · rw [hv, h1]; norm_num
    all_goals omega
  · rcases hf : c.vfix (3 * t + 2) with _ | v
    · rfl
    · rcases c.vfix_cases hok hf with ⟨-, t', h2, h3⟩ | ⟨-, j, -, -, h2⟩ | ⟨-, t', h2, h3⟩ |
        ⟨-, -, b, -, h2⟩ <;> omega
  · rw [show c.idxLine i 0 + 1 + 0 * 3 + 1 = c.idxLine i 0 + 2 by omega]
    obtain ⟨v, hv⟩ := hsome (c.idxLine i 0 + 2) 0 (by
      unfold LineCfg.vFixWrites
      simp only [List.mem_append, List.mem_map, List.mem_range]
      exact Or.inl (Or.inl (Or.inr ⟨i, hi, rfl⟩)))
    have he := c.idxLine_eq i 0 hpos
    rcases c.vfix_cases hok hv with ⟨-, t', h2, h3⟩ | ⟨h1, -⟩ | ⟨h1, -⟩ | ⟨-, h1, -⟩
    · omega
    all_goals rw [hv, h1]

/-! ## Examples and counterexamples -/

/-- One data set with one line and three components, ordered lags in `[a, 30]`. -/
noncomputable def vmapEx (a : ℝ) : LineCfg :=
  { lineCfgEx 0 0 [1] false with lagLow := a, varPar := fun _ => 0, varStd := fun _ => 0 }

theorem vmapEx_lagRange (a : ℝ) (h1 : -150 ≤ a) : (vmapEx a).lagRange = (a, 30) := by
  simp only [LineCfg.lagRange, vmapEx, lineCfgEx]
  norm_num [h1]

theorem vmapEx_numParams (a : ℝ) : (vmapEx a).numParams = 13 := by
  simp [LineCfg.numParams, LineCfg.numLine, LineCfg.numVar, LineCfg.blk, vmapEx, lineCfgEx]

theorem vmapEx_ranges (a : ℝ) (h1 : -150 ≤ a) (h2 : a ≤ 30) :
    ∀ i < (vmapEx a).numParams, ((vmapEx a).vrng i).1 ≤ ((vmapEx a).vrng i).2 := by
  intro i hi
  have hpi : (0 : ℝ) ≤ Real.log (300 * 2 * Real.pi) :=
    Real.log_nonneg (by linarith [Real.two_le_pi])
  by_cases h : (vmapEx a).numVar ≤ i
  · obtain ⟨b, q, hb, hq, rfl⟩ := (vmapEx a).addr_split h hi
    rcases (vmapEx a).offset_cases hq with rfl | ⟨k, t, hk, ht, rfl⟩
    · rw [(vmapEx a).vrng_line b 0 hb hq]
      exact Real.log_le_log (by norm_num) (by norm_num)
    · rw [(vmapEx a).vrng_comp b k t hb hk ht]
      have : t = 0 ∨ t = 1 ∨ t = 2 := by omega
      rcases this with rfl | rfl | rfl
      · simp only [List.getD_cons_zero, LineCfg.ampRange, vmapEx, lineCfgEx]
        split <;> exact Real.log_le_log (by norm_num) (by norm_num)
      · simp only [List.getD_cons_succ, List.getD_cons_zero]
        rw [(vmapEx a).ordered_window (by simp [LineCfg.ordered, vmapEx, lineCfgEx]),
          vmapEx_lagRange a h1]
        exact h2
      · simp only [List.getD_cons_succ, List.getD_cons_zero, LineCfg.widthWindow]
        simp only [vmapEx, lineCfgEx, LineCfg.widthRange]
        norm_num
        exact Real.log_le_log (by norm_num) (by norm_num)
  · have := (vmapEx a).vrng_var (i / 3) (i % 3) (Nat.mod_lt _ (by norm_num)) (by omega)
    rw [show 3 * (i / 3) + i % 3 = i by omega] at this
    rw [this]
    have : i % 3 = 0 ∨ i % 3 = 1 ∨ i % 3 = 2 := by omega
    rcases this with h | h | h <;> rw [h] <;> simp only [LineCfg.varRange]
    · exact Real.log_le_log (by norm_num) (by norm_num)
    · exact Real.log_le_log (by norm_num) (by norm_num)
    · rw [Real.log_one]; simpa [vmapEx, lineCfgEx] using hpi

/-- The hypotheses of `C74_vmap_partial` are met with ordered lags. -/
example (L : (ℕ → ℝ) → Fl) (es : List (VEvent (vmapEx 0).numParams)) :
    ∃ ps : ℕ → ℕ → ℝ, (∀ p, (vmapEx 0).vFromPrior (lineDrawEx 0 0) (fun _ => 0) = .ok (ps p)) ∧
      ((vmapEx 0).vRun L es ps = .hang ∨ ∃ qs, (vmapEx 0).vRun L es ps = .ok qs) := by
  obtain ⟨ps, h1, h2, -⟩ := C74_vmap_partial (vmapEx 0) L (fun _ => lineDrawEx 0 0)
    (fun _ _ => 0) es (fun p i => by simp [lineDrawEx])
    (vmapEx_ranges 0 (by norm_num) (by norm_num)) (by simp [vmapEx, lineCfgEx]) rfl
    (fun _ _ => by rw [vmapEx_lagRange 0 (by norm_num)])
  exact ⟨ps, h1, h2⟩

/-- The lags of an initial draw with uniform numbers zero: the first is set to zero after the sort,
the others are at the lower limit. -/
theorem vmapEx_draw (a : ℝ) (h1 : -150 ≤ a) (h2 : a ≤ 30) :
    ∃ pm, (vmapEx a).vFromPrior (lineDrawEx 0 0) (fun _ => 0) = .ok pm ∧
      pm 5 = 0 ∧ pm 8 = a ∧ pm 11 = a := by
  generalize hc : vmapEx a = c
  have hnv : c.numVar = 3 := by rw [← hc]; rfl
  have hnb : c.nblocks = 1 := by rw [← hc]; simp [LineCfg.nblocks, vmapEx, lineCfgEx]
  have hng : c.ng = 3 := by rw [← hc]; rfl
  have hblk : c.blk = 10 := by rw [LineCfg.blk, hng]
  have hnp : c.numParams = 13 := by rw [← hc]; exact vmapEx_numParams a
  have hlr : c.lagRange = (a, 30) := by rw [← hc]; exact vmapEx_lagRange a h1
  have hord : c.ordered = true := by rw [← hc]; simp [LineCfg.ordered, vmapEx, lineCfgEx]
  have hok : c.vOk := by rw [← hc]; simp [LineCfg.vOk, vmapEx, lineCfgEx]
  have hpos : c.posivity = false := by rw [← hc]; rfl
  have hr : ∀ i < c.numParams, (c.vrng i).1 ≤ (c.vrng i).2 := by
    rw [← hc]; exact vmapEx_ranges a h1 h2
  have hcen : ∀ k, c.cen 0 k = 3 + (1 + 3 * k + 1) := by
    intro k; simp only [LineCfg.cen, hnv]; omega
  obtain ⟨p0, h0, -⟩ := c.vDrawVar_ok (lineDrawEx 0 0) (fun _ => 0) c.numVar fun i hi => hr i (by
    unfold LineCfg.numParams; omega)
  have h1c : ∀ k < 3, c.vDrawLine (lineDrawEx 0 0) p0 (c.cen 0 k) = a := by
    intro k hk
    have : c.vDrawLine (lineDrawEx 0 0) p0 (c.cen 0 k) = (c.vrng (c.cen 0 k)).1 := by
      have hb : 3 ≤ c.cen 0 k ∧ c.cen 0 k < 13 := by rw [hcen]; omega
      simp [LineCfg.vDrawLine, hnv, hnp, hb, lineDrawEx]
    rw [this, c.vrng_cen hord 0 k (by omega) (by omega), hlr]
  generalize hp1 : c.vDrawLine (lineDrawEx 0 0) p0 = p1 at *
  obtain ⟨-, g2⟩ := c.sortLoop_spec p1 1 a a (by
    intro b' hb' k hk
    have : b' = 0 := by omega
    subst this
    rw [h1c k (by omega)]; exact ⟨le_rfl, le_rfl⟩)
  have hsa : c.sortAll p1 = (List.range 1).foldl (fun pm b => c.sortBlock pm (c.blk * b)) p1 := by
    simp only [LineCfg.sortAll, hord, if_true, LineCfg.numLine_div, hnb]
  rw [← hsa] at g2
  have h3 : ∀ k < 3, c.sortAll p1 (c.cen 0 k) = a := fun k hk =>
    le_antisymm ((g2 0 (by omega)).1 k (by omega)).2 ((g2 0 (by omega)).1 k (by omega)).1
  have hfree : ∀ k < 3, k ≠ 0 → c.vfix (c.cen 0 k) = none := by
    intro k hk hk0
    rcases hf : c.vfix (c.cen 0 k) with _ | v
    · rfl
    · exact absurd (c.vfix_cen hok (by omega) hf).1 hk0
  have hfix : c.vfix 5 = some 0 := by
    have := (C74_fixed c (by rw [← hc]; simp [vmapEx, lineCfgEx]) 0
      (by rw [← hc]; simp [vmapEx, lineCfgEx])).2.2.2
    rw [c.idxLine_eq 0 0 (by rw [← hc]; simp [vmapEx, lineCfgEx]), hnv, hblk] at this
    have hb : c.bno 0 0 = 0 := by simp [LineCfg.bno]
    rw [hb] at this
    exact this
  refine ⟨c.vPutFixed (c.sortAll p1), ?_, ?_, ?_, ?_⟩
  · simp only [LineCfg.vFromPrior, hok, h0, Res.ok_bind, hp1, LineCfg.vPosAll, hpos]; rfl
  · simp only [LineCfg.vPutFixed, hfix]
  · have := hfree 1 (by omega) (by omega)
    have h4 := h3 1 (by omega)
    rw [hcen] at this h4
    simp only [LineCfg.vPutFixed, this]
    exact h4
  · have := hfree 2 (by omega) (by omega)
    have h4 := h3 2 (by omega)
    rw [hcen] at this h4
    simp only [LineCfg.vPutFixed, this]
    exact h4

/-- A move of parameter `w` with step `h` and no levels yet. -/
noncomputable def vmapStepEx (a h : ℝ) (w : Fin 13) : ConStep (vmapEx a).numParams where
  cands := [w.cast (vmapEx_numParams a).symm]
  h := h
  levelUpdate := 0
  sizeLevels := 1
  limits := fun _ _ => (0, 0)

theorem vmapEx_bounds (a : ℝ) (pm : ℕ → ℝ) : (vmapEx a).vBounds pm 8 = (pm 5, pm 11) := by
  have hr : (vmapEx a).roleOf 8 = 1 := by
    simp [LineCfg.roleOf, LineCfg.numVar, LineCfg.blk, vmapEx, lineCfgEx]
  have hcomp : (vmapEx a).compOf 8 = 1 := by
    simp [LineCfg.compOf, LineCfg.numVar, LineCfg.blk, vmapEx, lineCfgEx]
  have ho : (vmapEx a).ordered = true := by simp [LineCfg.ordered, vmapEx, lineCfgEx]
  have hn : (vmapEx a).numVar ≤ 8 := by simp [LineCfg.numVar, vmapEx, lineCfgEx]
  have hng : (vmapEx a).ng = 3 := rfl
  unfold LineCfg.vBounds LineCfg.vOrderedBounds
  rw [if_pos ⟨ho, hn⟩, if_pos hr, hcomp, hng]
  simp

theorem vmapEx_pick (a h : ℝ) :
    (vmapEx a).vPick (vmapStepEx a h 8).cands = .ok ((8 : Fin 13).cast (vmapEx_numParams a).symm) := by
  have hcen : (vmapEx a).cen 0 1 = 8 := by
    simp [LineCfg.cen, LineCfg.numVar, vmapEx, lineCfgEx]
  have hf : (vmapEx a).vfix 8 = none := by
    rcases hf : (vmapEx a).vfix 8 with _ | v
    · rfl
    · rw [← hcen] at hf
      have := ((vmapEx a).vfix_cen (by simp [LineCfg.vOk, vmapEx, lineCfgEx])
        (by simp [vmapEx, lineCfgEx]) hf).1
      omega
  unfold vmapStepEx LineCfg.vPick
  rw [if_neg]
  change ¬ ((vmapEx a).vfix 8).isSome = true
  rw [hf]; simp

/-- **C74, the rest is false: the program stops.**  With ordered lags in `[-30, 30]` the first lag is
set to zero after the sort, so the second component's neighbours can be out of order; moving it makes
`dnest_wrap` print a warning and call `exit`. -/
theorem C74_ordered_exit (h : ℝ) :
    ∃ pm, (vmapEx (-30)).vFromPrior (lineDrawEx 0 0) (fun _ => 0) = .ok pm ∧
      (vmapEx (-30)).vPerturb (vmapStepEx (-30) h 8) pm = .exit := by
  obtain ⟨pm, h0, h5, h8, h11⟩ := vmapEx_draw (-30) (by norm_num) (by norm_num)
  refine ⟨pm, h0, ?_⟩
  unfold LineCfg.vPerturb
  rw [vmapEx_pick (-30) h, Res.ok_bind]
  have hb : (vmapEx (-30)).vBounds pm
      ((8 : Fin 13).cast (vmapEx_numParams (-30)).symm : Fin (vmapEx (-30)).numParams) = (0, -30) := by
    change (vmapEx (-30)).vBounds pm 8 = _
    rw [vmapEx_bounds, h5, h11]
  rw [hb]
  have : ∀ x : ℝ, dnestWrap x 0 (-30) = .exit := by
    intro x
    have h1 : ¬ (0 : ℝ) < -30 - 0 := by norm_num
    have h2 : ¬ (-30 - 0 : ℝ) = 0 := by norm_num
    unfold dnestWrap cmod
    rw [if_neg h1, if_neg h2]
    rfl
  rw [this]
  rfl

/-- **C74, the rest is false: a lag below the range.**  With ordered lags in `[5, 30]` a move takes
the second lag to 2. -/
theorem C74_ordered_range :
    ∃ pm, (vmapEx 5).vFromPrior (lineDrawEx 0 0) (fun _ => 0) = .ok pm ∧
      ∃ r, (vmapEx 5).vPerturb (vmapStepEx 5 (2 / 25) 8) pm = .ok r ∧
        r.1 8 = 2 ∧ (vmapEx 5).vrng 8 = (5, 30) := by
  obtain ⟨pm, h0, h5, h8, h11⟩ := vmapEx_draw 5 (by norm_num) (by norm_num)
  have hcen : (vmapEx 5).cen 0 1 = 8 := by
    simp [LineCfg.cen, LineCfg.numVar, vmapEx, lineCfgEx]
  have hrng : (vmapEx 5).vrng 8 = (5, 30) := by
    rw [← hcen, (vmapEx 5).vrng_cen (by simp [LineCfg.ordered, vmapEx, lineCfgEx]) 0 1
      (by simp [LineCfg.nblocks, vmapEx, lineCfgEx]) (by simp [vmapEx, lineCfgEx]),
      vmapEx_lagRange 5 (by norm_num)]
  refine ⟨pm, h0, ?_⟩
  have hpick := vmapEx_pick 5 (2 / 25)
  generalize hw : ((8 : Fin 13).cast (vmapEx_numParams 5).symm : Fin (vmapEx 5).numParams) = w
    at hpick
  have hwv : (w : ℕ) = 8 := by rw [← hw]; rfl
  have hsw : (vmapEx 5).vStepWidth (vmapStepEx 5 (2 / 25) 8) w = 25 := by
    simp only [LineCfg.vStepWidth, vmapStepEx, hwv, hrng]
    norm_num
  have hfl : ⌊(7 : ℝ) / 5⌋ = 1 := by rw [Int.floor_eq_iff]; norm_num
  have hx : dnestWrap (pm w + (vmapStepEx 5 (2 / 25) 8).h *
      (vmapEx 5).vStepWidth (vmapStepEx 5 (2 / 25) 8) w) ((vmapEx 5).vBounds pm w).1
      ((vmapEx 5).vBounds pm w).2 = .ok 2 := by
    rw [hsw, hwv, vmapEx_bounds, h8, h5, h11]
    have : (5 : ℝ) + (vmapStepEx 5 (2 / 25) 8).h * 25 = 7 := by
      simp only [vmapStepEx]; norm_num
    rw [this]
    simp only [dnestWrap, cmod]
    rw [if_pos (by norm_num)]
    simp only [sub_zero, hfl, Res.ok_bind, Res.pure_eq]
    norm_num
  obtain ⟨l, hl⟩ := (vmapEx 5).vLogH_total (fun _ => (vmapEx 5).vOk_pos
    (by simp [LineCfg.vOk, vmapEx, lineCfgEx])) pm (Function.update pm w 2) w
  exact ⟨_, (vmapEx 5).vPerturb_mk hpick hx hl, by simp [hwv], hrng⟩

/-- **C74, the rest is false: a data set without lines** makes the set-up of the fixed lags read an
uninitialised index. -/
theorem C74_no_line (c : LineCfg) (h : 0 ∈ c.nl) (d : LineDraw) (mem : ℕ → ℝ) :
    c.vFromPrior d mem = .ub := by
  have : c.vOk = false := by
    unfold LineCfg.vOk
    rw [List.all_eq_false]
    exact ⟨0, h, by simp⟩
  simp [LineCfg.vFromPrior, this]

/-- The hypotheses of `C51_never` and `C51_frozen` are met: in `vmapEx` the timescale (parameter 2)
is free, the proposal completes, and the sampler does not take it even for the uniform number 0 and
a likelihood above the level. -/
example (pm : ℕ → ℝ) (h : ℝ) :
    (vmapEx 0).vStep (fun _ => .fin 1) (fun _ => pm) (.update 0 (vmapStepEx 0 h 2) 0 (.fin 0)) =
      .ok fun _ => pm := by
  have hf : (vmapEx 0).vfix 2 = none :=
    (C74_fixed (vmapEx 0) (by simp [vmapEx, lineCfgEx]) 0 (by simp [vmapEx, lineCfgEx])).2.2.1
  have hp : (vmapEx 0).vPick (vmapStepEx 0 h 2).cands =
      .ok ((2 : Fin 13).cast (vmapEx_numParams 0).symm) := by
    unfold vmapStepEx LineCfg.vPick
    rw [if_neg]
    change ¬ ((vmapEx 0).vfix 2).isSome = true
    rw [hf]; simp
  have hb : (vmapEx 0).vBounds pm 2 = (vmapEx 0).vrng 2 := by
    unfold LineCfg.vBounds
    rw [if_neg (by simp [LineCfg.numVar, vmapEx, lineCfgEx])]
  obtain ⟨x, hx, -⟩ := dnestWrap_le (pm 2 + (vmapStepEx 0 h 2).h * (vmapEx 0).vStepWidth
    (vmapStepEx 0 h 2) ((2 : Fin 13).cast (vmapEx_numParams 0).symm)) _ _
    (vmapEx_ranges 0 (by norm_num) (by norm_num) 2 (by rw [vmapEx_numParams]; omega))
  obtain ⟨l, hl⟩ := (vmapEx 0).vLogH_total (fun _ => (vmapEx 0).vOk_pos
    (by simp [LineCfg.vOk, vmapEx, lineCfgEx])) pm
    (Function.update pm ((2 : Fin 13).cast (vmapEx_numParams 0).symm : Fin _) x)
    ((2 : Fin 13).cast (vmapEx_numParams 0).symm : Fin (vmapEx 0).numParams)
  have hpert := (vmapEx 0).vPerturb_mk (pm := pm) hp
    (show dnestWrap (pm 2 + _) ((vmapEx 0).vBounds pm 2).1 ((vmapEx 0).vBounds pm 2).2 = .ok x by
      rw [hb]; exact hx) hl
  have hstep : ∃ qs, (vmapEx 0).vStep (fun _ => .fin 1) (fun _ => pm)
      (.update 0 (vmapStepEx 0 h 2) 0 (.fin 0)) = .ok qs := by
    simp only [LineCfg.vStep, hpert, Res.ok_bind, Res.pure_eq]
    exact ⟨_, rfl⟩
  obtain ⟨qs, hq⟩ := hstep
  have := C51_never (vmapEx 0) false false (fun _ => 0, fun _ => 0) (by
    simp [varAtLineRun, runsCon, vmapEx]) _ _ qs 0 _ 0 _ _ hp
    (show (2 : ℕ) < (vmapEx 0).numVar by simp [LineCfg.numVar, vmapEx, lineCfgEx]) hq
  rw [hq, this]

/-- The hypotheses of `C51_accept_partial` are met: with deviation 1 the timescale of a one-line
configuration has a proposal that is accepted for the uniform number 0. -/
example (pm : ℕ → ℝ) : ∃ (s : ConStep (lineCfgEx 0 0 [1] false).numParams) (x : ℝ),
    (lineCfgEx 0 0 [1] false).vStep (fun _ => .fin 1) (fun _ => pm) (.update 0 s 0 (.fin 0)) =
      .ok (Function.update (fun _ => pm) 0 (Function.update pm 2 x)) := by
  generalize hc : lineCfgEx 0 0 [1] false = c
  have hnp : 2 < c.numParams := by
    rw [← hc]; simp [LineCfg.numParams, LineCfg.numLine, LineCfg.numVar, LineCfg.blk, lineCfgEx]
  have hnv : c.numVar = 3 := by rw [← hc]; rfl
  have hf : c.vfix 2 = none := by
    rw [← hc]
    exact (C74_fixed _ (by simp [lineCfgEx]) 0 (by simp [lineCfgEx])).2.2.1
  have hpi : (0 : ℝ) ≤ Real.log (300 * 2 * Real.pi) :=
    Real.log_nonneg (by linarith [Real.two_le_pi])
  have hr : (c.vrng 2).1 ≤ (c.vrng 2).2 := by
    have := c.vrng_var 0 2 (by omega) (by omega)
    simp only [Nat.mul_zero, Nat.zero_add] at this
    rw [this, ← hc]
    simp only [LineCfg.varRange, Real.log_one]
    simpa [lineCfgEx] using hpi
  have hst : c.varStd 2 ≠ 0 := by rw [← hc]; simp [lineCfgEx]
  let s : ConStep c.numParams := ⟨[⟨2, hnp⟩], 0, 0, 1, fun _ _ => (0, 0)⟩
  obtain ⟨x, hx, -⟩ := dnestWrap_le (pm 2 + s.h * c.vStepWidth s ⟨2, hnp⟩) _ _ hr
  refine ⟨s, x, ?_⟩
  have := (C51_accept_partial c (fun _ => 1) (fun _ => pm) 0 s 0 0 ⟨2, hnp⟩ (by
    simp only [s, LineCfg.vPick]
    rw [if_neg]
    simp [hf]) (by simp [hnv]) hst x hx (by norm_num))
  exact this.1 this.2.2.le

end Mica
