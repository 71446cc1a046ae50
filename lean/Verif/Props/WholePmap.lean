import Verif.Props.Pmap
import Verif.Props.WholeFl

/-!
# C150: whole runs in photometric mode

`mc_pmap` samples the parameters of `pmapCfg` (src/dnest_pmap.c) with the draws and moves of the line models.
-/

namespace Mica

variable (lf : List Char → Option (ℝ × List Char))

/-- **C150** (partial: the positive-lag option is off, and the upper width limits of the line components are at least one
day).  Run the sampler in photometric mode from the first draw, interrupted and resumed in any way.  At every moment every
particle of every task and every saved sample has the amplitude of the first component of every line between 1/100000 and
10, the ratios inside `StrRatioPrior`, the lags inside `StrLagPrior`, the width of the first component between 0.01 (or the
lower limit given, if that is smaller) and the upper limit given, the widths of the other components between the limits
given and not below one day, and the likelihood of its own parameters; the response of a later component that the
likelihood uses is its ratio times the first amplitude, never more than ten times the upper ratio.  No round has undefined
behaviour. -/
theorem C150_pmap_partial (b : LineCfg) (ngUpp : ℕ) (lagStr widthStr ratioStr : List Char) (lags : List ℝ)
    (wlo whi : ℕ → ℝ) (rlo rhi : ℝ) (hn : 2 ≤ ngUpp) (hng : b.ng ≤ ngUpp)
    (h : PmapInput lf b ngUpp lagStr widthStr ratioStr lags wlo whi rlo rhi)
    (hlag : ∀ k < b.ng, lags.getD (2 * k) 0 ≤ lags.getD (2 * k + 1) 0)
    (hwid : ∀ k < b.ng, wlo k ≤ whi k ∧ (0 < k → 1 ≤ whi k)) (hrat : 0 < rlo ∧ rlo ≤ rhi)
    (hvar : ∀ t q, q < 3 → (b.varParRange (3 * t) q).1 ≤ (b.varParRange (3 * t) q).2)
    (hp : b.posivity = false) (hg : b.gap = true → ∀ i < b.nl.length, 0 < b.nl.getD i 0) :
    ∃ c, pmapCfg lf b ngUpp lagStr widthStr ratioStr = .ok c ∧
      ∀ (L : (Fin c.numParams → ℝ) → ℝ) (o : SOpts) (s : Sampler c.numParams), (∀ x, -DBL_MAX ≤ L x) → GoodOpts o →
        o.maxNumLevels < 2 ^ 32 → WholeRun (linePerturb c) (LineDrawn c) L o s →
        (∀ i, ValidRoundP o i → roundP (linePerturb c) o L i s ≠ .ub) ∧
        ∀ p : Particle c.numParams, ((∃ ps ∈ s.tasks, p ∈ ps) ∨ p ∈ s.saved) →
          p.logl.value = L p.params ∧
          ∀ i j k, j < b.nl.getD i 0 → k < b.ng →
            let pm := extendVec p.params
            let f := Real.exp (pm (c.idxLine i j + 1))
            let x := Real.exp (pm (c.idxLine i j + 1 + k * 3))
            let lag := pm (c.idxLine i j + 1 + k * 3 + 1)
            let width := Real.exp (pm (c.idxLine i j + 1 + k * 3 + 2))
            (k = 0 → 1 / 10 ^ 5 ≤ x ∧ x ≤ 10 ∧ min (wlo k) 0.01 ≤ width ∧ width ≤ whi k) ∧
            (0 < k → rlo ≤ x ∧ x ≤ rhi ∧ wlo k ≤ width ∧ 1 ≤ width ∧ width ≤ whi k ∧
              ∀ nq typ mem, Real.exp ((PmapEnv.mk c nq typ mem).trans pm (c.idxLine i j + 1 + k * 3)) = f * x ∧
                f * x ≤ 10 * rhi) ∧
            lags.getD (2 * k) 0 ≤ lag ∧ lag ≤ lags.getD (2 * k + 1) 0 := by
  obtain ⟨c, hc, hcng, hcnl, htl, hut, hpos, hgap, hranges, hval⟩ :=
    pmap_values lf b ngUpp lagStr widthStr ratioStr lags wlo whi rlo rhi hn hng h hlag hwid hrat hvar
  have hs : c.SharedOk := fun h2 => by omega
  have hp' : c.posivity = false := by rw [hpos]; exact hp
  have hg' : c.gap = true → ∀ i < c.nl.length, 0 < c.nl.getD i 0 := by
    intro hg'
    rw [hcnl]; exact hg (by rw [← hgap]; exact hg')
  refine ⟨c, hc, fun L o s hL ho h32 hrun => ⟨fun i hv => C146_line_safe c hranges hs hp' hg' hL ho h32 hrun i hv,
    fun p hpp => ?_⟩⟩
  obtain ⟨q1, _, _, _, q5⟩ := C146_line c hranges hs hp' hg' hL ho h32 hrun p hpp
  refine ⟨q5, fun i j k hj hk => ?_⟩
  have hin : ∀ i < c.numParams, c.fix i = none →
      (c.rng i).1 ≤ extendVec p.params i ∧ extendVec p.params i ≤ (c.rng i).2 := by
    intro i hi hf
    have := q1 ⟨i, hi⟩ hf
    simpa only [extendVec, dif_pos hi] using this
  obtain ⟨r1, r2, r3⟩ := hval _ hin i j k hj hk
  refine ⟨r1, fun h0 => ?_, r3⟩
  obtain ⟨a1, a2, a3, a4, a5⟩ := r2 h0
  refine ⟨a1, a2, a3, a4, a5, fun nq typ mem => ⟨?_, ?_⟩⟩
  · have := ((pmap_trans_line (PmapEnv.mk c nq typ mem) (extendVec p.params) i j (by rw [hcnl]; exact hj)).2 k
      (by rw [hcng]; exact hk)).1
    rw [if_neg (by omega), mul_comm 3 k] at this
    exact this
  · obtain ⟨f1, -⟩ := hval _ hin i j 0 hj (by omega)
    obtain ⟨_, f2, _⟩ := f1 rfl
    rw [Nat.zero_mul, Nat.add_zero] at f2
    exact mul_le_mul f2 a2 (Real.exp_pos _).le (by norm_num)

/-- **C150 fails for narrow lines.**  With an upper width limit below one day for a component after the first, at whatever
moment of whatever run, a round whose first move on the root task is for such a width ends the program. -/
theorem C150_stop (b : LineCfg) (ngUpp : ℕ) (lagStr widthStr ratioStr : List Char) (lags : List ℝ)
    (wlo whi : ℕ → ℝ) (rlo rhi : ℝ) (hn : 2 ≤ ngUpp) (hng : b.ng ≤ ngUpp)
    (h : PmapInput lf b ngUpp lagStr widthStr ratioStr lags wlo whi rlo rhi)
    (i j k : ℕ) (hj : j < b.nl.getD i 0) (hk : k < b.ng) (h0 : 0 < k) (hw : whi k < 1) :
    ∃ c, pmapCfg lf b ngUpp lagStr widthStr ratioStr = .ok c ∧
      ∀ (L : (Fin c.numParams → ℝ) → ℝ) (o : SOpts) (s : Sampler c.numParams) (ps : List (Particle c.numParams))
        (pss : List (List (Particle c.numParams))) (r : RoundInP c.numParams) (st : StepInP c.numParams)
        (sts : List (StepInP c.numParams)) (stss : List (List (StepInP c.numParams))) (w : Fin c.numParams)
        (ws : List (Fin c.numParams)), s.tasks = ps :: pss → r.steps = (st :: sts) :: stss → st.which < ps.length →
        st.uOrder ≤ 0.5 → st.cands = w :: ws → w.val = c.idxLine i j + 1 + k * 3 + 2 →
        roundP (linePerturb c) o L r s = .exit := by
  obtain ⟨c, hc, hstop⟩ :=
    C82_width_stop lf b ngUpp lagStr widthStr ratioStr lags wlo whi rlo rhi hn hng h i j k hj hk h0 hw
  refine ⟨c, hc, fun L o s ps pss r st sts stss w ws ht hr hwh hu hcand hwv => ?_⟩
  have hget : ps[st.which]? = some ps[st.which] := List.getElem?_eq_getElem hwh
  have hu' : ¬ (0.5 : ℝ) < st.uOrder := not_lt.2 hu
  simp only [roundP, ht, hr, runTasksP, mcmcRunP, mcmcStepP, samplerMove, if_pos hu, perturbUpdate, Res.get, hget,
    Res.ok_bind, linePerturb, hcand]
  rw [hstop ⟨w :: ws, _, _, _, _⟩ _ w ws rfl hwv]
  rfl

/-- **C150** (partial, as above).  Every row read from the posterior sample file of photometric mode has the lag of every
component of every line inside its pair of `StrLagPrior` to half a unit of the sixth decimal, and exactly if the pair has
six decimals; the row is that of a vector with all limits kept, listed with the likelihood of that vector over the
temperature. -/
theorem C150_posterior_partial (b : LineCfg) (ngUpp : ℕ) (lagStr widthStr ratioStr : List Char) (lags : List ℝ)
    (wlo whi : ℕ → ℝ) (rlo rhi : ℝ) (hn : 2 ≤ ngUpp) (hng : b.ng ≤ ngUpp)
    (h : PmapInput lf b ngUpp lagStr widthStr ratioStr lags wlo whi rlo rhi)
    (hlag : ∀ k < b.ng, lags.getD (2 * k) 0 ≤ lags.getD (2 * k + 1) 0)
    (hwid : ∀ k < b.ng, wlo k ≤ whi k ∧ (0 < k → 1 ≤ whi k)) (hrat : 0 < rlo ∧ rlo ≤ rhi)
    (hvar : ∀ t q, q < 3 → (b.varParRange (3 * t) q).1 ≤ (b.varParRange (3 * t) q).2)
    (hp : b.posivity = false) (hg : b.gap = true → ∀ i < b.nl.length, 0 < b.nl.getD i 0) :
    ∃ c, pmapCfg lf b ngUpp lagStr widthStr ratioStr = .ok c ∧
      ∀ (L : (Fin c.numParams → ℝ) → ℝ) (o : SOpts) (s : Sampler c.numParams), (∀ x, -DBL_MAX ≤ L x) → GoodOpts o →
        o.maxNumLevels < 2 ^ 32 → WholeRun (linePerturb c) (LineDrawn c) L o s → 0 < c.numParams →
        ∀ (T : ℝ) (ls : List LevelRow), (∀ l ∈ ls, l.Fits) → ∀ ss : List SavedRow,
          (∀ r ∈ ss, r.Fits ∧ ∃ id, ∃ p ∈ s.saved, r = savedRow id p) → ∀ (nl ns : ℕ) (draws : List (ℕ × ℝ)),
          (∀ d ∈ draws, 0 ≤ d.2 ∧ d.2 < 1) → ∀ out : PostOut (List ℝ),
          postprocessText T c.numParams (stateText nl ns) (levelsText ls) (infoText ss) (sampleText (ss.map (·.par)))
            draws = .ok out →
          ∃ rows, readPostText c.numParams (postText out.post) = .ok rows ∧
            ∀ (m : ℕ) (row : List ℝ), rows[m]? = some row →
              (∃ x, out.postInfo[m]? = some (sciVal 6 (L x) / T) ∧
                ∀ (i : Fin c.numParams) (y : ℝ), row[i.1]? = some y → |y - x i| ≤ 1 / 2 / 10 ^ 6) ∧
              ∀ i j k, j < b.nl.getD i 0 → k < b.ng → ∃ y, row[c.idxLine i j + 1 + k * 3 + 1]? = some y ∧
                lags.getD (2 * k) 0 - 1 / 2 / 10 ^ 6 ≤ y ∧ y ≤ lags.getD (2 * k + 1) 0 + 1 / 2 / 10 ^ 6 ∧
                ((∃ a : ℤ, lags.getD (2 * k) 0 = a / 10 ^ 6) → (∃ a : ℤ, lags.getD (2 * k + 1) 0 = a / 10 ^ 6) →
                  lags.getD (2 * k) 0 ≤ y ∧ y ≤ lags.getD (2 * k + 1) 0) := by
  obtain ⟨c', hc', -, -, hrng⟩ := C82_ranges lf b ngUpp lagStr widthStr ratioStr lags wlo whi rlo rhi hn hng h
  obtain ⟨c, hc, hcng, hcnl, htl, hut, hpos, hgap, hranges, hval⟩ :=
    pmap_values lf b ngUpp lagStr widthStr ratioStr lags wlo whi rlo rhi hn hng h hlag hwid hrat hvar
  obtain rfl := Res.ok.inj (hc.symm.trans hc')
  have hs : c.SharedOk := fun h2 => by omega
  have hp' : c.posivity = false := by rw [hpos]; exact hp
  have hg' : c.gap = true → ∀ i < c.nl.length, 0 < c.nl.getD i 0 := by
    intro hg'
    rw [hcnl]; exact hg (by rw [← hgap]; exact hg')
  refine ⟨_, hc, fun L o s hL ho h32 hrun h0 T ls hl ss hss nl ns draws hu out hout => ?_⟩
  obtain ⟨rows, h1, h2⟩ :=
    C146_posterior_line c h0 hranges hs hp' hg' hL ho h32 hrun T ls hl ss hss nl ns draws hu out hout
  refine ⟨rows, h1, fun m row hrow => ?_⟩
  obtain ⟨x, hlen, q1, q2, q3, q4, _⟩ := h2 m row hrow
  refine ⟨⟨x, q3, q2⟩, fun i j k hj hk => ?_⟩
  have hj' : j < c.nl.getD i 0 := by rw [hcnl]; exact hj
  have hk' : k < c.ng := by rw [hcng]; exact hk
  have hlt : c.idxLine i j + 1 + k * 3 + 1 < c.numParams := by
    rw [c.idxLine_eq i j hj']
    have := c.addr_lt (q := 1 + 3 * k + 1) (c.bno_lt i j hj') (by unfold LineCfg.blk; omega)
    omega
  have hf := pmap_fix c htl hut i j k 1 hj' hk' (by omega)
  have hy : row[c.idxLine i j + 1 + k * 3 + 1]? = some (row[c.idxLine i j + 1 + k * 3 + 1]'(by omega)) :=
    List.getElem?_eq_getElem (by omega)
  have e := (hrng i j k hj hk).2.1
  have b1 := q1 ⟨_, hlt⟩ hf
  have b2 := abs_le.1 (q2 ⟨_, hlt⟩ _ hy)
  have b3 := q4 ⟨_, hlt⟩ _ hy hf
  simp only [e] at b1 b3
  exact ⟨_, hy, by linarith, by linarith, b3⟩

/-! ## Concrete cases -/

theorem pmapBase_lags : ∀ k < (pmapBase 50).ng,
    ([1, 2, 5, 7] : List ℝ).getD (2 * k) 0 ≤ ([1, 2, 5, 7] : List ℝ).getD (2 * k + 1) 0 := by
  intro k hk
  have : k = 0 ∨ k = 1 := by simp only [pmapBase] at hk; omega
  rcases this with rfl | rfl <;> norm_num

theorem pmapBase_gap (w : ℝ) : (pmapBase w).gap = true → ∀ i < (pmapBase w).nl.length, 0 < (pmapBase w).nl.getD i 0 := by
  intro _ i hi
  have : i = 0 ∨ i = 1 := by simp only [pmapBase, lineCfgEx, List.length_cons, List.length_nil] at hi; omega
  rcases this with rfl | rfl <;> simp [pmapBase, lineCfgEx]

/-- With `WidthLimitUpp = 50` there are runs, and the lag of the second component of the only line of the second data set
is between 5 and 7 days in all of them. -/
example : ∃ c, pmapCfg lfEx (pmapBase 50) 2 "[1:2:5:7]".toList [] [] = .ok c ∧
    (∃ s, WholeRun (linePerturb c) (LineDrawn c) (fun _ => 0) exOpts s ∧ ∃ ps ∈ s.tasks, ps ≠ []) ∧
    ∀ s, WholeRun (linePerturb c) (LineDrawn c) (fun _ => 0) exOpts s → ∀ ps ∈ s.tasks, ∀ p ∈ ps,
      5 ≤ extendVec p.params (c.idxLine 1 0 + 1 + 1 * 3 + 1) ∧ extendVec p.params (c.idxLine 1 0 + 1 + 1 * 3 + 1) ≤ 7 := by
  obtain ⟨c', hc', h2⟩ := C150_pmap_partial lfEx (pmapBase 50) 2 _ [] [] [1, 2, 5, 7] (fun _ => 1 / 10) (fun _ => 50)
    (1 / 1000) 1 le_rfl le_rfl (pmapBase_input 50 (by norm_num) (by norm_num)) pmapBase_lags
    (fun k _ => by norm_num) (by norm_num) (pmapBase_var 50) rfl (pmapBase_gap 50)
  obtain ⟨c, hc, hcng, hcnl, htl, hut, hpos, hgap, hranges, hval⟩ :=
    pmap_values lfEx (pmapBase 50) 2 _ [] [] [1, 2, 5, 7] (fun _ => 1 / 10) (fun _ => 50)
      (1 / 1000) 1 le_rfl le_rfl (pmapBase_input 50 (by norm_num) (by norm_num)) pmapBase_lags
      (fun k _ => by norm_num) (by norm_num) (pmapBase_var 50)
  obtain rfl := Res.ok.inj (hc.symm.trans hc')
  refine ⟨c, hc, ?_, fun s hs ps hps p hp => ?_⟩
  · have hd : ∀ i, 0 ≤ (lineDrawEx 0 0).u i ∧ (lineDrawEx 0 0).u i ≤ 1 := fun i => by simp [lineDrawEx]
    obtain ⟨p, h0, hi⟩ := c.fromPrior_inv (lineDrawEx 0 0) (fun _ => 0) hd hranges (fun h2 => by omega)
      (by rw [hpos]; rfl)
    refine ⟨_, .start exOpts 0 [[(fun i => p i, 0)]] ⟨rfl, by simp⟩ ?_, ?_⟩
    · intro l hl x hx
      rw [List.mem_singleton] at hl
      subst hl
      rw [List.mem_singleton] at hx
      subst hx
      exact ⟨lineDrawEx 0 0, fun _ => 0, p, hd, h0, fun _ => rfl⟩
    · simp [initSampler]
  · have := ((h2 (fun _ => 0) exOpts s (fun _ => by have := DBL_MAX_pos; linarith) (by constructor <;> simp) (by simp) hs).2 p
      (.inl ⟨ps, hps, hp⟩)).2 1 0 1 (by simp [pmapBase, lineCfgEx]) (by simp [pmapBase])
    simpa using this.2.2

/-- With `WidthLimitUpp = 0.5` the hypotheses of `C150_stop` are met. -/
example : ∃ c, pmapCfg lfEx (pmapBase (1 / 2)) 2 "[1:2:5:7]".toList [] [] = .ok c ∧
    ∀ (L : (Fin c.numParams → ℝ) → ℝ) (o : SOpts) (s : Sampler c.numParams) (ps : List (Particle c.numParams))
      (pss : List (List (Particle c.numParams))) (r : RoundInP c.numParams) (st : StepInP c.numParams)
      (sts : List (StepInP c.numParams)) (stss : List (List (StepInP c.numParams))) (w : Fin c.numParams)
      (ws : List (Fin c.numParams)), s.tasks = ps :: pss → r.steps = (st :: sts) :: stss → st.which < ps.length →
      st.uOrder ≤ 0.5 → st.cands = w :: ws → w.val = c.idxLine 0 1 + 1 + 1 * 3 + 2 →
      roundP (linePerturb c) o L r s = .exit :=
  C150_stop lfEx (pmapBase (1 / 2)) 2 _ [] [] [1, 2, 5, 7] (fun _ => 1 / 10) (fun _ => 1 / 2) (1 / 1000) 1 le_rfl
    le_rfl (pmapBase_input (1 / 2) (by norm_num) (by norm_num)) 0 1 1 (by simp [pmapBase, lineCfgEx])
    (by simp [pmapBase]) one_pos (by norm_num)

end Mica
