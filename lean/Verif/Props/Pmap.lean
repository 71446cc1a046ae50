import Verif.Proof.Pmap
import Verif.Props.LineParams
import Verif.Props.Priors
import Verif.Props.Misc
import Verif.Props.Kernel

/-!
# C82 and C83: photometric mode

docs/prm.rst: "The adopted transfer function consists of two components …
`Ψ(τ) = f₁ ψ₁(τ) + f₁ R ψ₂(τ)` … where `f₁, τ₁, ω₁` are for continuum reverberation and `R, τ₂, ω₂` are
reverberation of the broad emission line.  Here `R` represents the fraction of responses relative the
continuum component"; "`StrLagPrior`: prior range of lags of each components"; "`StrRatioPrior`: response
ratio prior of line component"; `width_limit=[0.01, 100]`.
-/

open MeasureTheory

namespace Mica

variable (lf : List Char → Option (ℝ × List Char))

/-! ## C82: ranges of the parameters -/

/-- What the user has given: `lags` is the list of `StrLagPrior`; component `k` has width limits
`wlo k`, `whi k`, either from `StrWidthPrior` or, without it, the general limits; all ratios have the limits
`rlo`, `rhi` of `StrRatioPrior`, or 1/1000 and 1 without it. -/
structure PmapInput (b : LineCfg) (ngUpp : ℕ) (lagStr widthStr ratioStr : List Char) (lags : List ℝ)
    (wlo whi : ℕ → ℝ) (rlo rhi : ℝ) : Prop where
  lag : IsPrior lf lagStr lags
  lagLen : 2 * ngUpp ≤ lags.length
  width : (widthStr = [] ∧ ∀ k, Real.log (wlo k) = b.widthRange.1 ∧ Real.log (whi k) = b.widthRange.2) ∨
    ∃ ws, IsPrior lf widthStr ws ∧ 2 * ngUpp ≤ ws.length ∧
      ∀ k < ngUpp, ws[2 * k]? = some (wlo k) ∧ ws[2 * k + 1]? = some (whi k)
  widthPos : ∀ k, 0 < wlo k ∧ 0 < whi k
  ratio : (ratioStr = [] ∧ rlo = 1 / 1000 ∧ rhi = 1) ∨ IsPrior lf ratioStr [rlo, rhi]

private theorem pair_get (m k : ℕ) (a b : ℝ) (hk : k < m) :
    (List.replicate m [a, b]).flatten[k * 2]? = some a ∧
    (List.replicate m [a, b]).flatten[k * 2 + 1]? = some b := by
  induction m generalizing k with
  | zero => omega
  | succ m ih =>
    rw [List.replicate_succ, List.flatten_cons]
    cases k with
    | zero => simp
    | succ k =>
      have := ih k (by omega)
      rw [show (k + 1) * 2 = k * 2 + 2 by ring, show k * 2 + 2 + 1 = (k * 2 + 1) + 2 by ring]
      simpa using this

private theorem width_array {b : LineCfg} {ngUpp : ℕ} {lagStr widthStr ratioStr : List Char} {lags : List ℝ}
    {wlo whi : ℕ → ℝ} {rlo rhi : ℝ} (hn : 2 ≤ ngUpp)
    (h : PmapInput lf b ngUpp lagStr widthStr ratioStr lags wlo whi rlo rhi) :
    ∃ w, widthPriorOf lf ngUpp b.widthRange widthStr = .ok w ∧ w.length = 2 * ngUpp ∧
      ∀ k < ngUpp, w.getD (k * 2) 0 = Real.log (wlo k) ∧ w.getD (k * 2 + 1) 0 = Real.log (whi k) := by
  rcases h.width with ⟨h1, h2⟩ | ⟨ws, h1, h2, h3⟩
  · refine ⟨_, by rw [widthPriorOf, if_pos h1], ?_, fun k hk => ?_⟩
    · simp only [List.length_flatten, List.map_replicate, List.length_cons, List.length_nil,
        List.sum_replicate, smul_eq_mul]
      omega
    · have := pair_get ngUpp k b.widthRange.1 b.widthRange.2 hk
      rw [List.getD_eq_getElem?_getD, List.getD_eq_getElem?_getD, this.1, this.2, (h2 k).1, (h2 k).2]
      exact ⟨rfl, rfl⟩
  · have hpos : ∀ v ∈ ws.take (2 * ngUpp), 0 < v := by
      intro v hv
      obtain ⟨i, hi⟩ := List.getElem?_of_mem hv
      have hlt : i < 2 * ngUpp := by
        by_contra hge
        rw [List.getElem?_eq_none (by rw [List.length_take]; omega)] at hi
        simp at hi
      rw [List.getElem?_take_of_lt hlt] at hi
      have := h3 (i / 2) (by omega)
      rcases Nat.mod_two_eq_zero_or_one i with hm | hm
      · rw [show 2 * (i / 2) = i by omega, hi] at this
        have h4 := Option.some.inj this.1
        rw [h4]; exact (h.widthPos _).1
      · rw [show 2 * (i / 2) + 1 = i by omega, hi] at this
        have h4 := Option.some.inj this.2
        rw [h4]; exact (h.widthPos _).2
    refine ⟨_, (C49_width lf widthStr ws h1 ngUpp (by omega) _).1 h2 hpos, ?_, fun k hk => ?_⟩
    · rw [List.length_map, List.length_take]; omega
    · have := h3 k hk
      simp only [List.getD_eq_getElem?_getD, List.getElem?_map]
      rw [List.getElem?_take_of_lt (by omega), List.getElem?_take_of_lt (by omega),
        show k * 2 = 2 * k by ring, this.1, this.2]
      exact ⟨rfl, rfl⟩

private theorem ratio_array {b : LineCfg} {ngUpp : ℕ} {lagStr widthStr ratioStr : List Char} {lags : List ℝ}
    {wlo whi : ℕ → ℝ} {rlo rhi : ℝ} (hn : 2 ≤ ngUpp)
    (h : PmapInput lf b ngUpp lagStr widthStr ratioStr lags wlo whi rlo rhi) :
    ∃ r, ratioPriorOf lf ngUpp ratioStr = .ok r ∧
      ∀ k < ngUpp - 1, r.getD (k * 2) 0 = Real.log rlo ∧ r.getD (k * 2 + 1) 0 = Real.log rhi := by
  rcases h.ratio with ⟨rfl, rfl, rfl⟩ | h1
  · obtain ⟨r, h1, h2, h3⟩ := C49_ratio_default lf ngUpp
    refine ⟨r, h1, fun k hk => ?_⟩
    have := h3 k hk
    rw [List.getD_eq_getElem?_getD, List.getD_eq_getElem?_getD, show k * 2 = 2 * k by ring, this.1, this.2]
    norm_num
  · obtain ⟨r, h1, h2, h3⟩ := C49_ratio_partial lf ratioStr rlo rhi h1 ngUpp hn
    refine ⟨r, h1, fun k hk => ?_⟩
    have := h3 k hk
    rw [List.getD_eq_getElem?_getD, List.getD_eq_getElem?_getD, show k * 2 = 2 * k by ring, this.1, this.2]
    exact ⟨rfl, rfl⟩

/-- The configuration differs from `b` only in the options and arrays named here. -/
theorem pmapCfg_ok {b : LineCfg} {ngUpp : ℕ} {lagStr widthStr ratioStr : List Char} {lags : List ℝ}
    {wlo whi : ℕ → ℝ} {rlo rhi : ℝ} (hn : 2 ≤ ngUpp)
    (h : PmapInput lf b ngUpp lagStr widthStr ratioStr lags wlo whi rlo rhi) :
    ∃ lp wp rp, pmapCfg lf b ngUpp lagStr widthStr ratioStr = .ok { b with
        typeLag := 4, uniTf := 0, negResp := false, lagPrior := lp, widthPrior := some wp,
        ratioPrior := some rp } ∧
      (∀ k < ngUpp, lp (k * 2) = lags.getD (2 * k) 0 ∧ lp (k * 2 + 1) = lags.getD (2 * k + 1) 0) ∧
      (∀ k < ngUpp, wp (k * 2) = (if k = 0 then Real.log (min (wlo k) 0.01) else Real.log (max (wlo k) 1)) ∧
        wp (k * 2 + 1) = Real.log (whi k)) ∧
      (∀ k < ngUpp - 1, rp (k * 2) = Real.log rlo ∧ rp (k * 2 + 1) = Real.log rhi) := by
  obtain ⟨w, hw, hwl, hwv⟩ := width_array lf hn h
  obtain ⟨r, hr, hrv⟩ := ratio_array lf hn h
  have hl := (C49_lag lf lagStr lags h.lag ngUpp (by omega)).1 h.lagLen
  refine ⟨fun i => (lags.take (2 * ngUpp)).getD i 0, fun i => (pmapWidths ngUpp w).getD i 0,
    fun i => r.getD i 0, ?_, fun k hk => ?_, fun k hk => ?_, hrv⟩
  · unfold pmapCfg
    rw [hw, Res.ok_bind, hl, Res.ok_bind, hr, Res.ok_bind]
    rfl
  · simp only [List.getD_eq_getElem?_getD]
    rw [List.getElem?_take_of_lt (by omega), List.getElem?_take_of_lt (by omega), show k * 2 = 2 * k by ring]
    exact ⟨rfl, rfl⟩
  · have h1 := pmapWidths_getD ngUpp w hwl k hk
    have h2 := hwv k hk
    have hp := h.widthPos k
    simp only [h1.1, h1.2, h2.2, and_true]
    by_cases h0 : k = 0
    · subst h0
      rw [if_pos rfl, if_pos rfl]
      have := h2.1
      rw [Nat.zero_mul] at this
      rw [this]
      rcases le_total (wlo 0) 0.01 with hle | hle
      · rw [min_eq_left hle, min_eq_left (Real.log_le_log hp.1 hle)]
      · rw [min_eq_right hle, min_eq_right (Real.log_le_log (by norm_num) hle)]
    · rw [if_neg h0, if_neg h0, h2.1, ← Real.log_one]
      rcases le_total (wlo k) 1 with hle | hle
      · rw [max_eq_right hle, max_eq_right (Real.log_le_log hp.1 hle)]
      · rw [max_eq_left hle, max_eq_left (Real.log_le_log (by norm_num) hle)]

/-- **C82.** In photometric mode the preparation succeeds and the ranges are: the amplitude of the first
component from 1/100000 to 10, the ratios of the others as in `StrRatioPrior`, lags as in `StrLagPrior`
(component `k` has the `k`-th pair), and for the widths the upper limit given; the lower limit given is lowered
to 0.01 for the first component and raised to one day for the others. -/
theorem C82_ranges (b : LineCfg) (ngUpp : ℕ) (lagStr widthStr ratioStr : List Char) (lags : List ℝ)
    (wlo whi : ℕ → ℝ) (rlo rhi : ℝ) (hn : 2 ≤ ngUpp) (hng : b.ng ≤ ngUpp)
    (h : PmapInput lf b ngUpp lagStr widthStr ratioStr lags wlo whi rlo rhi) :
    ∃ c, pmapCfg lf b ngUpp lagStr widthStr ratioStr = .ok c ∧ c.ng = b.ng ∧ c.nl = b.nl ∧
      ∀ i j k, j < b.nl.getD i 0 → k < b.ng →
        c.rng (c.idxLine i j + 1 + k * 3) =
          (if k = 0 then (Real.log (1 / 10 ^ 5), Real.log 10) else (Real.log rlo, Real.log rhi)) ∧
        c.rng (c.idxLine i j + 1 + k * 3 + 1) = (lags.getD (2 * k) 0, lags.getD (2 * k + 1) 0) ∧
        c.rng (c.idxLine i j + 1 + k * 3 + 2) =
          (if k = 0 then Real.log (min (wlo k) 0.01) else Real.log (max (wlo k) 1), Real.log (whi k)) := by
  obtain ⟨lp, wp, rp, hc, h1, h2, h3⟩ := pmapCfg_ok lf hn h
  refine ⟨_, hc, rfl, rfl, fun i j k hj hk => ?_⟩
  generalize hcc : ({ b with
        typeLag := 4, uniTf := 0, negResp := false, lagPrior := lp, widthPrior := some wp,
        ratioPrior := some rp } : LineCfg) = c
  obtain ⟨ha, hl, hw⟩ := (C39_ranges c).2.2 i j k (by rw [← hcc]; exact hj) (by rw [← hcc]; exact hk)
  refine ⟨?_, ?_, ?_⟩
  · rw [ha, LineCfg.ampWindow, ← hcc]
    by_cases h0 : k = 0
    · simp [h0, LineCfg.ampRange]
    · simp only [if_neg h0, (h3 (k - 1) (by omega)).1, (h3 (k - 1) (by omega)).2]
  · rw [hl, LineCfg.lagWindow, ← hcc]
    simp only [if_true, (h1 k (by omega)).1, (h1 k (by omega)).2]
  · rw [hw, LineCfg.widthWindow, ← hcc]
    simp only [(h2 k (by omega)).1, (h2 k (by omega)).2]

/-- Only systematic errors are fixed in photometric mode. -/
theorem pmap_fix (c : LineCfg) (ht : c.typeLag = 4) (hu : c.uniTf = 0) (i j k t : ℕ)
    (hj : j < c.nl.getD i 0) (hk : k < c.ng) (h3 : t < 3) : c.fix (c.idxLine i j + 1 + k * 3 + t) = none := by
  by_contra hne
  obtain ⟨v, hv⟩ := Option.ne_none_iff_exists'.1 hne
  rcases c.fix_cases hv with ⟨_, _, t', _, h2⟩ | ⟨_, _, b', _, h1⟩ | ⟨h, _⟩ | ⟨_, h, _⟩ | ⟨h, _⟩
  · rw [c.idxLine_eq i j hj] at h2; omega
  · rw [c.idxLine_eq i j hj] at h1
    have := LineCfg.block_addr_inj (B := c.blk) (b := c.bno i j) (b' := b')
      (q := 1 + k * 3 + t) (q' := 0) (by unfold LineCfg.blk; omega) c.blk_pos (by omega)
    omega
  · omega
  · omega
  · omega

/-- The configuration of a run in photometric mode: no range is empty, and a vector inside the ranges has the first
amplitudes, ratios, lags and widths inside their limits. -/
theorem pmap_values (b : LineCfg) (ngUpp : ℕ) (lagStr widthStr ratioStr : List Char) (lags : List ℝ)
    (wlo whi : ℕ → ℝ) (rlo rhi : ℝ) (hn : 2 ≤ ngUpp) (hng : b.ng ≤ ngUpp)
    (h : PmapInput lf b ngUpp lagStr widthStr ratioStr lags wlo whi rlo rhi)
    (hlag : ∀ k < b.ng, lags.getD (2 * k) 0 ≤ lags.getD (2 * k + 1) 0)
    (hwid : ∀ k < b.ng, wlo k ≤ whi k ∧ (0 < k → 1 ≤ whi k)) (hrat : 0 < rlo ∧ rlo ≤ rhi)
    (hvar : ∀ t q, q < 3 → (b.varParRange (3 * t) q).1 ≤ (b.varParRange (3 * t) q).2) :
    ∃ c, pmapCfg lf b ngUpp lagStr widthStr ratioStr = .ok c ∧ c.ng = b.ng ∧ c.nl = b.nl ∧ c.typeLag = 4 ∧ c.uniTf = 0 ∧
      c.posivity = b.posivity ∧ c.gap = b.gap ∧ c.RangesOk ∧
      ∀ pm : ℕ → ℝ, (∀ i < c.numParams, c.fix i = none → (c.rng i).1 ≤ pm i ∧ pm i ≤ (c.rng i).2) →
        ∀ i j k, j < b.nl.getD i 0 → k < b.ng →
          let x := Real.exp (pm (c.idxLine i j + 1 + k * 3))
          let lag := pm (c.idxLine i j + 1 + k * 3 + 1)
          let width := Real.exp (pm (c.idxLine i j + 1 + k * 3 + 2))
          (k = 0 → 1 / 10 ^ 5 ≤ x ∧ x ≤ 10 ∧ min (wlo k) 0.01 ≤ width ∧ width ≤ whi k) ∧
          (0 < k → rlo ≤ x ∧ x ≤ rhi ∧ wlo k ≤ width ∧ 1 ≤ width ∧ width ≤ whi k) ∧
          lags.getD (2 * k) 0 ≤ lag ∧ lag ≤ lags.getD (2 * k + 1) 0 := by
  obtain ⟨lp, wp, rp, hc, h1, h2, h3⟩ := pmapCfg_ok lf hn h
  obtain ⟨c', hc', hr'⟩ := C82_ranges lf b ngUpp lagStr widthStr ratioStr lags wlo whi rlo rhi hn hng h
  rw [hc] at hc'
  have e := Res.ok.inj hc'
  obtain ⟨hcng, hcnl, hrng⟩ := hr'
  have htl : c'.typeLag = 4 := by rw [← e]
  have hut : c'.uniTf = 0 := by rw [← e]
  have hwin : ∀ k < b.ng, (c'.widthWindow k) =
      (if k = 0 then Real.log (min (wlo k) 0.01) else Real.log (max (wlo k) 1), Real.log (whi k)) := by
    intro k hk
    rw [LineCfg.widthWindow, ← e]
    simp only [(h2 k (by omega)).1, (h2 k (by omega)).2]
  have hlw : ∀ k < b.ng, c'.lagWindow k = (lags.getD (2 * k) 0, lags.getD (2 * k + 1) 0) := by
    intro k hk
    rw [LineCfg.lagWindow, ← e]
    simp only [if_true, (h1 k (by omega)).1, (h1 k (by omega)).2]
  have haw : ∀ k < b.ng, c'.ampWindow k =
      (if k = 0 then (Real.log (1 / 10 ^ 5), Real.log 10) else (Real.log rlo, Real.log rhi)) := by
    intro k hk
    rw [LineCfg.ampWindow, ← e]
    by_cases h0 : k = 0
    · simp [h0, LineCfg.ampRange]
    · simp only [if_neg h0, (h3 (k - 1) (by omega)).1, (h3 (k - 1) (by omega)).2]
  have hranges : ∀ i < c'.numParams, (c'.rng i).1 ≤ (c'.rng i).2 := by
    intro i hi
    by_cases hv : c'.numVar ≤ i
    · obtain ⟨bl, q, hb, hq, rfl⟩ := c'.addr_split hv hi
      rcases c'.offset_cases hq with rfl | ⟨k, t, hk, ht, rfl⟩
      · rw [Nat.add_zero, c'.rng_err bl hb]
        exact Real.log_le_log (by norm_num) (by norm_num)
      · rw [c'.rng_comp bl k t hb hk ht]
        rw [hcng] at hk
        have hwk := hwid k hk
        have hp := h.widthPos k
        have : t = 0 ∨ t = 1 ∨ t = 2 := by omega
        rcases this with rfl | rfl | rfl
        · simp only [List.getD_cons_zero, haw k hk]
          split
          · exact Real.log_le_log (by norm_num) (by norm_num)
          · exact Real.log_le_log hrat.1 hrat.2
        · simp only [List.getD_cons_succ, List.getD_cons_zero, hlw k hk]
          exact hlag k hk
        · simp only [List.getD_cons_succ, List.getD_cons_zero, hwin k hk]
          split
          · exact Real.log_le_log (lt_min hp.1 (by norm_num)) ((min_le_left _ _).trans hwk.1)
          · exact Real.log_le_log (lt_max_of_lt_left hp.1) (max_le hwk.1 (hwk.2 (by omega)))
    · have := c'.rng_var (i / 3) (i % 3) (Nat.mod_lt _ (by norm_num)) (by omega)
      rw [show 3 * (i / 3) + i % 3 = i by omega] at this
      rw [this]
      have hv := hvar (i / 3) (i % 3) (Nat.mod_lt _ (by norm_num))
      rw [← e]; exact hv
  refine ⟨c', by rw [hc, hc'], hcng, hcnl, htl, hut, by rw [← e], by rw [← e], hranges,
    fun pm hpm i j k hj hk => ?_⟩
  have hj' : j < c'.nl.getD i 0 := by rw [hcnl]; exact hj
  have hk' : k < c'.ng := by rw [hcng]; exact hk
  have hin : ∀ t < 3, (c'.rng (c'.idxLine i j + 1 + k * 3 + t)).1 ≤ pm (c'.idxLine i j + 1 + k * 3 + t) ∧
      pm (c'.idxLine i j + 1 + k * 3 + t) ≤ (c'.rng (c'.idxLine i j + 1 + k * 3 + t)).2 := by
    intro t ht
    refine hpm _ ?_ (pmap_fix c' htl hut i j k t hj' hk' ht)
    rw [c'.idxLine_eq i j hj']
    have := c'.addr_lt (q := 1 + 3 * k + t) (c'.bno_lt i j hj') (by unfold LineCfg.blk; omega)
    omega
  obtain ⟨ra, rl, rw_⟩ := hrng i j k hj hk
  have i0 := hin 0 (by omega)
  have i1 := hin 1 (by omega)
  have i2 := hin 2 (by omega)
  rw [Nat.add_zero, ra] at i0
  rw [rl] at i1
  rw [rw_] at i2
  have hp := h.widthPos k
  have ex : ∀ {a y : ℝ}, 0 < a → Real.log a ≤ y → a ≤ Real.exp y := fun ha hy =>
    (Real.log_le_iff_le_exp ha).1 hy
  have ex' : ∀ {a y : ℝ}, 0 < a → y ≤ Real.log a → Real.exp y ≤ a := fun ha hy =>
    (Real.le_log_iff_exp_le ha).1 hy
  intro x lag width
  refine ⟨fun h0 => ?_, fun h0 => ?_, i1.1, i1.2⟩
  · rw [if_pos h0] at i0
    rw [if_pos h0] at i2
    exact ⟨ex (by norm_num) i0.1, ex' (by norm_num) i0.2, ex (lt_min hp.1 (by norm_num)) i2.1, ex' hp.2 i2.2⟩
  · rw [if_neg h0.ne'] at i0
    rw [if_neg h0.ne'] at i2
    have hm := ex (lt_max_of_lt_left hp.1) i2.1
    exact ⟨ex hrat.1 i0.1, ex' (hrat.1.trans_le hrat.2) i0.2, (le_max_left _ _).trans hm,
      (le_max_right _ _).trans hm, ex' hp.2 i2.2⟩

/-- **C82** (partial: the positive-lag option is off, and the upper width limits of the line components are at
least one day).  From a draw of the prior and after any number of moves in photometric mode, the amplitude of
the first component of every line is between 1/100000 and 10, the ratios are inside `StrRatioPrior`, the lags
inside `StrLagPrior`, the width of the first component is between 0.01 (or the lower limit given, if that is
smaller) and the upper limit given, and the widths of the other components are between the limits given and not
below one day.  The run neither stops nor gets into undefined behaviour. -/
theorem C82_stay_partial (b : LineCfg) (ngUpp : ℕ) (lagStr widthStr ratioStr : List Char) (lags : List ℝ)
    (wlo whi : ℕ → ℝ) (rlo rhi : ℝ) (hn : 2 ≤ ngUpp) (hng : b.ng ≤ ngUpp)
    (h : PmapInput lf b ngUpp lagStr widthStr ratioStr lags wlo whi rlo rhi)
    (hlag : ∀ k < b.ng, lags.getD (2 * k) 0 ≤ lags.getD (2 * k + 1) 0)
    (hwid : ∀ k < b.ng, wlo k ≤ whi k ∧ (0 < k → 1 ≤ whi k)) (hrat : 0 < rlo ∧ rlo ≤ rhi)
    (hvar : ∀ t q, q < 3 → (b.varParRange (3 * t) q).1 ≤ (b.varParRange (3 * t) q).2)
    (hp : b.posivity = false) (hg : b.gap = true → ∀ i < b.nl.length, 0 < b.nl.getD i 0) :
    ∃ c, pmapCfg lf b ngUpp lagStr widthStr ratioStr = .ok c ∧
      ∀ (d : LineDraw) (mem : ℕ → ℝ) (ss : List (ConStep c.numParams × Bool)),
        (∀ i, 0 ≤ d.u i ∧ d.u i ≤ 1) →
        (c.chain d mem ss = .hang ∨ ∃ pm, c.chain d mem ss = .ok pm) ∧
        ∀ pm, c.chain d mem ss = .ok pm → ∀ i j k, j < b.nl.getD i 0 → k < b.ng →
          let x := Real.exp (pm (c.idxLine i j + 1 + k * 3))
          let lag := pm (c.idxLine i j + 1 + k * 3 + 1)
          let width := Real.exp (pm (c.idxLine i j + 1 + k * 3 + 2))
          (k = 0 → 1 / 10 ^ 5 ≤ x ∧ x ≤ 10 ∧ min (wlo k) 0.01 ≤ width ∧ width ≤ whi k) ∧
          (0 < k → rlo ≤ x ∧ x ≤ rhi ∧ wlo k ≤ width ∧ 1 ≤ width ∧ width ≤ whi k) ∧
          lags.getD (2 * k) 0 ≤ lag ∧ lag ≤ lags.getD (2 * k + 1) 0 := by
  obtain ⟨c, hc, hcng, hcnl, htl, hut, hpos, hgap, hranges, hval⟩ :=
    pmap_values lf b ngUpp lagStr widthStr ratioStr lags wlo whi rlo rhi hn hng h hlag hwid hrat hvar
  refine ⟨c, hc, fun d mem ss hd => ?_⟩
  have hmain := C62_line_moves_partial c d mem ss hd hranges (by omega) (by rw [hpos]; exact hp) (by
    intro hg'
    rw [hcnl]; exact hg (by rw [← hgap]; exact hg'))
  exact ⟨hmain.1, fun pm hpm => hval pm fun i hi hf => (hmain.2 pm hpm i hi).1 hf⟩

/-- **C82, negation.** With an upper width limit below one day for a component after the first, every move of
that width stops the program, whatever the state. -/
theorem C82_width_stop (b : LineCfg) (ngUpp : ℕ) (lagStr widthStr ratioStr : List Char) (lags : List ℝ)
    (wlo whi : ℕ → ℝ) (rlo rhi : ℝ) (hn : 2 ≤ ngUpp) (hng : b.ng ≤ ngUpp)
    (h : PmapInput lf b ngUpp lagStr widthStr ratioStr lags wlo whi rlo rhi)
    (i j k : ℕ) (hj : j < b.nl.getD i 0) (hk : k < b.ng) (h0 : 0 < k) (hw : whi k < 1) :
    ∃ c, pmapCfg lf b ngUpp lagStr widthStr ratioStr = .ok c ∧
      ∀ (s : ConStep c.numParams) (pm : ℕ → ℝ) (w : Fin c.numParams) (ws : List (Fin c.numParams)),
        s.cands = w :: ws → w.val = c.idxLine i j + 1 + k * 3 + 2 → c.perturb s pm = .exit := by
  obtain ⟨lp, wp, rp, hc, -⟩ := pmapCfg_ok lf hn h
  obtain ⟨c', hc', hcng, hcnl, hrng⟩ :=
    C82_ranges lf b ngUpp lagStr widthStr ratioStr lags wlo whi rlo rhi hn hng h
  rw [hc] at hc'
  have e := Res.ok.inj hc'
  have htl : c'.typeLag = 4 := by rw [← e]
  have hut : c'.uniTf = 0 := by rw [← e]
  refine ⟨c', by rw [hc, hc'], fun s pm w ws hs hwv => ?_⟩
  have hf := pmap_fix c' htl hut i j k 2 (by rw [hcnl]; exact hj) (by rw [hcng]; exact hk) (by omega)
  have hpick : c'.pick s.cands = .ok w := by
    rw [hs, LineCfg.pick, hwv, hf]; rfl
  have hord : c'.ordered = false := by
    simp only [LineCfg.ordered, decide_eq_false_iff_not, not_and]; omega
  have hr := (hrng i j k hj hk).2.2
  rw [if_neg h0.ne', ← hwv] at hr
  have hinv : (c'.rng w).2 < (c'.rng w).1 := by
    rw [hr]
    exact Real.log_lt_log (h.widthPos k).2 (hw.trans_le (le_max_right _ _))
  unfold LineCfg.perturb
  rw [hpick, Res.ok_bind]
  simp only [LineCfg.bounds, hord, Bool.false_eq_true, false_and, if_false]
  rw [wrap_inverted _ _ _ hinv]
  rfl

/-- **C82, negation.** A lower width limit above 0.01 is not respected for the first component: there is a
draw of the prior with width 0.01. -/
theorem C82_first_width (b : LineCfg) (ngUpp : ℕ) (lagStr widthStr ratioStr : List Char) (lags : List ℝ)
    (wlo whi : ℕ → ℝ) (rlo rhi : ℝ) (hn : 2 ≤ ngUpp) (hng : b.ng ≤ ngUpp) (h1 : 0 < b.ng)
    (h : PmapInput lf b ngUpp lagStr widthStr ratioStr lags wlo whi rlo rhi)
    (hvar : ∀ t q, q < 3 → (b.varParRange (3 * t) q).1 ≤ (b.varParRange (3 * t) q).2)
    (hp : b.posivity = false)
    (i j : ℕ) (hj : j < b.nl.getD i 0) (hw : 0.01 < wlo 0) :
    ∃ c, pmapCfg lf b ngUpp lagStr widthStr ratioStr = .ok c ∧
      ∃ d : LineDraw, (∀ i, 0 ≤ d.u i ∧ d.u i ≤ 1) ∧ ∀ mem, ∃ pm, c.fromPrior d mem = .ok pm ∧
        Real.exp (pm (c.idxLine i j + 1 + 2)) = 0.01 := by
  obtain ⟨lp, wp, rp, hc, -⟩ := pmapCfg_ok lf hn h
  obtain ⟨c', hc', hcng, hcnl, hrng⟩ :=
    C82_ranges lf b ngUpp lagStr widthStr ratioStr lags wlo whi rlo rhi hn hng h
  rw [hc] at hc'
  have e := Res.ok.inj hc'
  have htl : c'.typeLag = 4 := by rw [← e]
  have hut : c'.uniTf = 0 := by rw [← e]
  have hpos : c'.posivity = false := by rw [← e]; exact hp
  have hord : c'.ordered = false := by
    simp only [LineCfg.ordered, decide_eq_false_iff_not, not_and]; omega
  have hj' : j < c'.nl.getD i 0 := by rw [hcnl]; exact hj
  have hk' : 0 < c'.ng := by rw [hcng]; exact h1
  refine ⟨c', by rw [hc, hc'], ⟨fun _ => 0, fun _ => 0, fun _ _ => (0, 0)⟩, fun i => by simp, fun mem => ?_⟩
  obtain ⟨p0, g0, -⟩ := c'.drawVar_ok ⟨fun _ => 0, fun _ => 0, fun _ _ => (0, 0)⟩ mem c'.numVar fun a ha => by
    have := c'.rng_var (a / 3) (a % 3) (Nat.mod_lt _ (by norm_num)) (by omega)
    rw [show 3 * (a / 3) + a % 3 = a by omega] at this
    rw [this]
    have hv := hvar (a / 3) (a % 3) (Nat.mod_lt _ (by norm_num))
    rw [← e]; exact hv
  have hf := pmap_fix c' htl hut i j 0 2 hj' hk' (by omega)
  have hr := (hrng i j 0 hj h1).2.2
  rw [Nat.zero_mul, Nat.add_zero] at hf hr
  have hlt : c'.idxLine i j + 1 + 2 < c'.numParams := by
    rw [c'.idxLine_eq i j hj']
    have := c'.addr_lt (q := 3) (c'.bno_lt i j hj') (by unfold LineCfg.blk; omega)
    omega
  have hge : c'.numVar ≤ c'.idxLine i j + 1 + 2 := by rw [c'.idxLine_eq i j hj']; omega
  refine ⟨_, by
    unfold LineCfg.fromPrior
    rw [g0, Res.ok_bind]
    unfold LineCfg.share
    rw [if_neg (by omega)], ?_⟩
  simp only [LineCfg.putFixed, hf, LineCfg.posAll, hpos, LineCfg.sortAll, hord, LineCfg.drawLine,
    Bool.false_eq_true, if_false, if_pos (And.intro hge hlt), hr, if_true, zero_mul, add_zero]
  rw [min_eq_right hw.le, Real.exp_log (by norm_num)]

/-! ## C83: the likelihood -/

private theorem trans_get (e : PmapEnv) (pm : ℕ → ℝ) :
    (∀ l < e.c.nblocks, ∀ k, 1 ≤ k → k < e.c.ng →
      Real.exp (e.trans pm (e.c.numVar + l * (1 + 3 * e.c.ng) + 1 + 3 * k)) =
        Real.exp (pm (e.c.numVar + l * (1 + 3 * e.c.ng) + 1 + 3 * k)) *
          Real.exp (pm (e.c.numVar + l * (1 + 3 * e.c.ng) + 1))) ∧
    (∀ a < e.c.numParams, (¬ ∃ l < e.c.nblocks, ∃ k, 1 ≤ k ∧ k < e.c.ng ∧
        a = e.c.numVar + l * (1 + 3 * e.c.ng) + 1 + 3 * k) → e.trans pm a = pm a) := by
  have hnp : e.c.numParams = e.c.numVar + e.c.nblocks * (1 + 3 * e.c.ng) := by
    rw [LineCfg.numParams, LineCfg.numLine_eq, LineCfg.blk, Nat.mul_comm]
  have hg : ∀ a < e.c.numParams, ((List.range e.c.numParams).map pm).getD a 0 = pm a := by
    intro a ha
    rw [List.getD_eq_getElem?_getD, List.getElem?_map, List.getElem?_range ha]; rfl
  obtain ⟨-, h1, h2⟩ := C54_values e.c.numVar e.c.nblocks e.c.ng ((List.range e.c.numParams).map pm)
    (by rw [List.length_map, List.length_range, hnp])
  have ht : ∀ a, e.trans pm a =
      (transformRatio e.c.numVar e.c.nblocks e.c.ng ((List.range e.c.numParams).map pm)).getD a 0 := by
    intro a
    unfold PmapEnv.trans
    rw [LineCfg.numLine_div]
  refine ⟨fun l hl k hk1 hk => ?_, fun a ha hn => ?_⟩
  · have hb : (l + 1) * (1 + 3 * e.c.ng) ≤ e.c.nblocks * (1 + 3 * e.c.ng) := Nat.mul_le_mul_right _ hl
    rw [Nat.add_mul] at hb
    have := h1 l hl k hk1 hk
    rw [hg _ (by omega), hg _ (by omega)] at this
    rw [ht, this]
  · rw [ht, h2 a hn, hg a ha]

private theorem trans_var (e : PmapEnv) (pm : ℕ → ℝ) (a : ℕ) (ha : a < e.c.numVar) : e.trans pm a = pm a := by
  refine (trans_get e pm).2 a (by unfold LineCfg.numParams; omega) ?_
  rintro ⟨l, -, k, -, -, h⟩
  omega

theorem pmap_trans_line (e : PmapEnv) (pm : ℕ → ℝ) (i j : ℕ) (hj : j < e.c.nl.getD i 0) :
    e.trans pm (e.c.idxLine i j) = pm (e.c.idxLine i j) ∧
    ∀ k < e.c.ng,
      Real.exp (e.trans pm (e.c.idxLine i j + 1 + 3 * k)) =
        (if k = 0 then Real.exp (pm (e.c.idxLine i j + 1))
          else Real.exp (pm (e.c.idxLine i j + 1)) * Real.exp (pm (e.c.idxLine i j + 1 + 3 * k))) ∧
      e.trans pm (e.c.idxLine i j + 1 + 3 * k + 1) = pm (e.c.idxLine i j + 1 + 3 * k + 1) ∧
      e.trans pm (e.c.idxLine i j + 1 + 3 * k + 2) = pm (e.c.idxLine i j + 1 + 3 * k + 2) := by
  have hb := e.c.bno_lt i j hj
  have hx : e.c.idxLine i j = e.c.numVar + e.c.bno i j * (1 + 3 * e.c.ng) := by
    rw [e.c.idxLine_eq i j hj, LineCfg.blk]; ring
  have hlt : ∀ q, q < e.c.blk → e.c.idxLine i j + q < e.c.numParams := by
    intro q hq
    have := e.c.addr_lt (q := q) hb hq
    rw [e.c.idxLine_eq i j hj]; omega
  have hne : ∀ q, q < e.c.blk → (∀ k, 1 ≤ k → q ≠ 1 + 3 * k) →
      e.trans pm (e.c.idxLine i j + q) = pm (e.c.idxLine i j + q) := by
    intro q hq hqk
    refine (trans_get e pm).2 _ (hlt q hq) ?_
    rintro ⟨l, hl, k, hk1, hk, h⟩
    rw [hx] at h
    unfold LineCfg.blk at hq
    have := (block_unique (B := 1 + 3 * e.c.ng) (l := e.c.bno i j) (l' := l) (r := q) (r' := 1 + 3 * k)
      (by omega) (by omega) (by omega)).2
    exact hqk k hk1 this
  refine ⟨hne 0 e.c.blk_pos (by omega), fun k hk => ⟨?_, ?_, ?_⟩⟩
  · by_cases h0 : k = 0
    · subst h0
      rw [if_pos rfl, Nat.mul_zero, Nat.add_zero, hne 1 (by unfold LineCfg.blk; omega) (by omega)]
    · rw [if_neg h0]
      have := (trans_get e pm).1 (e.c.bno i j) hb k (by omega) hk
      rw [← hx] at this
      rw [this, mul_comm]
  · have := hne (1 + 3 * k + 1) (by unfold LineCfg.blk; omega) (by omega)
    rw [show e.c.idxLine i j + 1 + 3 * k + 1 = e.c.idxLine i j + (1 + 3 * k + 1) by omega, this]
  · have := hne (1 + 3 * k + 2) (by unfold LineCfg.blk; omega) (by omega)
    rw [show e.c.idxLine i j + 1 + 3 * k + 2 = e.c.idxLine i j + (1 + 3 * k + 2) by omega, this]

/-- **C83.** The transfer function of line `j` of data set `i` in photometric mode is
`f₁ ψ(τ₁, ω₁) + Σ f₁ R_k ψ(τ_k, ω_k)`: the parameters in the slots of the amplitudes of components after the
first are (the logarithms of) response ratios to the first. -/
theorem C83_transfer (e : PmapEnv) (pm : ℕ → ℝ) (i j : ℕ) (hj : j < e.c.nl.getD i 0) (hng : 1 ≤ e.c.ng) (s : ℝ) :
    let a := e.c.idxLine i j + 1
    transfer (KEnv.mk e.c.ng false (fun _ => e.typ) (e.trans pm) (e.c.idxCon i) (e.c.idxLine i)) j s =
      Real.exp (pm a) * tfDens e.typ (pm (a + 1)) (Real.exp (pm (a + 2))) s +
      ∑ k ∈ Finset.Ico 1 e.c.ng, Real.exp (pm a) * Real.exp (pm (a + 3 * k)) *
        tfDens e.typ (pm (a + 3 * k + 1)) (Real.exp (pm (a + 3 * k + 2))) s := by
  intro a
  unfold transfer
  simp only [Bool.false_eq_true, if_false]
  rw [Finset.range_eq_Ico, Finset.sum_eq_sum_Ico_succ_bot (by omega)]
  congr 1
  · obtain ⟨h1, h2, h3⟩ := (pmap_trans_line e pm i j hj).2 0 (by omega)
    rw [if_pos rfl] at h1
    rw [h1, h2, h3]
  · refine Finset.sum_congr rfl fun k hk => ?_
    rw [Finset.mem_Ico] at hk
    obtain ⟨h1, h2, h3⟩ := (pmap_trans_line e pm i j hj).2 k (by omega)
    rw [if_neg (by omega)] at h1
    rw [h1, h2, h3]

theorem probLineLoop_congr {T T' : ℕ → DSet → Res (Option ℝ)} (ds : List DSet) (k0 : ℕ)
    (h : ∀ k d, ds[k]? = some d → T (k0 + k) d = T' (k0 + k) d) (p : ℝ) :
    probLineLoop T ds k0 p = probLineLoop T' ds k0 p := by
  induction ds generalizing k0 p with
  | nil => rfl
  | cons d ds ih =>
    have h0 := h 0 d rfl
    rw [Nat.add_zero] at h0
    simp only [probLineLoop, h0]
    congr 1
    funext r
    cases r with
    | none => rfl
    | some v =>
      refine ih (k0 + 1) (fun k d' hd => ?_) _
      have := h (k + 1) d' (by simpa using hd)
      rwa [show k0 + (k + 1) = k0 + 1 + k by omega] at this

/-- **C83.** The likelihood of photometric mode is the likelihood of the general model at the converted
parameters. -/
theorem C83_as_line (e : PmapEnv) (pm : ℕ → ℝ) (ds : List DSet) (hn : ds.length ≤ e.c.nl.length) :
    probPmap e pm ds = probLine4 (e.line (e.trans pm)) ds := by
  refine probLineLoop_congr ds 0 (fun k d hd => ?_) 0
  have hk : k < ds.length := (List.getElem?_eq_some_iff.1 hd).1
  rw [Nat.zero_add]
  have hv : ∀ q < 3, e.trans pm (e.c.idxCon k + q) = pm (e.c.idxCon k + q) := by
    intro q hq
    refine trans_var e pm _ ?_
    unfold LineCfg.idxCon LineCfg.numVar
    split <;> omega
  have h0 := hv 0 (by omega)
  rw [Nat.add_zero] at h0
  have ht : pmTau (e.trans pm) (e.c.idxCon k) = pmTau pm (e.c.idxCon k) := by
    simp only [pmTau, hv 2 (by omega)]
  have hs : pmSigma (e.trans pm) (e.c.idxCon k) = pmSigma pm (e.c.idxCon k) := by
    simp only [pmSigma, hv 1 (by omega), ht]
  have hy : ∀ m, pmSyserr (e.trans pm) (e.c.idxCon k) m = pmSyserr pm (e.c.idxCon k) m := by
    intro m; simp only [pmSyserr, h0]
  show lineTerm4 _ _ _ _ _ = lineTerm4 e.nq d (e.trans pm) (e.c.idxCon k) _
  unfold lineTerm4
  simp only [ht, hs, hy]

/-- **C83** (partial: every data set has a line, and the conditions of C27).  The likelihood of photometric
mode is the Gaussian likelihood of all data, marginalised over the trends, with covariances from the transfer
functions of `C83_transfer`. -/
theorem C83_likelihood_partial (e : PmapEnv) (pm : ℕ → ℝ) (ds : List DSet) (hn : ds.length ≤ e.c.nl.length)
    (h : TransferOK (e.line (e.trans pm)) ds) (hl : ∀ d ∈ ds, d.line ≠ []) :
    probPmap e pm ds = .ok (ds.mapIdx fun k d =>
      Real.log (∫ p, gaussDens (lineCov (e.line (e.trans pm)) k d)
        ((fun i : Fin d.nall => d.fall i) - (d.trend e.nq).mulVec p)) +
      ((d.nall : ℝ) - (e.nq * (1 + d.line.length) : ℕ)) / 2 * Real.log (2 * Real.pi)).sum := by
  rw [C83_as_line e pm ds hn]
  exact C27_transfer_partial _ ds h hl

/-- **C83** for the transfer functions of the documentation, Gaussians or top-hats (partial: every data set has
a line).  No condition on the parameters: light curves with enough distinct times, sorted continuum times and
positive errors suffice. -/
theorem C83_documented_partial (e : PmapEnv) (pm : ℕ → ℝ) (ds : List DSet) (hn : ds.length ≤ e.c.nl.length)
    (ht : e.typ = .gauss ∨ e.typ = .tophat) (hl : ∀ d ∈ ds, d.line ≠ [])
    (hd : ∀ d ∈ ds, (∀ i, i + 1 < d.con.n → d.con.t i ≤ d.con.t (i + 1)) ∧
      ∀ a ∈ d.series, EnoughTimes a e.nq ∧ ∀ i < a.n, 0 < a.fe i) :
    probPmap e pm ds = .ok (ds.mapIdx fun k d =>
      Real.log (∫ p, gaussDens (lineCov (e.line (e.trans pm)) k d)
        ((fun i : Fin d.nall => d.fall i) - (d.trend e.nq).mulVec p)) +
      ((d.nall : ℝ) - (e.nq * (1 + d.line.length) : ℕ)) / 2 * Real.log (2 * Real.pi)).sum := by
  refine C83_likelihood_partial e pm ds hn (fun k d hk => ?_) hl
  obtain ⟨h1, h2⟩ := hd d (List.mem_of_getElem? hk)
  refine ⟨⟨e.c.ng, false, fun _ => e.typ, rfl, ?_, ?_⟩, h1, fun a ha => (h2 a ha).1⟩
  · intro j _ k _
    rcases ht with a | a
    · exact ⟨by simp [FarC, a], fun _ _ _ _ => by simp [FarL, a]⟩
    · exact ⟨by simp [FarC, a], fun _ _ _ _ => by simp [FarL, a]⟩
  · refine ⟨fun i hi => ?_, fun j a ha i hi => ?_⟩
    · have := (h2 d.con (by simp [DSet.series])).2 i hi
      positivity
    · have := (h2 a (by simp [DSet.series, List.mem_of_getElem? ha])).2 i hi
      positivity

/-! ## Concrete cases -/

/-- Two components, data sets with two and one lines, `WidthLimitLow = 0.1`, `WidthLimitUpp = w`. -/
noncomputable def pmapBase (w : ℝ) : LineCfg :=
  { lineCfgEx 0 0 [2, 1] false with ng := 2, widthLow := some (1 / 10), widthUpp := some w }

theorem pmapBase_input (w : ℝ) (h0 : 0 < w) (h1 : w ≤ 100) :
    PmapInput lfEx (pmapBase w) 2 "[1:2:5:7]".toList [] [] [1, 2, 5, 7] (fun _ => 1 / 10) (fun _ => w)
      (1 / 1000) 1 := by
  refine ⟨priorEx, by simp, Or.inl ⟨rfl, fun k => ?_⟩, fun k => ⟨by norm_num, h0⟩, Or.inl ⟨rfl, rfl, rfl⟩⟩
  simp only [LineCfg.widthRange, pmapBase, lineCfgEx, true_and]
  rw [min_eq_left (Real.log_le_log h0 (by linarith))]

theorem pmapBase_var (w : ℝ) : ∀ t q, q < 3 →
    ((pmapBase w).varParRange (3 * t) q).1 ≤ ((pmapBase w).varParRange (3 * t) q).2 := by
  intro t q hq
  have hl10 : (0 : ℝ) ≤ Real.log 10 := Real.log_nonneg (by norm_num)
  have hl11 : (0 : ℝ) ≤ Real.log (1 + 10) := Real.log_nonneg (by norm_num)
  have hl4 : Real.log (1 / 10 ^ 4) ≤ 0 := Real.log_nonpos (by norm_num) (by norm_num)
  have hpi : (0 : ℝ) ≤ Real.log (300 * 2 * Real.pi) :=
    Real.log_nonneg (by linarith [Real.two_le_pi])
  have : q = 0 ∨ q = 1 ∨ q = 2 := by omega
  rcases this with rfl | rfl | rfl
  · simp only [LineCfg.varParRange, LineCfg.varRange, pmapBase, lineCfgEx, Real.log_one]
    rw [max_eq_right (by norm_num)]
    exact le_min (by norm_num) hl11
  · simp only [LineCfg.varParRange, LineCfg.varRange, pmapBase, lineCfgEx]
    refine max_le (le_min (by norm_num) (by linarith)) (le_min (by linarith) (by linarith))
  · simp only [LineCfg.varParRange, LineCfg.varRange, pmapBase, lineCfgEx, Real.log_one]
    rw [max_eq_right (by norm_num)]
    exact le_min (by norm_num) hpi

/-- C82: with `WidthLimitUpp = 50` everything stays in place … -/
example : ∃ c, pmapCfg lfEx (pmapBase 50) 2 "[1:2:5:7]".toList [] [] = .ok c ∧
    ∀ (d : LineDraw) (mem : ℕ → ℝ) (ss : List (ConStep c.numParams × Bool)), (∀ i, 0 ≤ d.u i ∧ d.u i ≤ 1) →
      ∀ pm, c.chain d mem ss = .ok pm → 5 ≤ pm (c.idxLine 1 0 + 1 + 1 * 3 + 1) ∧
        pm (c.idxLine 1 0 + 1 + 1 * 3 + 1) ≤ 7 := by
  obtain ⟨c, h1, h2⟩ := C82_stay_partial lfEx (pmapBase 50) 2 _ [] [] [1, 2, 5, 7] (fun _ => 1 / 10) (fun _ => 50)
    (1 / 1000) 1 le_rfl le_rfl (pmapBase_input 50 (by norm_num) (by norm_num))
    (by
      intro k hk
      have : k = 0 ∨ k = 1 := by simp only [pmapBase] at hk; omega
      rcases this with rfl | rfl <;> norm_num)
    (fun k _ => by norm_num) (by norm_num) (pmapBase_var 50) rfl
    (by
      intro _ i hi
      have : i = 0 ∨ i = 1 := by simp only [pmapBase, lineCfgEx, List.length_cons, List.length_nil] at hi; omega
      rcases this with rfl | rfl <;> simp [pmapBase, lineCfgEx])
  refine ⟨c, h1, fun d mem ss hd pm hpm => ?_⟩
  have := ((h2 d mem ss hd).2 pm hpm 1 0 1 (by simp [pmapBase, lineCfgEx]) (by simp [pmapBase])).2.2
  simpa using this

/-- … but with `WidthLimitUpp = 0.5` the first move of the width of the line component stops the program. -/
example : ∃ c, pmapCfg lfEx (pmapBase (1 / 2)) 2 "[1:2:5:7]".toList [] [] = .ok c ∧
    ∀ (s : ConStep c.numParams) (pm : ℕ → ℝ) (w : Fin c.numParams) (ws : List (Fin c.numParams)),
      s.cands = w :: ws → w.val = c.idxLine 0 1 + 1 + 1 * 3 + 2 → c.perturb s pm = .exit :=
  C82_width_stop lfEx (pmapBase (1 / 2)) 2 _ [] [] [1, 2, 5, 7] (fun _ => 1 / 10) (fun _ => 1 / 2) (1 / 1000) 1 le_rfl
    le_rfl (pmapBase_input (1 / 2) (by norm_num) (by norm_num)) 0 1 1 (by simp [pmapBase, lineCfgEx])
    (by simp [pmapBase]) one_pos (by norm_num)

/-- `WidthLimitLow = 0.1` does not hold for the first component. -/
example : ∃ c, pmapCfg lfEx (pmapBase 50) 2 "[1:2:5:7]".toList [] [] = .ok c ∧
    ∃ d : LineDraw, (∀ i, 0 ≤ d.u i ∧ d.u i ≤ 1) ∧ ∀ mem, ∃ pm, c.fromPrior d mem = .ok pm ∧
      Real.exp (pm (c.idxLine 0 1 + 1 + 2)) = 0.01 :=
  C82_first_width lfEx (pmapBase 50) 2 _ [] [] [1, 2, 5, 7] (fun _ => 1 / 10) (fun _ => 50) (1 / 1000) 1 le_rfl le_rfl
    (by simp [pmapBase]) (pmapBase_input 50 (by norm_num) (by norm_num)) (pmapBase_var 50) rfl 0 1
    (by simp [pmapBase, lineCfgEx]) (by norm_num)

/-- C83: one data set with one line, two top-hats; the conditions of the likelihood hold for any parameters. -/
example (pm : ℕ → ℝ) :
    let e : PmapEnv := ⟨{ pmapBase 50 with nl := [1] }, 1, .tophat, fun _ => 0⟩
    TransferOK (e.line (e.trans pm)) [exSet] ∧ (∀ d ∈ [exSet], d.line ≠ []) ∧
      [exSet].length ≤ e.c.nl.length ∧ 2 = e.c.ng := by
  intro e
  refine ⟨?_, by simp [exSet], le_rfl, rfl⟩
  intro k d hd
  have hk : k = 0 ∧ d = exSet := by
    rcases k with _ | k <;> simp at hd
    exact ⟨rfl, hd.symm⟩
  obtain ⟨rfl, rfl⟩ := hk
  refine ⟨⟨2, false, fun _ => .tophat, rfl, ?_, ?_⟩, fun i hi => ?_, fun a ha => ?_⟩
  · intro j _ k _
    exact ⟨by simp [FarC], fun _ _ _ _ => by simp [FarL]⟩
  · refine ⟨fun i _ => ?_, fun j a ha i _ => ?_⟩
    · simp only [exSet]; positivity
    · rcases j with _ | j
      · have := Option.some.inj ha
        rw [← this]; positivity
      · simp [exSet] at ha
  · simp [exSet] at hi
  · refine ⟨fun _ => ⟨0, ?_⟩, fun x y _ => Subsingleton.elim (α := Fin 1) x y⟩
    simp only [DSet.series, exSet, List.mem_cons, List.not_mem_nil, or_false] at ha
    rcases ha with rfl | rfl <;> norm_num

end Mica
