import Verif.Proof.LineInv2
import Mathlib.Tactic.FieldSimp
import Mathlib.Analysis.Complex.ExponentialBounds
import Mathlib.Tactic.NormNum
import Mathlib.Tactic.Positivity

/-!
# C39, C45, C46, C47, C62, C63, C64: parameters of the continuum-line model
-/

namespace Mica

/-- What a user can ask about: continuum parameter `t` of data set `i`; the error parameter of line
`j` of data set `i`; parameter `t` (0 amplitude, 1 lag, 2 width) of component `k` of that line. -/
inductive Slot where
  | con (i t : ℕ)
  | err (i j : ℕ)
  | comp (i j k t : ℕ)

/-- The slot exists in the configuration. -/
def Slot.Valid (c : LineCfg) : Slot → Prop
  | .con i t => i < c.nl.length ∧ t < 3
  | .err i j => j < c.nl.getD i 0
  | .comp i j k t => j < c.nl.getD i 0 ∧ k < c.ng ∧ t < 3

/-- Where the likelihoods and kernels look it up: `pm[idx_con_pm[i] + t]`, `pm[idx_line_pm[i][j]]`,
`pm[idx_line_pm[i][j] + 1 + k*3 + t]`. -/
def Slot.addr (c : LineCfg) : Slot → ℕ
  | .con i t => c.idxCon i + t
  | .err i j => c.idxLine i j
  | .comp i j k t => c.idxLine i j + 1 + k * 3 + t

/-- Two slots are the same parameter: identical, or in different data sets under the option that
makes the data sets share continuum parameters / transfer functions. -/
def Slot.Same (c : LineCfg) : Slot → Slot → Prop
  | .con i t, .con i' t' => t = t' ∧ (c.uniVar = true ∨ i = i')
  | .err i j, .err i' j' => j = j' ∧ (c.uniTf = 1 ∨ i = i')
  | .comp i j k t, .comp i' j' k' t' => j = j' ∧ k = k' ∧ t = t' ∧ (c.uniTf = 1 ∨ i = i')
  | _, _ => False

/-- **C39.** The parameter vector's layout: every slot has an index below the number of parameters,
every index is used, and two slots have the same index exactly if they are the same parameter. -/
theorem C39_layout (c : LineCfg) (h : c.nl ≠ []) :
    (∀ s : Slot, s.Valid c → s.addr c < c.numParams) ∧
    (∀ n < c.numParams, ∃ s : Slot, s.Valid c ∧ s.addr c = n) ∧
    (∀ s s' : Slot, s.Valid c → s'.Valid c → (s.addr c = s'.addr c ↔ s.Same c s')) := by
  have hcon : ∀ i t, i < c.nl.length → t < 3 → c.idxCon i + t < c.numVar := by
    intro i t hi ht
    unfold LineCfg.idxCon LineCfg.numVar
    split <;> omega
  have hnv : c.numVar ≤ c.numParams := by unfold LineCfg.numParams; omega
  have hlen : 0 < c.nl.length := List.length_pos_of_ne_nil h
  refine ⟨?_, ?_, ?_⟩
  · rintro (⟨i, t⟩ | ⟨i, j⟩ | ⟨i, j, k, t⟩) hv
    · exact lt_of_lt_of_le (hcon i t hv.1 hv.2) hnv
    · simp only [Slot.addr]
      rw [c.idxLine_eq i j hv]
      exact c.addr_lt (c.bno_lt i j hv) c.blk_pos
    · obtain ⟨hj, hk, ht⟩ := hv
      simp only [Slot.addr]
      rw [c.idxLine_eq i j hj]
      have := c.addr_lt (q := 1 + 3 * k + t) (c.bno_lt i j hj) (by unfold LineCfg.blk; omega)
      omega
  · intro n hn
    by_cases hv : c.numVar ≤ n
    · obtain ⟨b, q, hb, hq, rfl⟩ := c.addr_split hv hn
      obtain ⟨i, j, hj, rfl⟩ := c.bno_surj b hb
      rcases c.offset_cases hq with rfl | ⟨k, t, hk, ht, rfl⟩
      · exact ⟨.err i j, hj, by simp only [Slot.addr]; rw [c.idxLine_eq i j hj]; rfl⟩
      · refine ⟨.comp i j k t, ⟨hj, hk, ht⟩, ?_⟩
        simp only [Slot.addr]; rw [c.idxLine_eq i j hj]; omega
    · refine ⟨.con (n / 3) (n % 3), ?_⟩
      unfold LineCfg.numVar at hv
      simp only [Slot.Valid, Slot.addr, LineCfg.idxCon]
      by_cases hu : c.uniVar = true
      · simp only [hu, if_true] at hv ⊢; omega
      · simp only [hu] at hv ⊢; simp at hv ⊢; omega
  · have key : ∀ i j q i' j' q', j < c.nl.getD i 0 → j' < c.nl.getD i' 0 → q < c.blk → q' < c.blk →
        (c.idxLine i j + q = c.idxLine i' j' + q' ↔ j = j' ∧ q = q' ∧ (c.uniTf = 1 ∨ i = i')) := by
      intro i j q i' j' q' hj hj' hq hq'
      rw [c.idxLine_eq i j hj, c.idxLine_eq i' j' hj']
      constructor
      · intro e
        have h1 := LineCfg.block_addr_inj (B := c.blk) (b := c.bno i j) (b' := c.bno i' j')
          hq hq' (by omega)
        have h2 := c.bno_inj hj hj' h1.1
        refine ⟨h2.1, h1.2, ?_⟩
        by_cases hu : c.uniTf = 1
        · exact Or.inl hu
        · exact Or.inr (h2.2 hu)
      · rintro ⟨rfl, rfl, hu⟩
        have : c.bno i j = c.bno i' j := by
          rcases hu with hu | rfl
          · simp [LineCfg.bno, hu]
          · rfl
        rw [this]
    have hge : ∀ i j, j < c.nl.getD i 0 → c.numVar ≤ c.idxLine i j := by
      intro i j hj; rw [c.idxLine_eq i j hj]; omega
    rintro (⟨i, t⟩ | ⟨i, j⟩ | ⟨i, j, k, t⟩) (⟨i', t'⟩ | ⟨i', j'⟩ | ⟨i', j', k', t'⟩) hv hv'
    · simp only [Slot.addr, Slot.Same, LineCfg.idxCon, Slot.Valid] at *
      by_cases hu : c.uniVar = true
      · simp [hu]
      · simp [hu]; omega
    · have := hcon i t hv.1 hv.2
      have := hge i' j' hv'
      exact iff_of_false (by simp only [Slot.addr]; omega) (by simp [Slot.Same])
    · have := hcon i t hv.1 hv.2
      have := hge i' j' hv'.1
      exact iff_of_false (by simp only [Slot.addr]; omega) (by simp [Slot.Same])
    · have := hcon i' t' hv'.1 hv'.2
      have := hge i j hv
      exact iff_of_false (by simp only [Slot.addr]; omega) (by simp [Slot.Same])
    · have := key i j 0 i' j' 0 hv hv' c.blk_pos c.blk_pos
      simp only [Slot.addr, Slot.Same]
      simpa using this
    · obtain ⟨hj', hk', ht'⟩ := hv'
      have := key i j 0 i' j' (1 + k' * 3 + t') hv hj' c.blk_pos (by unfold LineCfg.blk; omega)
      refine iff_of_false (fun e => ?_) (by simp [Slot.Same])
      have := (this.1 (by simp only [Slot.addr] at e; omega)).2.1
      omega
    · have := hcon i' t' hv'.1 hv'.2
      have := hge i j hv.1
      exact iff_of_false (by simp only [Slot.addr]; omega) (by simp [Slot.Same])
    · obtain ⟨hj, hk, ht⟩ := hv
      have := key i j (1 + k * 3 + t) i' j' 0 hj hv' (by unfold LineCfg.blk; omega) c.blk_pos
      refine iff_of_false (fun e => ?_) (by simp [Slot.Same])
      have := (this.1 (by simp only [Slot.addr] at e; omega)).2.1
      omega
    · obtain ⟨hj, hk, ht⟩ := hv
      obtain ⟨hj', hk', ht'⟩ := hv'
      have := key i j (1 + k * 3 + t) i' j' (1 + k' * 3 + t') hj hj'
        (by unfold LineCfg.blk; omega) (by unfold LineCfg.blk; omega)
      simp only [Slot.addr, Slot.Same]
      constructor
      · intro e
        obtain ⟨h1, h2, h3⟩ := this.1 (by omega)
        exact ⟨h1, by omega, by omega, h3⟩
      · rintro ⟨h1, h2, h3, h4⟩
        have := this.2 ⟨h1, by omega, h4⟩
        omega

/-- **C39.** The ranges are filled in the same order: every parameter has a range, and the range of
each slot is the one its meaning calls for. -/
theorem C39_ranges (c : LineCfg) :
    c.parRanges.length = c.numParams ∧
    (∀ i j, j < c.nl.getD i 0 → c.rng (c.idxLine i j) = (Real.log 1, Real.log 11)) ∧
    (∀ i j k, j < c.nl.getD i 0 → k < c.ng →
      c.rng (c.idxLine i j + 1 + k * 3) = c.ampWindow k ∧
      c.rng (c.idxLine i j + 1 + k * 3 + 1) = c.lagWindow k ∧
      c.rng (c.idxLine i j + 1 + k * 3 + 2) = c.widthWindow k) := by
  refine ⟨c.parRanges_length, fun i j hj => ?_, fun i j k hj hk => ?_⟩
  · rw [c.idxLine_eq i j hj, c.rng_err _ (c.bno_lt i j hj)]
    norm_num
  · rw [c.idxLine_eq i j hj]
    have hb := c.bno_lt i j hj
    refine ⟨?_, ?_, ?_⟩
    · rw [← c.rng_amp _ k hb hk]; congr 1; omega
    · rw [← c.rng_lag _ k hb hk]; congr 1; omega
    · rw [← c.rng_width _ k hb hk]; congr 1; omega

/-- **C39.** The ranges themselves, in terms of the options: the continuum parameters of data set `i`
are confined to five standard deviations about the values found before, cut to
`(0, log 11)`, `(log 1e-4, log 10)` and `(0, log 2π·tspan)`; amplitudes are logarithmic from `1e-5`
to 10 unless negative responses are allowed (then from -10 to 10), but ratios to the first amplitude, in
the range given, for the further components in photometric mode; lags have the range given for the
component, or the whole lag range (ordered), or the component's share of it; widths have the range
given for the component, or half to one node distance (fixed equally spaced lags), or the general
width range. -/
theorem C39_range_values (c : LineCfg) :
    (∀ i < c.nl.length, let a := if c.uniVar then 0 else 3 * i
      c.rng a = (max (c.varPar a - 5 * c.varStd a) 0,
        min (c.varPar a + 5 * c.varStd a) (Real.log 11)) ∧
      c.rng (a + 1) = (max (c.varPar (a + 1) - 5 * c.varStd (a + 1)) (Real.log (1 / 10 ^ 4)),
        min (c.varPar (a + 1) + 5 * c.varStd (a + 1)) (Real.log 10)) ∧
      c.rng (a + 2) = (max (c.varPar (a + 2) - 5 * c.varStd (a + 2)) 0,
        min (c.varPar (a + 2) + 5 * c.varStd (a + 2)) (Real.log (2 * Real.pi * c.tspan)))) ∧
    (∀ i j k, j < c.nl.getD i 0 → k < c.ng →
      let lo := max c.lagLow (-c.tspan / 2)
      let hi := min c.lagUpp (c.tspan / 2)
      let amp := c.rng (c.idxLine i j + 1 + k * 3)
      let lag := c.rng (c.idxLine i j + 1 + k * 3 + 1)
      let width := c.rng (c.idxLine i j + 1 + k * 3 + 2)
      (c.ratioPrior = none ∨ k = 0 → c.negResp = true → amp = (-10, 10)) ∧
      (c.ratioPrior = none ∨ k = 0 → c.negResp = false → amp = (Real.log (1 / 10 ^ 5), Real.log 10)) ∧
      (∀ r, c.ratioPrior = some r → 0 < k → amp = (r (2 * (k - 1)), r (2 * (k - 1) + 1))) ∧
      (c.typeLag = 4 → lag = (c.lagPrior (2 * k), c.lagPrior (2 * k + 1))) ∧
      (c.typeLag = 0 → lag = (lo, hi)) ∧
      (0 < c.typeLag → c.typeLag < 4 →
        lag = (lo + k * ((hi - lo) / c.ng), lo + (k + 1) * ((hi - lo) / c.ng))) ∧
      (∀ w, c.widthPrior = some w → width = (w (2 * k), w (2 * k + 1))) ∧
      (c.widthPrior = none → c.typeLag = 3 → 1 < c.ng →
        width = (Real.log ((hi - lo) / (c.ng - 1) / 2), Real.log ((hi - lo) / (c.ng - 1)))) ∧
      (c.widthPrior = none → ¬ (c.typeLag = 3 ∧ 1 < c.ng) →
        width.1 = (match c.widthLow with
          | some w => Real.log w
          | none => Real.log (c.tcad / 10)) ∧
        width.2 = (match c.widthUpp with
          | some w => min (Real.log w) (Real.log (c.tspan / 3))
          | none => Real.log (c.tspan / 3)))) := by
  refine ⟨fun i hi => ?_, fun i j k hj hk => ?_⟩
  · have key : ∀ t q, q < 3 → 3 * t + q < c.numVar →
        c.rng (3 * t + q) = c.varParRange (3 * t) q := c.rng_var
    have hb : ∃ t, (if c.uniVar then 0 else 3 * i) = 3 * t ∧ 3 * t + 2 < c.numVar := by
      unfold LineCfg.numVar
      split
      · exact ⟨0, rfl, by omega⟩
      · exact ⟨i, rfl, by omega⟩
    obtain ⟨t, ht, hlt⟩ := hb
    intro a
    have ha : a = 3 * t := ht
    rw [ha]
    have h0 := key t 0 (by omega) (by omega)
    have h1 := key t 1 (by omega) (by omega)
    have h2 := key t 2 (by omega) (by omega)
    rw [Nat.add_zero] at h0
    rw [h0, h1, h2]
    simp only [LineCfg.varParRange, LineCfg.varRange, Real.log_one, Nat.add_zero]
    refine ⟨?_, trivial, ?_⟩
    · norm_num
    · rw [show c.tspan * 2 * Real.pi = 2 * Real.pi * c.tspan by ring]
  · obtain ⟨ha, hl, hw⟩ := (C39_ranges c).2.2 i j k hj hk
    intro lo hi amp lag width
    have ha' : amp = c.ampWindow k := ha
    have haw : c.ratioPrior = none ∨ k = 0 → c.ampWindow k = c.ampRange := by
      unfold LineCfg.ampWindow
      rintro (h | h)
      · rw [h]
      · split <;> simp [h]
    have hl' : lag = c.lagWindow k := hl
    have hw' : width = c.widthWindow k := hw
    have hng : 0 < c.ng := by omega
    have hord : c.ordered = true ↔ c.typeLag = 0 ∧ 1 < c.ng := by simp [LineCfg.ordered]
    refine ⟨fun h0 h => ?_, fun h0 h => ?_, fun r h hk => ?_, fun h => ?_, fun h => ?_,
      fun h h4 => ?_, fun w h => ?_, fun h h3 hn => ?_, fun h h3 => ?_⟩
    · rw [ha', haw h0, LineCfg.ampRange, if_pos h]
    · rw [ha', haw h0, LineCfg.ampRange, if_neg (by simp [h])]
    · rw [ha', LineCfg.ampWindow, h]
      simp only [if_neg hk.ne', Nat.mul_comm]
    · rw [hl', LineCfg.lagWindow, if_pos h, Nat.mul_comm]
    · rw [hl', LineCfg.lagWindow, if_neg (by omega)]
      by_cases hn : 1 < c.ng
      · rw [if_pos (hord.2 ⟨h, hn⟩)]; rfl
      · have h1 : c.ng = 1 := by omega
        have hk0 : k = 0 := by omega
        rw [if_neg (fun h' => hn (hord.1 h').2), h1, hk0]
        simp [LineCfg.lagRange, lo, hi]
    · rw [hl', LineCfg.lagWindow, if_neg (by omega), if_neg (fun h' => by
        have := (hord.1 h').1; omega)]
      simp only [LineCfg.lagRange, lo, hi]
      rw [mul_div_assoc, mul_div_assoc]
    · rw [hw', LineCfg.widthWindow, h]
      simp only [Nat.mul_comm]
    · rw [hw', LineCfg.widthWindow, h]
      simp only [h3, hn, and_self, if_true, LineCfg.lagRange, lo, hi]
    · rw [hw', LineCfg.widthWindow, h]
      simp only [h3, if_false, LineCfg.widthRange]
      exact ⟨rfl, rfl⟩

/-- **C39.** The role and component number the moves compute for an index are those of its slot; the
data set computed for the seasonal-gap penalty is the slot's (when transfer functions are not
shared and every data set has a line). -/
theorem C39_roles (c : LineCfg) (i j k t : ℕ) (hj : j < c.nl.getD i 0) (hk : k < c.ng)
    (ht : t < 3) :
    c.roleOf (c.idxLine i j + 1 + k * 3 + t) = t ∧
    c.compOf (c.idxLine i j + 1 + k * 3 + t) = k ∧
    (c.uniTf ≠ 1 → (∀ i < c.nl.length, 0 < c.nl.getD i 0) →
      c.getIdxSet (c.idxLine i j + 1 + k * 3 + t) = .ok i) := by
  have haddr : c.idxLine i j + 1 + k * 3 + t = c.blk * c.bno i j + c.numVar + (1 + 3 * k + t) := by
    rw [c.idxLine_eq i j hj]; omega
  have hr := c.role_comp (c.bno i j) k t hk ht
  rw [haddr]
  refine ⟨hr.1, hr.2, fun hu hl => ?_⟩
  obtain ⟨i', h1, h2, h3, h4⟩ := c.getIdxSetLoop_ok
    (c.blk * c.bno i j + c.numVar + (1 + 3 * k + t)) c.nl.length le_rfl hl
  have hi := LineCfg.lt_of_getD_lt hj
  have hi' := h3 (by omega)
  suffices i' = i by rw [LineCfg.getIdxSet, h1, this]
  have hb : ∀ a, a < c.nl.length → (c.idxLine a 0 ≤ c.blk * c.bno i j + c.numVar + (1 + 3 * k + t)
      ↔ a ≤ i) := by
    intro a ha
    rw [c.idxLine_eq a 0 (hl a ha)]
    constructor
    · intro hle
      by_contra hlt
      have hm := LineCfg.take_sum_mono c.nl (i := i) (i' := a) (by omega)
      have : c.bno i j + 1 ≤ c.bno a 0 := by simp only [LineCfg.bno, hu, if_false]; omega
      have := Nat.mul_le_mul_left c.blk this
      rw [Nat.mul_add] at this
      have : 1 + 3 * k + t < c.blk := by unfold LineCfg.blk; omega
      omega
    · intro hle
      have : c.bno a 0 ≤ c.bno i j := by
        simp only [LineCfg.bno, hu, if_false]
        rcases Nat.lt_or_eq_of_le hle with h | rfl
        · have := LineCfg.take_sum_mono c.nl (i := a) (i' := i) h; omega
        · omega
      have := Nat.mul_le_mul_left c.blk this
      omega
  rcases lt_trichotomy i' i with h | h | h
  · have := h4 i h hi
    have := (hb i hi).2 le_rfl
    omega
  · exact h
  · rcases h2 with rfl | h2
    · omega
    · have := (hb i' hi').1 h2; omega

/-! ## The invariants -/

/-- **C62** (partial: the positive-lag option is off, and with shared lags the first data set has
the most lines).  From a draw of the prior and after any number of moves, every free parameter of
the line model is inside its prior range and every fixed one has its fixed value; the moves neither
stop the program nor run into undefined behaviour. -/
theorem C62_line_moves_partial (c : LineCfg) (d : LineDraw) (mem : ℕ → ℝ)
    (ss : List (ConStep c.numParams × Bool))
    (hd : ∀ i, 0 ≤ d.u i ∧ d.u i ≤ 1)
    (hr : ∀ i < c.numParams, (c.rng i).1 ≤ (c.rng i).2)
    (hs : c.uniTf = 2 → ∀ i, c.nl.getD i 0 ≤ c.nl.getD 0 0) (hp : c.posivity = false)
    (hg : c.gap = true → ∀ i < c.nl.length, 0 < c.nl.getD i 0) :
    (c.chain d mem ss = .hang ∨ ∃ pm, c.chain d mem ss = .ok pm) ∧
    (∀ pm, c.chain d mem ss = .ok pm → ∀ i < c.numParams,
      (c.fix i = none → (c.rng i).1 ≤ pm i ∧ pm i ≤ (c.rng i).2) ∧
      (∀ v, c.uniTf ≠ 2 → c.fix i = some v → pm i = v)) := by
  refine ⟨c.chain_total d mem ss hd hr hs hp hg, fun pm h i hi => ?_⟩
  have hinv := c.chain_inv d mem ss hd hr hs hp h
  exact ⟨hinv.range i hi, fun v hu hv => hinv.fixed i v hi hv fun h => absurd h hu⟩

/-- **C63** (partial: the first data set must have at least as many lines as every other).  With
`FlagUniformTranFuns = 2` every line of every data set has, initially and after any number of moves,
the lags and widths of the same line of the first data set. -/
theorem C63_shared_partial (c : LineCfg) (d : LineDraw) (mem : ℕ → ℝ)
    (ss : List (ConStep c.numParams × Bool)) (hu : c.uniTf = 2)
    (hd : ∀ i, 0 ≤ d.u i ∧ d.u i ≤ 1)
    (hr : ∀ i < c.numParams, (c.rng i).1 ≤ (c.rng i).2)
    (hs : ∀ i, c.nl.getD i 0 ≤ c.nl.getD 0 0) (hp : c.posivity = false)
    (pm : ℕ → ℝ) (h : c.chain d mem ss = .ok pm) (i j k : ℕ) (hj : j < c.nl.getD i 0)
    (hk : k < c.ng) :
    pm (c.idxLine i j + 1 + k * 3 + 1) = pm (c.idxLine 0 j + 1 + k * 3 + 1) ∧
    pm (c.idxLine i j + 1 + k * 3 + 2) = pm (c.idxLine 0 j + 1 + k * 3 + 2) := by
  have hinv := c.chain_inv d mem ss hd hr (fun _ => hs) hp h
  rcases Nat.eq_zero_or_pos i with rfl | hi
  · exact ⟨rfl, rfl⟩
  · constructor
    · have := hinv.copy hu (c.idxLine i j + (1 + 3 * k + 1), c.idxLine 0 j + (1 + 3 * k + 1))
        (c.mem_shared.2 ⟨i, j, k, 1, hi, hj, hk, Or.inl rfl, rfl, rfl⟩)
      simp only at this
      rw [show c.idxLine i j + 1 + k * 3 + 1 = c.idxLine i j + (1 + 3 * k + 1) by omega,
        show c.idxLine 0 j + 1 + k * 3 + 1 = c.idxLine 0 j + (1 + 3 * k + 1) by omega]
      exact this
    · have := hinv.copy hu (c.idxLine i j + (1 + 3 * k + 2), c.idxLine 0 j + (1 + 3 * k + 2))
        (c.mem_shared.2 ⟨i, j, k, 2, hi, hj, hk, Or.inr rfl, rfl, rfl⟩)
      simp only at this
      rw [show c.idxLine i j + 1 + k * 3 + 2 = c.idxLine i j + (1 + 3 * k + 2) by omega,
        show c.idxLine 0 j + 1 + k * 3 + 2 = c.idxLine 0 j + (1 + 3 * k + 2) by omega]
      exact this

/-- **C63, the rest is false.**  If a later data set has more lines than the first, the copying
reads cells of `idx_line_pm[0]` that were never written. -/
theorem C63_more_lines (c : LineCfg) (d : LineDraw) (mem : ℕ → ℝ) (hu : c.uniTf = 2)
    (hr : ∀ i < c.numParams, (c.rng i).1 ≤ (c.rng i).2)
    (i : ℕ) (hi : c.nl.getD 0 0 < c.nl.getD i 0) :
    c.fromPrior d mem = .ub := by
  obtain ⟨p, h, -⟩ := c.drawVar_ok d mem c.numVar fun i hi => hr i (by
    unfold LineCfg.numParams; omega)
  unfold LineCfg.fromPrior
  rw [h, Res.ok_bind]
  refine c.share_ub _ fun hs => ?_
  have := hs hu i
  omega

/-- **C46** (partial: the positive-lag option is off).  With the ordered lag prior the lags of every
line are in increasing order and inside the lag range, initially and after any number of moves. -/
theorem C46_order_partial (c : LineCfg) (d : LineDraw) (mem : ℕ → ℝ)
    (ss : List (ConStep c.numParams × Bool)) (ht : c.typeLag = 0) (hng : 1 < c.ng)
    (hd : ∀ i, 0 ≤ d.u i ∧ d.u i ≤ 1)
    (hr : ∀ i < c.numParams, (c.rng i).1 ≤ (c.rng i).2)
    (hs : c.uniTf = 2 → ∀ i, c.nl.getD i 0 ≤ c.nl.getD 0 0) (hp : c.posivity = false)
    (pm : ℕ → ℝ) (h : c.chain d mem ss = .ok pm) (i j : ℕ) (hj : j < c.nl.getD i 0) :
    (∀ k < c.ng, max c.lagLow (-c.tspan / 2) ≤ pm (c.idxLine i j + 1 + k * 3 + 1) ∧
      pm (c.idxLine i j + 1 + k * 3 + 1) ≤ min c.lagUpp (c.tspan / 2)) ∧
    ∀ k k', k ≤ k' → k' < c.ng →
      pm (c.idxLine i j + 1 + k * 3 + 1) ≤ pm (c.idxLine i j + 1 + k' * 3 + 1) := by
  have hinv := c.chain_inv d mem ss hd hr hs hp h
  have ho : c.ordered = true := by simp [LineCfg.ordered, ht, hng]
  obtain ⟨g1, g2⟩ := hinv.order ho (c.bno i j) (c.bno_lt i j hj)
  have haddr : ∀ k, c.idxLine i j + 1 + k * 3 + 1 = c.cen (c.bno i j) k := by
    intro k; rw [c.idxLine_eq i j hj]; unfold LineCfg.cen; omega
  simp only [haddr]
  refine ⟨g1, fun k k' hkk hk' => ?_⟩
  induction k', hkk using Nat.le_induction with
  | base => exact le_rfl
  | succ n hn ih => exact le_trans (ih (by omega)) (g2 n hk')

/-- **C45.** The lag windows of the equal-division priors: adjacent, of equal width, together exactly
the lag range (the configured one cut to half the time span on both sides). -/
theorem C45_windows (c : LineCfg) (ht : c.typeLag ≠ 4) (ho : c.typeLag = 0 → c.ng = 1)
    (hng : 0 < c.ng) (i j : ℕ) (hj : j < c.nl.getD i 0) :
    let lo := fun k => (c.rng (c.idxLine i j + 1 + k * 3 + 1)).1
    let hi := fun k => (c.rng (c.idxLine i j + 1 + k * 3 + 1)).2
    lo 0 = max c.lagLow (-c.tspan / 2) ∧ hi (c.ng - 1) = min c.lagUpp (c.tspan / 2) ∧
    (∀ k, k + 1 < c.ng → hi k = lo (k + 1)) ∧
    (∀ k < c.ng, hi k - lo k =
      (min c.lagUpp (c.tspan / 2) - max c.lagLow (-c.tspan / 2)) / c.ng) := by
  have hord : c.ordered = false := by
    simp only [LineCfg.ordered, decide_eq_false_iff_not, not_and]
    intro h; have := ho h; omega
  have hw : ∀ k < c.ng, c.rng (c.idxLine i j + 1 + k * 3 + 1) =
      (c.lagRange.1 + k * (c.lagRange.2 - c.lagRange.1) / c.ng,
        c.lagRange.1 + (k + 1) * (c.lagRange.2 - c.lagRange.1) / c.ng) := by
    intro k hk
    rw [((C39_ranges c).2.2 i j k hj hk).2.1]
    simp [LineCfg.lagWindow, ht, hord]
  have hn : (c.ng : ℝ) ≠ 0 := by exact_mod_cast hng.ne'
  refine ⟨?_, ?_, fun k hk => ?_, fun k hk => ?_⟩
  · simp only
    rw [hw 0 hng]
    simp [LineCfg.lagRange]
  · simp only
    rw [hw _ (by omega)]
    simp only
    rw [Nat.cast_sub (by omega)]
    have : ((c.ng : ℝ) - (1 : ℕ) + 1) * (c.lagRange.2 - c.lagRange.1) / c.ng =
        c.lagRange.2 - c.lagRange.1 := by
      push_cast; field_simp; ring
    rw [this]
    simp [LineCfg.lagRange]
  · simp only
    rw [hw k (by omega), hw (k + 1) hk]
    push_cast; ring
  · simp only
    rw [hw k hk]
    have : ∀ a b : ℝ, a + (k + 1) * b / c.ng - (a + k * b / c.ng) = b / c.ng := by
      intro a b; field_simp; ring
    rw [this]
    simp [LineCfg.lagRange]

/-- **C45** (partial: the positive-lag option is off, and the configured lag range lies within half
the time span).  Under the equal-division priors (types 1, 2, 3) the lag of component `k` of every
line is in the `k`-th of `ng` equal windows of the configured range, initially and after any number
of moves. -/
theorem C45_stay_partial (c : LineCfg) (d : LineDraw) (mem : ℕ → ℝ)
    (ss : List (ConStep c.numParams × Bool)) (ht : 1 ≤ c.typeLag ∧ c.typeLag ≤ 3)
    (hng : 2 ≤ c.ng) (hlag : c.lagLow ≤ c.lagUpp)
    (hspan : -c.tspan / 2 ≤ c.lagLow ∧ c.lagUpp ≤ c.tspan / 2)
    (hd : ∀ i, 0 ≤ d.u i ∧ d.u i ≤ 1)
    (hr : ∀ i < c.numParams, (c.rng i).1 ≤ (c.rng i).2)
    (hs : c.uniTf = 2 → ∀ i, c.nl.getD i 0 ≤ c.nl.getD 0 0) (hp : c.posivity = false)
    (pm : ℕ → ℝ) (h : c.chain d mem ss = .ok pm) (i j k : ℕ) (hj : j < c.nl.getD i 0)
    (hk : k < c.ng) :
    c.lagLow + k * ((c.lagUpp - c.lagLow) / c.ng) ≤ pm (c.idxLine i j + 1 + k * 3 + 1) ∧
    pm (c.idxLine i j + 1 + k * 3 + 1) ≤ c.lagLow + (k + 1) * ((c.lagUpp - c.lagLow) / c.ng) := by
  have hinv := c.chain_inv d mem ss hd hr hs hp h
  have hlr : c.lagRange = (c.lagLow, c.lagUpp) := by
    simp [LineCfg.lagRange, max_eq_left hspan.1, min_eq_left hspan.2]
  have hord : c.ordered = false := by
    simp only [LineCfg.ordered, decide_eq_false_iff_not, not_and]; omega
  have hwin : c.lagWindow k = (c.lagLow + k * ((c.lagUpp - c.lagLow) / c.ng),
      c.lagLow + (k + 1) * ((c.lagUpp - c.lagLow) / c.ng)) := by
    have : c.typeLag ≠ 4 := by omega
    simp [LineCfg.lagWindow, this, hord, hlr, mul_div_assoc]
  -- a line that is not a copy
  have hown : ∀ i j, j < c.nl.getD i 0 →
      (c.uniTf = 2 → ∀ p ∈ c.shared, p.1 ≠ c.idxLine i j + 1 + k * 3 + 1) →
      (c.lagWindow k).1 ≤ pm (c.idxLine i j + 1 + k * 3 + 1) ∧
      pm (c.idxLine i j + 1 + k * 3 + 1) ≤ (c.lagWindow k).2 := by
    intro i j hj hns
    have hlt : c.idxLine i j + 1 + k * 3 + 1 < c.numParams := by
      rw [c.idxLine_eq i j hj]
      have := c.addr_lt (q := 1 + 3 * k + 1) (c.bno_lt i j hj) (by unfold LineCfg.blk; omega)
      omega
    have hrg := ((C39_ranges c).2.2 i j k hj hk).2.1
    have hcen : c.idxLine i j + 1 + k * 3 + 1 = c.cen (c.bno i j) k := by
      rw [c.idxLine_eq i j hj]; unfold LineCfg.cen; omega
    rcases hf : c.fix (c.idxLine i j + 1 + k * 3 + 1) with _ | v
    · have := hinv.range _ hlt hf
      rwa [hrg] at this
    · rw [hinv.fixed _ v hlt hf hns]
      have hn : (0 : ℝ) < c.ng := by exact_mod_cast (by omega : 0 < c.ng)
      have hn1 : (0 : ℝ) < (c.ng : ℝ) - 1 := by
        have : (2 : ℝ) ≤ c.ng := by exact_mod_cast hng
        linarith
      have hkr : (k : ℝ) ≤ (c.ng : ℝ) - 1 := by
        have : ((k + 1 : ℕ) : ℝ) ≤ c.ng := by exact_mod_cast hk
        push_cast at this; linarith
      have hk0 : (0 : ℝ) ≤ k := by positivity
      have hw : 0 ≤ c.lagUpp - c.lagLow := by linarith
      rcases c.fix_cases hf with ⟨_, _, t, _, h2⟩ | ⟨_, _, b', _, h1⟩ | ⟨_, _, b', _, k', hk', h1, h2⟩ |
        ⟨_, _, _, b', _, k', hk', h1⟩ | ⟨hu, _, s, hsh⟩
      · rw [c.idxLine_eq i j hj] at h2; omega
      · rw [hcen] at h1; unfold LineCfg.cen at h1
        have := LineCfg.block_addr_inj (B := c.blk) (b := c.bno i j) (b' := b')
          (q := 1 + 3 * k + 1) (q' := 0) (by unfold LineCfg.blk; omega) c.blk_pos (by omega)
        omega
      · rw [hcen] at h1
        obtain ⟨_, rfl⟩ := c.cen_inj hk hk' h1
        rw [h2, hwin]
        simp only [LineCfg.dlag]
        have e1 : ∀ a : ℝ, 0 ≤ a → a * ((c.lagUpp - c.lagLow) / c.ng) =
            (a / c.ng) * (c.lagUpp - c.lagLow) := by intro a _; ring
        have e2 : (k : ℝ) * ((c.lagUpp - c.lagLow) / ((c.ng : ℝ) - 1)) =
            (k / ((c.ng : ℝ) - 1)) * (c.lagUpp - c.lagLow) := by ring
        rw [e2, e1 k hk0, e1 (k + 1) (by linarith)]
        have i1 : (k : ℝ) / c.ng ≤ k / ((c.ng : ℝ) - 1) :=
          div_le_div_of_nonneg_left hk0 hn1 (by linarith)
        have i2 : (k : ℝ) / ((c.ng : ℝ) - 1) ≤ (k + 1) / c.ng := by
          rw [div_le_div_iff₀ hn1 hn]; nlinarith
        have j1 := mul_le_mul_of_nonneg_right i1 hw
        have j2 := mul_le_mul_of_nonneg_right i2 hw
        constructor <;> linarith
      · rw [hcen] at h1; unfold LineCfg.cen at h1
        have := LineCfg.block_addr_inj (B := c.blk) (b := c.bno i j) (b' := b')
          (q := 1 + 3 * k + 1) (q' := 1 + 3 * k' + 2) (by unfold LineCfg.blk; omega)
          (by unfold LineCfg.blk; omega) (by omega)
        omega
      · exact absurd rfl (hns hu _ hsh)
  have hmain : (c.lagWindow k).1 ≤ pm (c.idxLine i j + 1 + k * 3 + 1) ∧
      pm (c.idxLine i j + 1 + k * 3 + 1) ≤ (c.lagWindow k).2 := by
    by_cases hu : c.uniTf = 2
    · have hj0 : j < c.nl.getD 0 0 := lt_of_lt_of_le hj (hs hu i)
      rw [(C63_shared_partial c d mem ss hu hd hr (hs hu) hp pm h i j k hj hk).1]
      refine hown 0 j hj0 fun _ p hp' e => ?_
      have hm : (c.idxLine 0 j + 1 + k * 3 + 1, p.2) ∈ c.shared := by rw [← e]; exact hp'
      obtain ⟨i', j', k', t', hi', hj', hj0', hk', ht', h1', h2'⟩ := c.shared_spec hu hs hm
      rw [c.idxLine_eq 0 j hj0] at h1'
      have := LineCfg.block_addr_inj (B := c.blk) (b := c.bno 0 j) (b' := c.bno i' j')
        (q := 1 + 3 * k + 1) (q' := 1 + 3 * k' + t') (by unfold LineCfg.blk; omega)
        (by unfold LineCfg.blk; omega) (by omega)
      have := (c.bno_inj hj0 hj' this.1).2 (by omega)
      omega
    · exact hown i j hj fun h => absurd h hu
  rwa [hwin] at hmain

/-! ## The positive-lag option -/

/-- **C47** (partial: moves only, and a penalty instead of a constraint).  With the positive-lag
option a move of a lag or a width is charged `-100` exactly if afterwards
`lag - factor * width < 0` for the component it belongs to; no other move is charged. -/
theorem C47_penalty_partial (c : LineCfg) (q : ℕ → ℝ) (i j k t : ℕ) (hj : j < c.nl.getD i 0)
    (hk : k < c.ng) (ht : t < 3) :
    let lag := q (c.idxLine i j + 1 + k * 3 + 1)
    let width := Real.exp (q (c.idxLine i j + 1 + k * 3 + 2))
    let factor : ℝ := if c.typeTf = 0 then 3 else if c.typeTf = 1 then 1 else 0
    (1 ≤ t ∧ lag - factor * width < 0 →
      c.checkPositivity q (c.idxLine i j + 1 + k * 3 + t) = -100) ∧
    (¬ (1 ≤ t ∧ lag - factor * width < 0) →
      c.checkPositivity q (c.idxLine i j + 1 + k * 3 + t) = 0) ∧
    c.checkPositivity q (c.idxLine i j) = 0 := by
  intro lag width factor
  have hrole := (C39_roles c i j k t hj hk ht).1
  have hwf : c.widthFactor = factor := by
    simp only [factor, LineCfg.widthFactor]
    rcases c.typeTf with _ | _ | n <;> simp
  have herr : c.roleOf (c.idxLine i j) = -1 := by
    rw [c.idxLine_eq i j hj]; exact c.role_err _
  have h3 : c.checkPositivity q (c.idxLine i j) = 0 := by
    simp [LineCfg.checkPositivity, herr]
  refine ⟨fun ⟨h1, h2⟩ => ?_, fun h => ?_, h3⟩
  · unfold LineCfg.checkPositivity
    rw [hrole, hwf]
    have : t = 1 ∨ t = 2 := by omega
    rcases this with rfl | rfl
    · rw [if_pos ⟨rfl, h2⟩]
    · rw [if_neg (by simp), if_pos ⟨rfl, h2⟩]
  · unfold LineCfg.checkPositivity
    rw [hrole, hwf]
    have : t = 0 ∨ t = 1 ∨ t = 2 := by omega
    rcases this with rfl | rfl | rfl
    · simp
    · rw [if_neg (fun h' => h ⟨le_rfl, h'.2⟩), if_neg (by simp)]
    · rw [if_neg (by simp), if_neg (fun h' => h ⟨by omega, h'.2⟩)]

/-- A configuration with prior ranges wide enough for all prior types; used in the examples. -/
noncomputable def lineCfgEx (ty uni : ℕ) (nl : List ℕ) (pos : Bool) : LineCfg where
  uniVar := false
  uniTf := uni
  nl := nl
  ng := 3
  typeLag := ty
  typeTf := 0
  lagLow := 0
  lagUpp := 30
  tspan := 300
  tcad := 1
  widthLow := none
  widthUpp := none
  negResp := false
  lagPrior := fun i => i
  widthPrior := none
  varPar := fun _ => 1
  varStd := fun _ => 1
  conSys := false
  lineSys := true
  posivity := pos
  gap := true
  gapCenter := fun _ => 100
  gapWidth := fun _ => 20

theorem LineCfg.rangesOk_of (c : LineCfg)
    (hv : ∀ t q, q < 3 → (c.varParRange (3 * t) q).1 ≤ (c.varParRange (3 * t) q).2)
    (ha : ∀ k, (c.ampWindow k).1 ≤ (c.ampWindow k).2) (hl : ∀ k, (c.lagWindow k).1 ≤ (c.lagWindow k).2)
    (hw : ∀ k, (c.widthWindow k).1 ≤ (c.widthWindow k).2) (i : ℕ) (hi : i < c.numParams) :
    (c.rng i).1 ≤ (c.rng i).2 := by
  by_cases h : c.numVar ≤ i
  · obtain ⟨b, q, hb, hq, rfl⟩ := c.addr_split h hi
    rcases c.offset_cases hq with rfl | ⟨k, t, hk, ht, rfl⟩
    · rw [Nat.add_zero, c.rng_err b hb]
      exact Real.log_le_log (by norm_num) (by norm_num)
    · rw [c.rng_comp b k t hb hk ht]
      have : t = 0 ∨ t = 1 ∨ t = 2 := by omega
      rcases this with rfl | rfl | rfl
      · exact ha k
      · exact hl k
      · exact hw k
  · have := c.rng_var (i / 3) (i % 3) (Nat.mod_lt _ (by norm_num)) (by omega)
    rw [show 3 * (i / 3) + i % 3 = i by omega] at this
    rw [this]
    exact hv _ _ (Nat.mod_lt _ (by norm_num))

theorem lineCfgEx_ranges (ty uni : ℕ) (nl : List ℕ) (pos : Bool) :
    ∀ i < (lineCfgEx ty uni nl pos).numParams,
      ((lineCfgEx ty uni nl pos).rng i).1 ≤ ((lineCfgEx ty uni nl pos).rng i).2 := by
  have hl10 : (0 : ℝ) ≤ Real.log 10 := Real.log_nonneg (by norm_num)
  have hl11 : (0 : ℝ) ≤ Real.log (1 + 10) := Real.log_nonneg (by norm_num)
  have hl4 : Real.log (1 / 10 ^ 4) ≤ 0 := Real.log_nonpos (by norm_num) (by norm_num)
  have hpi : (0 : ℝ) ≤ Real.log (300 * 2 * Real.pi) :=
    Real.log_nonneg (by linarith [Real.two_le_pi])
  refine LineCfg.rangesOk_of _ (fun t q hq => ?_) (fun k => ?_) (fun k => ?_) (fun k => ?_)
  · have : q = 0 ∨ q = 1 ∨ q = 2 := by omega
    rcases this with rfl | rfl | rfl
    · simp only [LineCfg.varParRange, LineCfg.varRange, lineCfgEx, Real.log_one]
      rw [max_eq_right (by norm_num)]
      exact le_min (by norm_num) hl11
    · simp only [LineCfg.varParRange, LineCfg.varRange, lineCfgEx]
      refine max_le (le_min (by norm_num) (by linarith)) (le_min (by linarith) (by linarith))
    · simp only [LineCfg.varParRange, LineCfg.varRange, lineCfgEx, Real.log_one]
      rw [max_eq_right (by norm_num)]
      exact le_min (by norm_num) hpi
  · simp only [LineCfg.ampWindow, LineCfg.ampRange, lineCfgEx]
    exact Real.log_le_log (by norm_num) (by norm_num)
  · have hlr : (lineCfgEx ty uni nl pos).lagRange = (0, 30) := by
      simp only [LineCfg.lagRange, lineCfgEx]; norm_num
    unfold LineCfg.lagWindow
    rw [hlr]
    split
    · simp only [lineCfgEx]; push_cast; linarith
    · split
      · norm_num
      · simp only [lineCfgEx]
        push_cast; ring_nf; linarith
  · have hlr : (lineCfgEx ty uni nl pos).lagRange = (0, 30) := by
      simp only [LineCfg.lagRange, lineCfgEx]; norm_num
    unfold LineCfg.widthWindow
    rw [hlr]
    have hwp : (lineCfgEx ty uni nl pos).widthPrior = none := rfl
    have hng : (lineCfgEx ty uni nl pos).ng = 3 := rfl
    rw [hwp, hng]
    simp only
    split
    · exact Real.log_le_log (by norm_num) (by norm_num)
    · simp only [LineCfg.widthRange, lineCfgEx]
      exact Real.log_le_log (by norm_num) (by norm_num)

/-- The random numbers of the counterexamples: all zero, except the first redraw. -/
noncomputable def lineDrawEx (a b : ℝ) : LineDraw where
  z := fun _ => 0
  u := fun _ => 0
  v := fun _ _ => (a, b)

/-- What the initial draw of `lineCfgEx` with the positive-lag option does to the first lag. -/
theorem lineDrawEx_lag (a b : ℝ) :
    ∃ pm, (lineCfgEx 0 0 [1] true).fromPrior (lineDrawEx a b) (fun _ => 0) = .ok pm ∧
      pm 5 = ((lineCfgEx 0 0 [1] true).posLoop 5 (fun _ => (a, b)) 101
        (Real.log (1 / 10 ^ 5), 0)).2 ∧ pm 8 = 0 := by
  generalize hc : lineCfgEx 0 0 [1] true = c
  have hnv : c.numVar = 3 := by rw [← hc]; rfl
  have hnb : c.nblocks = 1 := by rw [← hc]; simp [LineCfg.nblocks, lineCfgEx]
  have hng : c.ng = 3 := by rw [← hc]; rfl
  have hblk : c.blk = 10 := by rw [LineCfg.blk, hng]
  have hnp : c.numParams = 13 := by
    rw [LineCfg.numParams, LineCfg.numLine_eq, hnv, hblk, hnb]
  have hlr : c.lagRange = (0, 30) := by
    rw [← hc]; simp only [LineCfg.lagRange, lineCfgEx]; norm_num
  have hord : c.ordered = true := by rw [← hc]; simp [LineCfg.ordered, lineCfgEx]
  have hpos : c.posivity = true := by rw [← hc]; rfl
  have hr : ∀ i < c.numParams, (c.rng i).1 ≤ (c.rng i).2 := by
    rw [← hc]; exact lineCfgEx_ranges 0 0 [1] true
  have hs : c.SharedOk := by
    intro hu; rw [← hc] at hu; simp [lineCfgEx] at hu
  have hfix : ∀ k < 3, c.fix (c.cen 0 k) = none := by
    intro k hk
    by_contra hne
    obtain ⟨hu, -⟩ := c.fix_cen_ordered hord (by omega) hne
    rw [← hc] at hu; simp [lineCfgEx] at hu
  have hcen : ∀ k, c.cen 0 k = 3 + (1 + 3 * k + 1) := by
    intro k; simp only [LineCfg.cen, hnv]; omega
  obtain ⟨p0, h0, -⟩ := c.drawVar_ok (lineDrawEx a b) (fun _ => 0) c.numVar fun i hi => hr i (by
    unfold LineCfg.numParams; omega)
  have h1 : ∀ i, 3 ≤ i → i < 13 → c.drawLine (lineDrawEx a b) p0 i = (c.rng i).1 := by
    intro i hi1 hi2
    simp [LineCfg.drawLine, hnv, hnp, hi1, hi2, lineDrawEx]
  have h1c : ∀ k < 3, c.drawLine (lineDrawEx a b) p0 (c.cen 0 k) = 0 := by
    intro k hk
    rw [h1 _ (by rw [hcen]; omega) (by rw [hcen]; omega)]
    unfold LineCfg.cen
    rw [c.rng_lag 0 k (by omega) (by omega), c.ordered_window hord, hlr]
  have h1a : c.drawLine (lineDrawEx a b) p0 4 = Real.log (1 / 10 ^ 5) := by
    rw [h1 4 (by omega) (by omega)]
    have := c.rng_amp 0 0 (by omega) (by omega)
    rw [hnv] at this
    simp only [Nat.mul_zero, Nat.zero_add, Nat.add_zero] at this
    rw [this, ← hc]
    simp [LineCfg.ampWindow, LineCfg.ampRange, lineCfgEx]
  generalize hp1 : c.drawLine (lineDrawEx a b) p0 = p1 at *
  have h2 : c.sortAll p1 4 = Real.log (1 / 10 ^ 5) ∧ c.sortAll p1 5 = 0 ∧ c.sortAll p1 8 = 0 := by
    obtain ⟨g1, g2⟩ := c.sortLoop_spec p1 1 0 0 (by
      intro b' hb' k hk
      have : b' = 0 := by omega
      subst this
      rw [h1c k (by omega)]; exact ⟨le_rfl, le_rfl⟩)
    have hsa : c.sortAll p1 =
        (List.range 1).foldl (fun pm b => c.sortBlock pm (c.blk * b)) p1 := by
      simp only [LineCfg.sortAll, hord, if_true, LineCfg.numLine_div, hnb]
    rw [hsa]
    refine ⟨?_, ?_, ?_⟩
    · rw [g1 4 ?_]
      · exact h1a
      · intro b' hb' k hk e
        have : b' = 0 := by omega
        subst this
        rw [hcen] at e; omega
    · have := (g2 0 (by omega)).1 0 (by omega)
      rw [hcen] at this
      exact le_antisymm this.2 this.1
    · have := (g2 0 (by omega)).1 1 (by omega)
      rw [hcen] at this
      exact le_antisymm this.2 this.1
  generalize hp2 : c.sortAll p1 = p2 at *
  have h3 : c.posAll (lineDrawEx a b) p2 = c.posBlock (lineDrawEx a b) p2 0 := by
    simp only [LineCfg.posAll, hpos, if_true, LineCfg.numLine_div, hnb]
    rfl
  obtain ⟨q, hq, hq1, -⟩ := c.share_ok hs (c.putFixed (c.posBlock (lineDrawEx a b) p2 0))
  refine ⟨q, ?_, ?_, ?_⟩
  · simp only [LineCfg.fromPrior, h0, Res.ok_bind, hp1, hp2, h3, hq]
  · rw [hq1 5 fun hu => by rw [← hc] at hu; simp [lineCfgEx] at hu]
    have := hfix 0 (by omega)
    rw [hcen] at this
    simp only [LineCfg.putFixed, this]
    simp only [LineCfg.posBlock, hnv, Nat.mul_zero, Nat.add_zero]
    rw [Function.update_self]
    rw [show 3 + 2 - 1 = 4 from rfl, show 3 + 2 = 5 from rfl, h2.1, h2.2.1]
    rfl
  · rw [hq1 8 fun hu => by rw [← hc] at hu; simp [lineCfgEx] at hu]
    have := hfix 1 (by omega)
    rw [hcen] at this
    simp only [LineCfg.putFixed, this]
    simp only [LineCfg.posBlock, hnv, Nat.mul_zero, Nat.add_zero]
    rw [Function.update_of_ne (by omega), Function.update_of_ne (by omega)]
    exact h2.2.2

/-- **C47, the rest is false** (`from_prior_line` looks at the amplitude and the lag instead of the
lag and the width).  With the positive-lag option an accepted configuration has an initial draw
whose first lag is negative although the lag range is `[0, 30]`. -/
theorem C47_initial :
    ∃ d : LineDraw, (∀ i, 0 ≤ d.u i ∧ d.u i ≤ 1) ∧
    ∃ pm, (lineCfgEx 0 0 [1] true).fromPrior d (fun _ => 0) = .ok pm ∧
      pm ((lineCfgEx 0 0 [1] true).idxLine 0 0 + 1 + 0 * 3 + 1) < 0 ∧
      ((lineCfgEx 0 0 [1] true).rng
        ((lineCfgEx 0 0 [1] true).idxLine 0 0 + 1 + 0 * 3 + 1)).1 = 0 := by
  refine ⟨lineDrawEx 0 0, fun i => by simp [lineDrawEx], ?_⟩
  obtain ⟨pm, h1, h2, -⟩ := lineDrawEx_lag 0 0
  have hidx : (lineCfgEx 0 0 [1] true).idxLine 0 0 = 3 := by
    simp [LineCfg.idxLine, LineCfg.idxRows, LineCfg.idxLoop, LineCfg.idxRow, LineCfg.numVar,
      lineCfgEx]
  have hlog : Real.log (1 / 10 ^ 5) < 0 := Real.log_neg (by norm_num) (by norm_num)
  have hlr : (lineCfgEx 0 0 [1] true).lagRange = (0, 30) := by
    simp only [LineCfg.lagRange, lineCfgEx]; norm_num
  have hrl := ((C39_ranges (lineCfgEx 0 0 [1] true)).2.2 0 0 0 (by simp [lineCfgEx])
    (by simp [lineCfgEx])).2.1
  have hra := ((C39_ranges (lineCfgEx 0 0 [1] true)).2.2 0 0 0 (by simp [lineCfgEx])
    (by simp [lineCfgEx])).1
  rw [(lineCfgEx 0 0 [1] true).ordered_window (by simp [LineCfg.ordered, lineCfgEx]), hlr] at hrl
  rw [hidx] at hrl hra ⊢
  refine ⟨pm, h1, ?_, by rw [hrl]⟩
  rw [show 3 + 1 + 0 * 3 + 1 = 5 from rfl, h2]
  have hloop : ∀ n, ((lineCfgEx 0 0 [1] true).posLoop 5 (fun _ => (0, 0)) (n + 1)
      (Real.log (1 / 10 ^ 5), 0)) = (Real.log (1 / 10 ^ 5), Real.log (1 / 10 ^ 5) / 3) := by
    intro n
    have hwf : (lineCfgEx 0 0 [1] true).widthFactor = 3 := rfl
    have ha : ((lineCfgEx 0 0 [1] true).rng (5 - 1)).1 = Real.log (1 / 10 ^ 5) := by
      rw [show 5 - 1 = 3 + 1 + 0 * 3 from rfl, hra]
      simp [LineCfg.ampWindow, LineCfg.ampRange, lineCfgEx]
    have hb : ((lineCfgEx 0 0 [1] true).rng 5).1 = 0 := by
      rw [show 5 = 3 + 1 + 0 * 3 + 1 from rfl, hrl]
    induction n with
    | zero =>
      rw [LineCfg.posLoop, if_pos (by rw [hwf]; linarith), if_pos rfl, hwf, ha]
      simp
    | succ n ih =>
      rw [LineCfg.posLoop, if_pos (by rw [hwf]; linarith), if_neg (by omega), ha, hb]
      simp only [zero_mul, add_zero]
      exact ih
  rw [hloop 100]
  simp only
  linarith

/-- **C46, the rest is false.**  With the ordered prior and the positive-lag option the initial lags
need not be in order: here the first exceeds the second. -/
theorem C46_positivity :
    ∃ d : LineDraw, (∀ i, 0 ≤ d.u i ∧ d.u i ≤ 1) ∧
    ∃ pm, (lineCfgEx 0 0 [1] true).fromPrior d (fun _ => 0) = .ok pm ∧
      pm ((lineCfgEx 0 0 [1] true).idxLine 0 0 + 1 + 1 * 3 + 1) <
        pm ((lineCfgEx 0 0 [1] true).idxLine 0 0 + 1 + 0 * 3 + 1) := by
  refine ⟨lineDrawEx 1 (1 / 100), fun i => by simp [lineDrawEx], ?_⟩
  obtain ⟨pm, h1, h2, h3⟩ := lineDrawEx_lag 1 (1 / 100)
  have hidx : (lineCfgEx 0 0 [1] true).idxLine 0 0 = 3 := by
    simp [LineCfg.idxLine, LineCfg.idxRows, LineCfg.idxLoop, LineCfg.idxRow, LineCfg.numVar,
      lineCfgEx]
  have hlog : Real.log (1 / 10 ^ 5) < 0 := Real.log_neg (by norm_num) (by norm_num)
  have hlog10 : (1 : ℝ) ≤ Real.log 10 := by
    rw [Real.le_log_iff_exp_le (by norm_num)]
    have := Real.exp_one_lt_d9
    linarith
  have hlr : (lineCfgEx 0 0 [1] true).lagRange = (0, 30) := by
    simp only [LineCfg.lagRange, lineCfgEx]; norm_num
  have hrl := ((C39_ranges (lineCfgEx 0 0 [1] true)).2.2 0 0 0 (by simp [lineCfgEx])
    (by simp [lineCfgEx])).2.1
  have hra := ((C39_ranges (lineCfgEx 0 0 [1] true)).2.2 0 0 0 (by simp [lineCfgEx])
    (by simp [lineCfgEx])).1
  rw [(lineCfgEx 0 0 [1] true).ordered_window (by simp [LineCfg.ordered, lineCfgEx]), hlr] at hrl
  rw [hidx] at hrl hra ⊢
  refine ⟨pm, h1, ?_⟩
  rw [show 3 + 1 + 1 * 3 + 1 = 8 from rfl, show 3 + 1 + 0 * 3 + 1 = 5 from rfl, h2, h3]
  have hwf : (lineCfgEx 0 0 [1] true).widthFactor = 3 := rfl
  have ha : (lineCfgEx 0 0 [1] true).rng (5 - 1) = (Real.log (1 / 10 ^ 5), Real.log 10) := by
    rw [show 5 - 1 = 3 + 1 + 0 * 3 from rfl, hra]
    simp [LineCfg.ampWindow, LineCfg.ampRange, lineCfgEx]
  have hb : (lineCfgEx 0 0 [1] true).rng 5 = (0, 30) := by
    rw [show 5 = 3 + 1 + 0 * 3 + 1 from rfl, hrl]
  rw [LineCfg.posLoop, if_pos (by rw [hwf]; linarith), if_neg (by omega), ha, hb]
  simp only
  rw [LineCfg.posLoop, if_neg (by rw [hwf]; norm_num; linarith)]
  norm_num

/-- **C45, the rest is false.**  The fixed lags of prior type 2 are spread over the configured lag
range, the windows over the range cut to half the time span: with the range `[0, 30]` and a time
span of 40 the last component is fixed at lag 30, outside its window and outside the prior range
`[0, 20]`. -/
theorem C45_clipped :
    let c : LineCfg := { lineCfgEx 2 0 [1] false with tspan := 40 }
    (c.fix (c.idxLine 0 0 + 1 + 2 * 3 + 1) = some 30) ∧
    (c.rng (c.idxLine 0 0 + 1 + 2 * 3 + 1)).2 = 20 := by
  intro c
  have hidx : c.idxLine 0 0 = c.blk * 0 + c.numVar := by
    rw [c.idxLine_eq 0 0 (by simp [c, lineCfgEx])]; simp [LineCfg.bno]
  have hng : c.ng = 3 := rfl
  have hnb : c.nblocks = 1 := by simp [LineCfg.nblocks, c, lineCfgEx]
  constructor
  · unfold LineCfg.fix LineCfg.fixWrites
    rw [if_neg (by simp [c, lineCfgEx] : ¬ (c.typeTf = 1 ∧ c.typeLag = 3)),
      if_neg (by simp [c, lineCfgEx] : ¬ (c.uniTf = 2)), List.append_nil, List.append_nil,
      if_pos (by simp [c, lineCfgEx] : 2 ≤ c.typeLag ∧ c.typeLag ≤ 3)]
    have hval : c.lagLow + ((2 : ℕ) : ℝ) * c.dlag = 30 := by
      simp only [LineCfg.dlag, c, lineCfgEx]; norm_num
    refine applyFix_of_mem _ _ _ _ (c.mem_fixAll.2 ⟨0, by omega, 2, by omega, ?_, hval.symm⟩) ?_
    · rw [hidx]
    · intro v hv
      obtain ⟨b, hb, k, hk, h1, h2⟩ := c.mem_fixAll.1 hv
      have : b = 0 := by omega
      subst this
      have : k = 2 := by rw [hidx] at h1; omega
      subst this
      rw [h2]; exact hval
  · rw [((C39_ranges c).2.2 0 0 2 (by simp [c, lineCfgEx]) (by omega)).2.1]
    simp only [LineCfg.lagWindow, LineCfg.ordered, LineCfg.lagRange, c, lineCfgEx]
    norm_num

/-! ## Seasonal gaps -/

/-- **C64** (partial: transfer functions not fully shared, every data set has a line).  With the
seasonal-gap option, a move of the lag or the width of a component is charged
`-100 (1 - (distance/half-width)^2)` if the lag (reduced modulo a year) is within the half-width of
the gap of the component's own data set and the width is below the half-width; otherwise nothing;
moves of amplitudes and error parameters are never charged. -/
theorem C64_gap_partial (c : LineCfg) (q : ℕ → ℝ) (i j k t : ℕ) (hj : j < c.nl.getD i 0)
    (hk : k < c.ng) (ht : t < 3) (hu : c.uniTf ≠ 1)
    (hl : ∀ i < c.nl.length, 0 < c.nl.getD i 0) :
    let lag := q (c.idxLine i j + 1 + k * 3 + 1)
    let width := q (c.idxLine i j + 1 + k * 3 + 2)
    ∃ (p m : ℝ) (n : ℤ), c.checkGap q (c.idxLine i j + 1 + k * 3 + t) = .ok p ∧
      -- `m` is the position within the year
      (if c.typeTf = 2 then lag + Real.exp width else lag) = m + n * 365.25 ∧ 0 ≤ m ∧ m < 365.25 ∧
      (1 ≤ t → |m - c.gapCenter i| < c.gapWidth i → width < Real.log (c.gapWidth i) →
        p = -100 * (1 - (|m - c.gapCenter i| / c.gapWidth i) ^ 2) ∧ -100 ≤ p ∧ p < 0) ∧
      (¬ (1 ≤ t ∧ |m - c.gapCenter i| < c.gapWidth i ∧ width < Real.log (c.gapWidth i)) →
        p = 0) := by
  intro lag width
  obtain ⟨hrole, -, hset⟩ := C39_roles c i j k t hj hk ht
  have hset := hset hu hl
  set L : ℝ := if c.typeTf = 2 then lag + Real.exp width else lag with hL
  have hLf : lag + c.lagFactor * Real.exp width = L := by
    rw [hL]
    unfold LineCfg.lagFactor
    rcases h : c.typeTf with _ | _ | _ | n <;> simp
  refine ⟨if 1 ≤ t then c.gapPenalty i lag width else 0, L - ⌊L / 365.25⌋ * 365.25,
    ⌊L / 365.25⌋, ?_, by ring, ?_, ?_, ?_, ?_⟩
  · unfold LineCfg.checkGap
    rw [hset, Res.ok_bind, hrole]
    have : t = 0 ∨ t = 1 ∨ t = 2 := by omega
    rcases this with rfl | rfl | rfl
    · simp
    · simp only [Nat.cast_one, if_true, le_refl]; rfl
    · simp only [Nat.cast_ofNat]
      rw [if_neg (show ¬ ((2 : Int) = 1) by omega)]
      simp only [Nat.one_le_ofNat, if_true]
      rfl
  · have := Int.floor_le (L / 365.25)
    rw [le_div_iff₀ (by norm_num)] at this
    linarith
  · have := Int.lt_floor_add_one (L / 365.25)
    rw [div_lt_iff₀ (by norm_num)] at this
    linarith
  · intro h1 h2 h3
    rw [if_pos h1]
    have hp : c.gapPenalty i lag width =
        -100 * (1 - (|L - ⌊L / 365.25⌋ * 365.25 - c.gapCenter i| / c.gapWidth i) ^ 2) := by
      simp only [LineCfg.gapPenalty, hLf]
      rw [if_pos ⟨h2, h3⟩]
    rw [hp]
    have ha : 0 ≤ |L - ⌊L / 365.25⌋ * 365.25 - c.gapCenter i| := abs_nonneg _
    generalize |L - ⌊L / 365.25⌋ * 365.25 - c.gapCenter i| = a at *
    have hg : 0 < c.gapWidth i := lt_of_le_of_lt ha h2
    have h4 : a / c.gapWidth i < 1 := (div_lt_one hg).2 h2
    have h5 : 0 ≤ a / c.gapWidth i := div_nonneg ha hg.le
    refine ⟨rfl, ?_, ?_⟩
    · nlinarith [sq_nonneg (a / c.gapWidth i)]
    · nlinarith
  · intro h
    split
    · rename_i h1
      simp only [LineCfg.gapPenalty, hLf]
      rw [if_neg (fun h' => h ⟨h1, h'.1, h'.2⟩)]
    · rfl

/-- **C64, fully shared transfer functions.**  With `FlagUniformTranFuns = 1` a component belongs to
all data sets, but only the gap of the last one is looked at. -/
theorem C64_uniform (c : LineCfg) (i j k t : ℕ) (hj : j < c.nl.getD i 0)
    (hu : c.uniTf = 1) (hl : ∀ i < c.nl.length, 0 < c.nl.getD i 0) :
    c.getIdxSet (c.idxLine i j + 1 + k * 3 + t) = .ok (c.nl.length - 1) := by
  have hi := LineCfg.lt_of_getD_lt hj
  obtain ⟨i', h1, h2, h3, h4⟩ := c.getIdxSetLoop_ok
    (c.idxLine i j + 1 + k * 3 + t) c.nl.length le_rfl hl
  have hi' := h3 (by omega)
  suffices i' = c.nl.length - 1 by rw [LineCfg.getIdxSet, h1, this]
  by_contra hne
  have := h4 (c.nl.length - 1) (by omega) (by omega)
  rw [c.idxLine_eq _ 0 (hl _ (by omega)), c.idxLine_eq i j hj] at this
  have hb : c.bno (c.nl.length - 1) 0 = 0 := by simp [LineCfg.bno, hu]
  rw [hb] at this
  omega

/-! ## Cases meeting the hypotheses -/

section examples

/-- Three data sets with 2, 1 and 2 lines, three components. -/
example : (lineCfgEx 0 0 [2, 1, 2] false).nl ≠ [] ∧ (lineCfgEx 0 0 [2, 1, 2] false).numParams = 59 ∧
    (lineCfgEx 0 0 [2, 1, 2] false).idxRows = [[9, 19], [29], [39, 49]] := by
  refine ⟨by simp [lineCfgEx], ?_, ?_⟩
  · simp [LineCfg.numParams, LineCfg.numVar, LineCfg.numLine, LineCfg.blk, lineCfgEx]
  · simp [LineCfg.idxRows, LineCfg.idxLoop, LineCfg.idxRow, LineCfg.numVar, LineCfg.blk, lineCfgEx,
      List.range_succ]

/-- A slot of the second data set. -/
example : (Slot.comp 1 0 2 1).Valid (lineCfgEx 0 0 [2, 1, 2] false) ∧
    (Slot.comp 1 0 2 1).addr (lineCfgEx 0 0 [2, 1, 2] false) = 37 := by
  refine ⟨by simp [Slot.Valid, lineCfgEx], ?_⟩
  simp [Slot.addr, LineCfg.idxLine, LineCfg.idxRows, LineCfg.idxLoop, LineCfg.idxRow,
    LineCfg.numVar, LineCfg.blk, lineCfgEx, List.range_succ]

/-- Hypotheses of C62, C46 and C63 (`uni = 2`, ordered prior). -/
example : let c := lineCfgEx 0 2 [2, 1, 2] false
    (∀ i < c.numParams, (c.rng i).1 ≤ (c.rng i).2) ∧
    (c.uniTf = 2 → ∀ i, c.nl.getD i 0 ≤ c.nl.getD 0 0) ∧ c.posivity = false ∧ c.typeLag = 0 ∧
    1 < c.ng ∧ (c.gap = true → ∀ i < c.nl.length, 0 < c.nl.getD i 0) := by
  refine ⟨lineCfgEx_ranges _ _ _ _, fun _ i => ?_, rfl, rfl, by simp [lineCfgEx], fun _ i hi => ?_⟩
  · simp only [lineCfgEx]
    rcases i with _ | _ | _ | i <;> simp
  · simp only [lineCfgEx] at hi ⊢
    rcases i with _ | _ | _ | i <;> simp at hi ⊢
    omega

/-- C62, C46: the chain returns normally (one move of the first line's first amplitude). -/
example : let c := lineCfgEx 0 0 [1] false
    ∃ pm, c.chain (lineDrawEx 0 0) (fun _ => 0)
      [({ cands := [⟨4, by simp [c, LineCfg.numParams, LineCfg.numVar, LineCfg.numLine,
            LineCfg.blk, lineCfgEx]⟩],
          h := 1 / 2, levelUpdate := 3, sizeLevels := 20, limits := fun _ _ => (0, 1) }, true)]
      = .ok pm := by
  intro c
  have hs : c.uniTf = 2 → ∀ i, c.nl.getD i 0 ≤ c.nl.getD 0 0 := by
    intro h; simp [c, lineCfgEx] at h
  have hg : c.gap = true → ∀ i < c.nl.length, 0 < c.nl.getD i 0 := by
    intro _ i hi; simp [c, lineCfgEx] at hi; simp [c, lineCfgEx, hi]
  have hfix : c.fix 4 = none := by
    by_contra hne
    obtain ⟨v, hv⟩ := Option.ne_none_iff_exists'.1 hne
    rcases c.fix_cases hv with ⟨_, _, t, h1, h2⟩ | ⟨h1, _⟩ | ⟨h1, _⟩ | ⟨h1, _⟩ | ⟨h1, _⟩
    · simp [c, LineCfg.numVar, lineCfgEx] at h2
    · simp [c, lineCfgEx] at h1
    · simp [c, lineCfgEx] at h1
    · simp [c, lineCfgEx] at h1
    · simp [c, lineCfgEx] at h1
  obtain ⟨p, h0, hi⟩ := c.fromPrior_inv (lineDrawEx 0 0) (fun _ => 0)
    (fun i => by simp [lineDrawEx]) (lineCfgEx_ranges _ _ _ _) hs rfl
  unfold LineCfg.chain
  rw [h0, Res.ok_bind]
  unfold LineCfg.run
  rcases c.perturb_total hi (lineCfgEx_ranges _ _ _ _) hs hg
    { cands := [⟨4, by simp [c, LineCfg.numParams, LineCfg.numVar, LineCfg.numLine,
            LineCfg.blk, lineCfgEx]⟩],
      h := 1 / 2, levelUpdate := 3, sizeLevels := 20, limits := fun _ _ => (0, 1) } with h | ⟨r, h⟩
  · exfalso
    have hpick : ∀ h4, c.pick [⟨4, h4⟩] = .ok ⟨4, h4⟩ := by
      intro h4; simp [LineCfg.pick, hfix]
    unfold LineCfg.perturb at h
    simp only [hpick, Res.ok_bind] at h
    obtain ⟨hb1, -⟩ := c.bounds_ok hi (lineCfgEx_ranges _ _ _ _) 4 (by
      simp [c, LineCfg.numParams, LineCfg.numVar, LineCfg.numLine, LineCfg.blk, lineCfgEx])
    revert h
    generalize (p 4 + _ : ℝ) = X
    obtain ⟨y, hy, -⟩ := dnestWrap_le X _ _ hb1
    rw [hy, Res.ok_bind]
    obtain ⟨i, hgs, -⟩ := c.getIdxSetLoop_ok 4 c.nl.length le_rfl (hg rfl)
    obtain ⟨q', hq', -⟩ := c.share_ok hs (Function.update p 4 y)
    have hnv : ¬ 4 < c.numVar := by simp [c, LineCfg.numVar, lineCfgEx]
    have hgap : c.gap = true := rfl
    rw [hq']
    simp only [LineCfg.moveLogH, hnv, if_false, hgap, if_true, LineCfg.checkGap, LineCfg.getIdxSet,
      hgs, Res.ok_bind, Res.pure_eq]
    intro h; exact absurd h (by simp)
  · rw [h, Res.ok_bind]
    exact ⟨_, rfl⟩

/-- C45: prior type 2. -/
example : let c := lineCfgEx 2 0 [2, 1] false
    (1 ≤ c.typeLag ∧ c.typeLag ≤ 3) ∧ 2 ≤ c.ng ∧ c.lagLow ≤ c.lagUpp ∧
    (-c.tspan / 2 ≤ c.lagLow ∧ c.lagUpp ≤ c.tspan / 2) ∧
    (∀ i < c.numParams, (c.rng i).1 ≤ (c.rng i).2) := by
  refine ⟨by simp [lineCfgEx], by simp [lineCfgEx], by simp [lineCfgEx], ?_,
    lineCfgEx_ranges _ _ _ _⟩
  simp only [lineCfgEx]; norm_num

/-- C63: a second data set with more lines than the first. -/
example : let c := lineCfgEx 1 2 [1, 2] false
    c.uniTf = 2 ∧ c.nl.getD 0 0 < c.nl.getD 1 0 := by
  simp [lineCfgEx]

/-- C64: fully shared transfer functions and two data sets: the gap of the second is used. -/
example : let c := lineCfgEx 1 1 [1, 1] false
    c.getIdxSet (c.idxLine 0 0 + 1 + 0 * 3 + 1) = .ok 1 :=
  C64_uniform (lineCfgEx 1 1 [1, 1] false) 0 0 0 1 (by simp [lineCfgEx]) rfl (by
    intro i hi
    simp only [lineCfgEx] at hi ⊢
    rcases i with _ | _ | i <;> simp at hi ⊢)

end examples

end Mica
