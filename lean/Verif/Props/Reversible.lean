import Verif.Proof.Reversible

/-!
# C78: moves leave the prior invariant (detailed balance)

The sampler accepts a proposal with probability `min(1, exp(logH))` (C53).  Here: for every move
from `x` to `y` the opposite random step leads from `y` back to `x`, and the two acceptance
probabilities balance against the documented prior density.
-/

namespace Mica

/-- **C78, continuum.**  The proposal of the continuum model is symmetric: the same choice of
parameter with the opposite random number leads back (`logH` is 0 in both directions; the prior is
flat in the parameters used). -/
theorem C78_continuum {n : ℕ} (c : ConCfg n) (s : ConStep n) (pm q : Fin n → ℝ)
    (hpm : ∀ i, c.fix i = none → c.lo i ≤ pm i ∧ pm i < c.hi i)
    (h : perturbCon c s pm = .ok q) : perturbCon c { s with h := -s.h } q = .ok pm := by
  unfold perturbCon at h ⊢
  obtain ⟨w, hw, h⟩ := Res.bind_eq_ok.1 h
  obtain ⟨x, hx, h⟩ := Res.bind_eq_ok.1 h
  simp only [Res.pure_eq, Res.ok.injEq] at h
  subst h
  obtain ⟨h1, h2⟩ := hpm w (pickFree_free c _ w hw)
  have := dnestWrap_reverse _ _ _ _ x h1 h2 hx
  have e : Function.update pm w x w + -s.h * conWidth c s w = x - s.h * conWidth c s w := by
    rw [Function.update_self]; ring
  have hwid : conWidth c { s with h := -s.h } w = conWidth c s w := rfl
  simp only [hw, Res.ok_bind, hwid, e, this, Res.pure_eq, Function.update_idem,
    Function.update_eq_self]

/-- **C78, line model.**  Let `q` be proposed from a particle `pm` strictly inside its prior, with
the value `l` returned for the acceptance.  The same choice with the opposite random number proposes
`pm` from `q`, and with the value `l'` returned then the probabilities of the two moves balance
against the prior density: `prior(pm) · min(1, e^l) = prior(q) · min(1, e^l')`. -/
theorem C78_line (c : LineCfg) (_hsd : ∀ i < c.numVar, 0 < c.varStd i)
    (hs : c.uniTf = 2 → ∀ i, c.nl.getD i 0 ≤ c.nl.getD 0 0)
    (hg : c.gap = true → ∀ i < c.nl.length, 0 < c.nl.getD i 0)
    (s : ConStep c.numParams) (pm q : ℕ → ℝ) (l : ℝ) (hpm : MoveState c pm)
    (h : c.perturb s pm = .ok (q, l)) :
    ∃ l', c.perturb { s with h := -s.h } q = .ok (pm, l') ∧
      Real.exp (logPrior c pm) * min 1 (Real.exp l) =
        Real.exp (logPrior c q) * min 1 (Real.exp l') := by
  unfold LineCfg.perturb at h ⊢
  obtain ⟨w, hw, h⟩ := Res.bind_eq_ok.1 h
  obtain ⟨x, hx, h⟩ := Res.bind_eq_ok.1 h
  obtain ⟨l1, hl, h⟩ := Res.bind_eq_ok.1 h
  obtain ⟨q1, hq, h⟩ := Res.bind_eq_ok.1 h
  simp only [Res.pure_eq, Res.ok.injEq, Prod.mk.injEq] at h
  obtain ⟨rfl, rfl⟩ := h
  have hf := c.pick_free hw
  obtain ⟨hb1, hb2, hb3⟩ := c.bounds_back hs hpm w.2 hf hq
  obtain ⟨l', hl', hbal⟩ := c.log_balance hs hg w.2 hf hq hl
  have hback := c.share_back hs hpm hq
  have hqw : q1 w = x := by
    rw [(c.move_share hs hq).1 w (c.free_not_target hf), Function.update_self]
  have hwid : ∀ a b, c.stepWidth a b { s with h := -s.h } w = c.stepWidth a b s w :=
    fun _ _ => rfl
  have hwrap := dnestWrap_reverse _ _ _ _ x hb1 hb2 hx
  refine ⟨l', ?_, ?_⟩
  · simp only [hw, Res.ok_bind, hwid, hb3, hqw]
    rw [show x + -s.h * (if c.ordered = true then c.stepWidth 0 10 s w else c.stepWidth 5 15 s w) =
      x - s.h * (if c.ordered = true then c.stepWidth 0 10 s w else c.stepWidth 5 15 s w) by ring,
      hwrap, Res.ok_bind, hl', Res.ok_bind, hback]
    rfl
  · have hmin : ∀ y : ℝ, min 1 (Real.exp y) = Real.exp (min 0 y) := by
      intro y
      rcases le_total 0 y with hy | hy
      · rw [min_eq_left hy, Real.exp_zero, min_eq_left (Real.one_le_exp hy)]
      · rw [min_eq_right hy, min_eq_right (Real.exp_le_one_iff.2 hy)]
    rw [hmin, hmin, ← Real.exp_add, ← Real.exp_add, hbal]

/-! ## Cases meeting the hypotheses -/

/-- Lags 1, 2, 3, all else 0: a particle of one line with three components, with the ordered lag
prior, the positive-lag option and the seasonal-gap option. -/
noncomputable def moveEx : ℕ → ℝ := fun i => if i = 5 then 1 else if i = 8 then 2 else
  if i = 11 then 3 else 0

theorem moveEx_ok : MoveState (lineCfgEx 0 0 [1] true) moveEx := by
  have hl10 : (0 : ℝ) < Real.log 10 := Real.log_pos (by norm_num)
  have hl11 : (0 : ℝ) < Real.log (1 + 10) := Real.log_pos (by norm_num)
  have hpi : (0 : ℝ) < Real.log (300 * 2 * Real.pi) :=
    Real.log_pos (by linarith [Real.two_le_pi])
  have hl4 : Real.log (1 / 10 ^ 4) ≤ 0 := Real.log_nonpos (by norm_num) (by norm_num)
  generalize hc : lineCfgEx 0 0 [1] true = c
  have hnv : c.numVar = 3 := by rw [← hc]; rfl
  have hnb : c.nblocks = 1 := by rw [← hc]; simp [LineCfg.nblocks, lineCfgEx]
  have hng : c.ng = 3 := by rw [← hc]; rfl
  have hblk : c.blk = 10 := by rw [LineCfg.blk, hng]
  have hnp : c.numParams = 13 := by
    rw [LineCfg.numParams, LineCfg.numLine_eq, hnv, hblk, hnb]
  have hlr : c.lagRange = (0, 30) := by
    rw [← hc]; simp only [LineCfg.lagRange, lineCfgEx]; norm_num
  have hord : c.ordered = true := by rw [← hc]; simp [LineCfg.ordered, lineCfgEx]
  have hut : c.uniTf = 0 := by rw [← hc]; rfl
  have hnl : c.nl = [1] := by rw [← hc]; rfl
  refine ⟨fun i hi _ => ?_, fun _ i j k hj hk => ?_, fun h => by omega⟩
  · by_cases hv : i < 3
    · have := c.rng_var 0 i hv (by omega)
      rw [Nat.mul_zero, Nat.zero_add] at this
      rw [this]
      have : i = 0 ∨ i = 1 ∨ i = 2 := by omega
      rcases this with rfl | rfl | rfl
      · simp only [LineCfg.varParRange, LineCfg.varRange, ← hc, lineCfgEx, Real.log_one, moveEx]
        norm_num
        exact Real.log_pos (by norm_num)
      · simp only [LineCfg.varParRange, LineCfg.varRange, ← hc, lineCfgEx, moveEx]
        norm_num
        refine ⟨?_, hl10⟩
        have : Real.log (1 / 10000) ≤ 0 := Real.log_nonpos (by norm_num) (by norm_num)
        rw [one_div, Real.log_inv] at this; linarith
      · simp only [LineCfg.varParRange, LineCfg.varRange, ← hc, lineCfgEx, Real.log_one, moveEx]
        norm_num
        norm_num at hpi
        exact hpi
    · obtain ⟨b, o, hb, ho, rfl⟩ := c.addr_split (by omega) hi
      have hb0 : b = 0 := by omega
      subst hb0
      rcases c.offset_cases ho with rfl | ⟨k, t, hk, ht, rfl⟩
      · rw [Nat.add_zero, c.rng_err 0 hb, hnv]
        simp only [moveEx]
        norm_num
        exact Real.log_pos (by norm_num)
      · rw [c.rng_comp 0 k t hb hk ht, hnv]
        have : t = 0 ∨ t = 1 ∨ t = 2 := by omega
        have hk3 : k = 0 ∨ k = 1 ∨ k = 2 := by omega
        rcases this with rfl | rfl | rfl
        · have : c.ampWindow k = (Real.log (1 / 10 ^ 5), Real.log 10) := by rw [← hc]; rfl
          simp only [this]
          have h5 : Real.log (1 / 10 ^ 5) ≤ 0 := Real.log_nonpos (by norm_num) (by norm_num)
          rcases hk3 with rfl | rfl | rfl <;> simp only [moveEx] <;> norm_num <;>
            exact ⟨by have := h5; norm_num at this; exact this, hl10⟩
        · simp only [c.ordered_window hord, hlr]
          rcases hk3 with rfl | rfl | rfl <;> simp only [moveEx] <;> norm_num
        · have : c.widthWindow k = (Real.log (1 / 10), Real.log (300 / 3)) := by
            rw [← hc]; simp [LineCfg.widthWindow, LineCfg.widthRange, lineCfgEx]
          simp only [this]
          have h5 : Real.log (1 / 10) ≤ 0 := Real.log_nonpos (by norm_num) (by norm_num)
          have h6 : 0 < Real.log (300 / 3) := Real.log_pos (by norm_num)
          have e : moveEx (10 * 0 + 3 + (1 + 3 * k + 2)) = 0 := by
            rcases hk3 with rfl | rfl | rfl <;> simp [moveEx]
          rw [hblk, e]
          exact ⟨h5, h6⟩
  · have hi0 : i = 0 := by
      rw [hnl] at hj
      rcases i with _ | i
      · rfl
      · simp at hj
    subst hi0
    rw [hnl] at hj
    have hj0 : j = 0 := by simpa using hj
    subst hj0
    have : c.idxLine 0 0 = 3 := by
      rw [c.idxLine_eq 0 0 (by rw [hnl]; simp), hnv]; simp [LineCfg.bno]
    rw [this]
    have hk3 : k = 0 ∨ k = 1 := by omega
    rcases hk3 with rfl | rfl <;> simp only [moveEx] <;> norm_num

/-- C78 applies to a move of the second lag (index 8). -/
example : ∃ (s : ConStep (lineCfgEx 0 0 [1] true).numParams) (q : ℕ → ℝ) (l : ℝ),
    s.cands.map Fin.val = [8] ∧ s.h = 1 / 2 ∧
    (lineCfgEx 0 0 [1] true).perturb s moveEx = .ok (q, l) := by
  have hs : (lineCfgEx 0 0 [1] true).SharedOk := by intro h; simp [lineCfgEx] at h
  have hg : (lineCfgEx 0 0 [1] true).gap = true → ∀ i < (lineCfgEx 0 0 [1] true).nl.length,
      0 < (lineCfgEx 0 0 [1] true).nl.getD i 0 := by
    intro _ i hi
    simp [lineCfgEx] at hi; simp [lineCfgEx, hi]
  generalize hc : lineCfgEx 0 0 [1] true = c at *
  have hnv : c.numVar = 3 := by rw [← hc]; rfl
  have hblk : c.blk = 10 := by rw [← hc]; rfl
  have hord : c.ordered = true := by rw [← hc]; simp [LineCfg.ordered, lineCfgEx]
  have hcen : c.cen 0 1 = 8 := by rw [LineCfg.cen, hnv, hblk]
  have hng : c.ng = 3 := by rw [← hc]; rfl
  have hnp : 8 < c.numParams := by
    rw [← hc]
    simp [LineCfg.numParams, LineCfg.numVar, LineCfg.numLine, LineCfg.blk, lineCfgEx]
  have hfix : c.fix 8 = none := by
    by_contra hne
    rw [← hcen] at hne
    obtain ⟨hu, -⟩ := c.fix_cen_ordered hord (by omega) hne
    rw [← hc] at hu; simp [lineCfgEx] at hu
  obtain ⟨r, hr, -⟩ := c.share_ok hs (Function.update moveEx 8 (8 : ℝ))
  have hb := c.bounds_back hs (hc ▸ moveEx_ok) hnp hfix hr
  refine ⟨⟨[⟨8, hnp⟩], 1 / 2, 3, 20, fun _ _ => (0, 1)⟩, ?_⟩
  simp only [LineCfg.perturb, LineCfg.pick, hfix, Option.isSome_none, Bool.false_eq_true, if_false, Res.ok_bind,
    hord, if_true]
  have hwr : ∀ y, ∃ x, dnestWrap y (c.bounds moveEx 8).1 (c.bounds moveEx 8).2 = .ok x :=
    fun y => by
      obtain ⟨x, hx, -⟩ := C01_wrap_range y (c.bounds moveEx 8).1 (c.bounds moveEx 8).2
        (lt_of_le_of_lt hb.1 hb.2.1)
      exact ⟨x, hx⟩
  obtain ⟨x, hx⟩ := hwr (moveEx 8 + 1 / 2 * c.stepWidth 0 10
    ⟨[⟨8, hnp⟩], 1 / 2, 3, 20, fun _ _ => (0, 1)⟩ ⟨8, hnp⟩)
  rw [hx]
  simp only [Res.ok_bind]
  obtain ⟨q, hq, -⟩ := c.share_ok hs (Function.update moveEx 8 x)
  have hl : ∃ l, c.moveLogH moveEx (Function.update moveEx 8 x) 8 = .ok l := by
    rcases c.moveLogH_line hs hg hnp (by omega) hfix with ⟨h, -⟩ | ⟨i, j, k, _, _, _, h, -⟩
    · exact ⟨_, h _ _⟩
    · exact ⟨_, h _ _⟩
  obtain ⟨l, hl⟩ := hl
  rw [hl, hq]
  exact ⟨q, l, rfl, trivial, rfl⟩

end Mica
