import Verif.Proof.Invariance8

/-!
# Helper lemmas for C109: the region of the line model's prior along one coordinate
-/

open MeasureTheory Set
open scoped ENNReal

namespace Mica
namespace LineCfg
variable (c : LineCfg)

theorem lag_cen (i j k : ℕ) : lineStart c i j + (3 * k + 2) = c.cen (c.bno i j) k := by
  rw [c.lineStart_eq]; unfold cen; omega

theorem cen_block {b k : ℕ} (h : c.cen b k < c.numParams) : b < c.nblocks := by
  unfold cen at h
  rw [numParams, numLine_eq] at h
  have : c.blk * b < c.blk * c.nblocks := by omega
  exact lt_of_mul_lt_mul_left this (Nat.zero_le _)

theorem bounds_cen (ho : c.ordered = true) {b k : ℕ} (hk : k < c.ng) (pm : ℕ → ℝ) :
    c.bounds pm (c.cen b k) =
      (if k = 0 then (c.rng (c.cen b k)).1 else pm (c.cen b (k - 1)),
       if k + 1 < c.ng then pm (c.cen b (k + 1)) else (c.rng (c.cen b k)).2) := by
  have hng : 1 < c.ng := by unfold ordered at ho; simp at ho; exact ho.2
  obtain ⟨hrole, hcomp⟩ := c.role_comp b k 1 hk (by omega)
  have hp : c.cen b k + 3 = c.cen b (k + 1) := by unfold cen; omega
  have hm : 0 < k → c.cen b k - 3 = c.cen b (k - 1) := by
    intro h; unfold cen; omega
  unfold bounds
  rw [if_pos ⟨ho, by unfold cen; omega⟩]
  unfold orderedBounds
  rw [if_pos (show c.roleOf (c.cen b k) = 1 from hrole), show c.compOf (c.cen b k) = k from hcomp, hp]
  by_cases k0 : k = 0
  · subst k0
    rw [if_pos (show ((0 : ℕ) : Int) = 0 from rfl), if_pos rfl, if_pos (by omega)]
  · rw [if_neg (by exact_mod_cast k0), hm (by omega), if_neg k0]
    by_cases kl : k + 1 < c.ng
    · rw [if_pos (by omega), if_pos kl]
    · rw [if_neg (by omega), if_neg kl]

/-- Either the bounds of a move are the prior range, or the parameter is a lag of an own line under
the ordered prior. -/
theorem bounds_kind (hs : c.SharedOk) (hg : c.gap → ∀ i < c.nl.length, 0 < c.nl.getD i 0)
    {w : ℕ} (hw : w < c.numParams) (hf : c.fix w = none) :
    ((∀ pm, c.bounds pm w = c.rng w) ∧ (c.ordered → ∀ b k, k < c.ng → w ≠ c.cen b k)) ∨
    (c.ordered ∧ ∃ i j k, i < c.nl.length ∧ j < ownLines c i ∧ k < c.ng ∧ w = c.cen (c.bno i j) k) := by
  by_cases h : c.ordered = true ∧ ∃ b k, k < c.ng ∧ w = c.cen b k
  · right
    obtain ⟨ho, b, k, hk, rfl⟩ := h
    obtain ⟨i, j, hi, hj, rfl, -⟩ := c.own_of_free hs hg (c.cen_block hw) hk (Or.inl rfl) hf
    exact ⟨ho, i, j, k, hi, hj, hk, rfl⟩
  · left
    refine ⟨?_, fun ho b k hk e => h ⟨ho, b, k, hk, e⟩⟩
    rcases c.bounds_cases w hw with hb | ⟨ho, b, -, k, hk, e, -⟩
    · exact hb
    · exact absurd ⟨ho, b, k, hk, e⟩ h

theorem rng_cen (ho : c.ordered) {b k : ℕ} (hb : b < c.nblocks) (hk : k < c.ng) :
    c.rng (c.cen b k) = c.lagRange := by
  have := c.rng_comp b k 1 hb hk (by omega)
  rw [show c.cen b k = c.blk * b + c.numVar + (1 + 3 * k + 1) from rfl, this]
  exact c.ordered_window ho k

theorem ext_ne (y : Fin c.numParams → ℝ) (w : Fin c.numParams) (t : ℝ) {a : ℕ} (h : a ≠ w) :
    extendVec (Function.update y w t) a = extendVec y a := by
  rw [extendVec_update, Function.update_of_ne h]

theorem ext_eq (y : Fin c.numParams → ℝ) (w : Fin c.numParams) (t : ℝ) :
    extendVec (Function.update y w t) w = t := by
  rw [extendVec_update, Function.update_self]

theorem region_in (hs : c.SharedOk) (hg : c.gap → ∀ i < c.nl.length, 0 < c.nl.getD i 0)
    (w : Fin c.numParams) (hf : c.fix w = none) (y : Fin c.numParams → ℝ) (t : ℝ)
    (h : InLinePrior c (Function.update y w t)) :
    (c.bounds (extendVec y) w).1 ≤ t ∧ t ≤ (c.bounds (extendVec y) w).2 := by
  have hr := h.range w hf
  rw [Function.update_self] at hr
  rcases c.bounds_kind hs hg w.2 hf with ⟨hb, -⟩ | ⟨ho, i, j, k, hi, hj, hk, e⟩
  · rw [hb]; exact ⟨hr.1, hr.2.le⟩
  · have ht0 : c.typeLag = 0 := by unfold ordered at ho; simp at ho; exact ho.1
    have hval : ∀ k' < c.ng, k' ≠ k → extendVec (Function.update y w t) (c.cen (c.bno i j) k') =
        extendVec y (c.cen (c.bno i j) k') := fun k' hk' hne =>
      c.ext_ne y w t fun e' => hne (c.cen_inj hk' hk (e'.trans e)).2
    have hw : extendVec (Function.update y w t) (c.cen (c.bno i j) k) = t := by
      rw [← e]; exact c.ext_eq y w t
    have hord : ∀ k', k' + 1 < c.ng → extendVec (Function.update y w t) (c.cen (c.bno i j) k') ≤
        extendVec (Function.update y w t) (c.cen (c.bno i j) (k' + 1)) := by
      intro k' hk'
      rw [← c.lag_cen, ← c.lag_cen]
      exact h.order ht0 i j k' hi hj hk'
    rw [e, c.bounds_cen ho hk]
    rw [e] at hr
    constructor
    · simp only
      split
      · exact hr.1
      · have := hord (k - 1) (by omega)
        rw [Nat.sub_add_cancel (by omega), hw, hval (k - 1) (by omega) (by omega)] at this
        exact this
    · simp only
      split
      · rename_i hk1
        have := hord k hk1
        rwa [hw, hval (k + 1) hk1 (by omega)] at this
      · exact hr.2.le

theorem region_move (hs : c.SharedOk) (hg : c.gap → ∀ i < c.nl.length, 0 < c.nl.getD i 0)
    (w : Fin c.numParams) (hf : c.fix w = none) (y : Fin c.numParams → ℝ) (t q : ℝ)
    (h : InLinePrior c (Function.update y w t))
    (hq : q ∈ Ico (c.bounds (extendVec y) w).1 (c.bounds (extendVec y) w).2) :
    InLinePrior c (Function.update y w q) := by
  have hkind := c.bounds_kind hs hg w.2 hf
  constructor
  · intro i hi
    by_cases e : i = w
    · subst e
      rw [Function.update_self]
      rcases hkind with ⟨hb, -⟩ | ⟨ho, i', j, k, hi', hj, hk, e⟩
      · rwa [hb] at hq
      · have hbn := c.cen_block (b := c.bno i' j) (k := k) (by rw [← e]; exact i.2)
        have hin : ∀ k' < c.ng, k' ≠ k → extendVec y (c.cen (c.bno i' j) k') ∈
            Ico c.lagRange.1 c.lagRange.2 := by
          intro k' hk' hne
          have hlt := c.cen_lt hbn hk'
          have hfree : c.fix (c.cen (c.bno i' j) k') = none := by
            by_contra hn
            obtain ⟨hu, s, hsm⟩ := c.fix_cen_ordered ho hk' hn
            refine c.own_line hs hj (o := 3 * k' + 2) (by unfold blk; omega) hu _ hsm ?_
            exact (c.lag_cen i' j k').symm
          have := h.range ⟨_, hlt⟩ hfree
          rw [Function.update_of_ne] at this
          · rw [show (((⟨c.cen (c.bno i' j) k', hlt⟩ : Fin c.numParams)) : ℕ) =
              c.cen (c.bno i' j) k' from rfl, c.rng_cen ho hbn hk'] at this
            rwa [show extendVec y (c.cen (c.bno i' j) k') = y ⟨_, hlt⟩ from
              extendVec_lt y ⟨_, hlt⟩]
          · intro e'
            exact hne (c.cen_inj hk' hk ((congrArg Fin.val e').trans e)).2
        rw [e, c.bounds_cen ho hk, c.rng_cen ho hbn hk] at hq
        rw [e, c.rng_cen ho hbn hk]
        simp only at hq
        constructor
        · refine le_trans ?_ hq.1
          split
          · exact le_rfl
          · exact (hin (k - 1) (by omega) (by omega)).1
        · refine lt_of_lt_of_le hq.2 ?_
          split
          · rename_i hk1; exact (hin (k + 1) hk1 (by omega)).2.le
          · exact le_rfl
    · have := h.range i hi
      rw [Function.update_of_ne e] at this ⊢
      exact this
  · intro ht0 i j k hi hj hk1
    have ho : c.ordered = true := by unfold ordered; simp; exact ⟨ht0, by omega⟩
    have hle := h.order ht0 i j k hi hj hk1
    rw [c.lag_cen, c.lag_cen] at hle ⊢
    by_cases e1 : c.cen (c.bno i j) k = w
    · have e2 : c.cen (c.bno i j) (k + 1) ≠ w := by
        rw [← e1]; unfold cen; omega
      rw [c.ext_ne y w q e2]
      rw [← e1, c.bounds_cen ho (by omega), if_pos hk1] at hq
      rw [e1, c.ext_eq]
      exact hq.2.le
    · rw [c.ext_ne y w q e1]
      by_cases e2 : c.cen (c.bno i j) (k + 1) = w
      · rw [← e2, c.bounds_cen ho hk1, if_neg (by omega)] at hq
        rw [e2, c.ext_eq]
        simpa using hq.1
      · rw [c.ext_ne y w q e2]
        rwa [c.ext_ne y w t e1, c.ext_ne y w t e2] at hle

end LineCfg
end Mica
