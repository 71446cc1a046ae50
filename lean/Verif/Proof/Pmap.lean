import Verif.Model.Pmap
import Verif.Proof.LineInv2
import Mathlib.Data.List.GetD

namespace Mica

theorem pmapWidths_fold (m : ℕ) (w : List ℝ) :
    ((List.range m).foldl
      (fun w i => w.set ((i + 1) * 2) (max (w.getD ((i + 1) * 2) 0) (Real.log 1))) w).length = w.length ∧
    ∀ a, ((List.range m).foldl
      (fun w i => w.set ((i + 1) * 2) (max (w.getD ((i + 1) * 2) 0) (Real.log 1))) w).getD a 0 =
      if a < w.length ∧ a % 2 = 0 ∧ 0 < a ∧ a ≤ m * 2 then max (w.getD a 0) 0 else w.getD a 0 := by
  induction m with
  | zero =>
    refine ⟨rfl, fun a => ?_⟩
    rw [if_neg (by omega)]; rfl
  | succ m ih =>
    rw [List.range_succ, List.foldl_append, List.foldl_cons, List.foldl_nil]
    generalize (List.range m).foldl
      (fun w i => w.set ((i + 1) * 2) (max (w.getD ((i + 1) * 2) 0) (Real.log 1))) w = v at ih ⊢
    obtain ⟨ih1, ih2⟩ := ih
    refine ⟨by simp [ih1], fun a => ?_⟩
    by_cases ha : a = (m + 1) * 2
    · subst ha
      by_cases hl : (m + 1) * 2 < w.length
      · rw [if_pos ⟨hl, by omega, by omega, le_rfl⟩]
        have h2 := ih2 ((m + 1) * 2)
        rw [if_neg (by omega)] at h2
        rw [List.getD_eq_getElem?_getD, List.getElem?_set_self (by omega), Option.getD_some, h2, Real.log_one]
      · rw [if_neg (by omega), List.getD_eq_default _ _ (by simp [ih1]; omega),
          List.getD_eq_default _ _ (by omega)]
    · rw [List.getD_eq_getElem?_getD, List.getElem?_set_ne (by omega), ← List.getD_eq_getElem?_getD, ih2 a]
      by_cases hc : a < w.length ∧ a % 2 = 0 ∧ 0 < a ∧ a ≤ m * 2
      · rw [if_pos hc, if_pos ⟨hc.1, hc.2.1, hc.2.2.1, by omega⟩]
      · rw [if_neg hc, if_neg (by omega)]

/-- The array of width limits after `mc_pmap_init`. -/
theorem pmapWidths_getD (ng : ℕ) (w : List ℝ) (hw : w.length = 2 * ng) (k : ℕ) (hk : k < ng) :
    (pmapWidths ng w).getD (k * 2) 0 =
      (if k = 0 then min (w.getD 0 0) (Real.log 0.01) else max (w.getD (k * 2) 0) 0) ∧
    (pmapWidths ng w).getD (k * 2 + 1) 0 = w.getD (k * 2 + 1) 0 := by
  unfold pmapWidths
  have h := (pmapWidths_fold (ng - 1) (w.set 0 (min (w.getD 0 0) (Real.log 0.01)))).2
  rw [h, h]
  simp only [List.length_set]
  refine ⟨?_, ?_⟩
  · by_cases h0 : k = 0
    · subst h0
      rw [if_neg (by omega), if_pos rfl, Nat.zero_mul, List.getD_eq_getElem?_getD,
        List.getElem?_set_self (by omega), Option.getD_some]
    · rw [if_pos (by omega), if_neg h0]
      simp only [List.getD_eq_getElem?_getD]
      rw [List.getElem?_set_ne (by omega)]
  · rw [if_neg (by omega)]
    simp only [List.getD_eq_getElem?_getD]
    rw [List.getElem?_set_ne (by omega)]

theorem wrap_inverted (x lo hi : ℝ) (h : hi < lo) : dnestWrap x lo hi = .exit := by
  unfold dnestWrap cmod
  rw [if_neg (by linarith), if_neg (by linarith)]
  rfl

end Mica
