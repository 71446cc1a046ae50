import Verif.Proof.Scale
import Mathlib.Analysis.SpecialFunctions.Log.Base
import Mathlib.Algebra.Order.Floor.Ring

namespace Mica

theorem foldl_gt_spec (l : List ℝ) (a : ℝ) :
    a ≤ l.foldl (fun m x => if m < x then x else m) a ∧
      (∀ x ∈ l, x ≤ l.foldl (fun m x => if m < x then x else m) a) ∧
      l.foldl (fun m x => if m < x then x else m) a ∈ a :: l :=
  ⟨(maxC_ge a l).1, (maxC_ge a l).2, maxC_mem a l⟩

/-- Mean interval of a light curve. -/
noncomputable def cadence (r : List Row) : ℝ := spanOf r / (r.length - 1 : ℕ)

theorem cadStep_le (m : ℝ) (r : List Row) : cadStep m r ≤ m := by
  unfold cadStep
  split_ifs with h1 h2
  · exact le_refl _
  · exact le_of_lt h2
  · exact le_refl _

theorem cadFold_spec (rs : List (List Row)) (m : ℝ) :
    rs.foldl cadStep m ≤ m ∧ (∀ r ∈ rs, 2 ≤ r.length → rs.foldl cadStep m ≤ cadence r) ∧
      (rs.foldl cadStep m = m ∨ ∃ r ∈ rs, 2 ≤ r.length ∧ rs.foldl cadStep m = cadence r) := by
  induction rs generalizing m with
  | nil => simp
  | cons r rs ih =>
    obtain ⟨h1, h2, h3⟩ := ih (cadStep m r)
    rw [List.foldl_cons]
    refine ⟨h1.trans (cadStep_le m r), fun x hx hl => ?_, ?_⟩
    · rcases List.mem_cons.1 hx with rfl | hx
      · refine h1.trans ?_
        unfold cadStep cadence
        rw [if_neg (by omega)]
        split_ifs with h
        · exact le_refl _
        · exact not_lt.1 h
      · exact h2 x hx hl
    · rcases h3 with h3 | ⟨x, hx, hl, he⟩
      · rw [h3]
        unfold cadStep
        split_ifs with ha hb
        · left; rfl
        · right; exact ⟨r, by simp, by omega, rfl⟩
        · left; rfl
      · right; exact ⟨x, by simp [hx], hl, he⟩

/-! ## Sums over the largest intervals -/

theorem sumTop_spec (dt : List ℝ) (m : ℕ) (hm : m ≤ dt.length) :
    sumTop dt m = .ok (dt.drop (dt.length - m)).sum := by
  induction m with
  | zero => simp [sumTop]
  | succ m ih =>
    have hlt : m < dt.length := by omega
    rw [sumTop, ih (by omega), Res.ok_bind, if_pos hlt]
    have e : dt.length - (m + 1) = dt.length - 1 - m := by omega
    have h1 : dt.length - 1 - m < dt.length := by omega
    rw [e, List.drop_eq_getElem_cons h1, List.sum_cons, List.getD_eq_getElem _ _ h1, add_comm]
    congr 4
    omega

theorem sumTop_ub (dt : List ℝ) (m : ℕ) (hm : dt.length < m) : sumTop dt m = .ub := by
  induction m with
  | zero => omega
  | succ m ih =>
    rw [sumTop]
    by_cases h : dt.length < m
    · rw [ih h]; rfl
    · rw [sumTop_spec dt m (by omega), Res.ok_bind, if_neg (by omega)]

theorem gapSteps_length (t : List ℝ) : (gapSteps t).length = t.length - 1 := by
  induction t with
  | nil => rfl
  | cons a t ih =>
    cases t with
    | nil => rfl
    | cons b t => simp only [gapSteps, List.length_cons, ih]; omega

theorem gapSteps_sum (a : ℝ) (t : List ℝ) : (gapSteps (a :: t)).sum = (a :: t).getLastD 0 - a := by
  induction t generalizing a with
  | nil => simp [gapSteps]
  | cons b t ih =>
    rw [gapSteps, List.sum_cons, ih b]
    simp only [List.getLastD_cons]
    ring

end Mica
