import Verif.Proof.Mock
import Verif.Spec.Kernel
import Mathlib.Tactic.Linarith

namespace Mica

open Finset

/-! ## Interpolation -/

theorem npInterp_grid (n : ℕ) (xp fp : ℕ → ℝ) (hinc : ∀ i j, i < j → j < n → xp i < xp j) (i : ℕ) (hi : i < n) :
    npInterp n xp fp (xp i) = fp i := by
  unfold npInterp
  have h0 : ¬ xp i < xp 0 := by
    rcases Nat.eq_zero_or_pos i with rfl | h
    · exact lt_irrefl _
    · exact not_lt.2 (hinc 0 i h hi).le
  rw [if_neg h0]
  by_cases hl : i = n - 1
  · rw [hl, if_pos le_rfl]
  · rw [if_neg (not_le.2 (hinc i (n - 1) (by omega) (by omega)))]
    have hj : Nat.findGreatest (fun j => xp j ≤ xp i) (n - 1) = i := by
      refine le_antisymm ?_ (Nat.le_findGreatest (by omega) le_rfl)
      by_contra h
      push Not at h
      have hs := Nat.findGreatest_spec (P := fun j => xp j ≤ xp i) (m := i) (n := n - 1) (by omega) le_rfl
      have hle := Nat.findGreatest_le (P := fun j => xp j ≤ xp i) (n - 1)
      exact absurd hs (not_le.2 (hinc _ _ h (by omega)))
    dsimp only
    rw [hj, sub_self, mul_zero, zero_add]

/-! ## The grid -/

theorem mockTs_eq {W : ℕ} (hW : 0 < W) (V nd : ℕ) (DT : ℝ) (i : ℕ) :
    mockTs W V nd DT i = DT * (i - ((V * nd : ℕ) : ℝ) / 2) := by
  have : (W : ℝ) ≠ 0 := by exact_mod_cast hW.ne'
  unfold mockTs
  push_cast
  field_simp

theorem mockTs_step {W : ℕ} (hW : 0 < W) (V nd : ℕ) (DT : ℝ) :
    mockTs W V nd DT 1 - mockTs W V nd DT 0 = DT := by
  rw [mockTs_eq hW, mockTs_eq hW]; push_cast; ring

theorem mockTs_lt {W : ℕ} (hW : 0 < W) (V nd : ℕ) {DT : ℝ} (hDT : 0 < DT) {i j : ℕ} (h : i < j) :
    mockTs W V nd DT i < mockTs W V nd DT j := by
  rw [mockTs_eq hW, mockTs_eq hW]
  have : (i : ℝ) < j := by exact_mod_cast h
  nlinarith

theorem mockTs_shift {W : ℕ} (hW : 0 < W) (V nd : ℕ) (DT : ℝ) (i i' : ℕ) (q : ℤ) (h : (i : ℤ) = i' + q) :
    mockTs W V nd DT i = mockTs W V nd DT i' + q * DT := by
  rw [mockTs_eq hW, mockTs_eq hW]
  have : (i : ℝ) = i' + q := by exact_mod_cast h
  rw [this]; ring

/-- `convolve_fft` away from the start is the sum over the response. -/
theorem convolveFft_inside (n : ℕ) (hn : 0 < n) (con : ℕ → ℝ) (nr : ℕ) (resp : ℕ → ℝ) (hr : nr ≤ n) :
    ∃ c, convolveFft n con nr resp = some c ∧
      ∀ m, c m = ∑ j ∈ range nr, resp j * con ((m + n - j) % n) := by
  refine ⟨_, if_pos hr, fun m => ?_⟩
  rw [irfft_conv hn]
  obtain ⟨d, rfl⟩ := Nat.exists_eq_add_of_le hr
  rw [Finset.sum_range_add]
  have h0 : ∑ x ∈ range d, (if nr + x < nr then resp (nr + x) else 0) *
      con ((m + (nr + d) - (nr + x)) % (nr + d)) = 0 := by
    refine Finset.sum_eq_zero fun x _ => ?_
    rw [if_neg (by omega), zero_mul]
  rw [h0, add_zero]
  refine Finset.sum_congr rfl fun j hj => ?_
  rw [if_pos (Finset.mem_range.1 hj)]

theorem convolveFft_causal (n : ℕ) (con : ℕ → ℝ) (nr : ℕ) (resp : ℕ → ℝ) (m : ℕ) (hm : m < n)
    (h : nr ≤ m + 1) :
    ∑ j ∈ range nr, resp j * con ((m + n - j) % n) = ∑ j ∈ range nr, resp j * con (m - j) := by
  refine Finset.sum_congr rfl fun j hj => ?_
  have hj := Finset.mem_range.1 hj
  rw [show m + n - j = m - j + n by omega, Nat.add_mod_right, Nat.mod_eq_of_lt (by omega)]

end Mica
